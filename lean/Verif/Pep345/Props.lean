import Verif.Pep345.Model
import Verif.Pep440.PropsSpecParse
/-! Properties C24–C26: `Requires-Python` specifiers. -/
namespace Pep345
open Go Pep440 Pep440.Spec

theorem cmp_back {s v : Ver} (hs : WF s) (hv : WF v) : ∃ d, v.cmp s = some d ∧ ordOf d = cmpVer v s := cmpVer_spec hv hs

theorem decide_le {d : Int} : decide (d ≤ 0) = decide (ordOf d ≠ .gt) := by
  rw [decide_eq_decide, ne_eq, ordOf_eq_gt]; omega
theorem decide_ge {d : Int} : decide (d ≥ 0) = decide (ordOf d ≠ .lt) := by
  rw [decide_eq_decide, ne_eq, ordOf_eq_lt]; omega
theorem decide_gt {d : Int} : decide (d > 0) = decide (ordOf d = .gt) := by
  rw [decide_eq_decide, ordOf_eq_gt]

theorem prefix_wf_match {s v : Ver} (hs : WF s) (hv : WF v) [Decidable (PrefixMatches s.toPubVer v.toPubVer)] :
    matchPrefixMatch s v = decide (PrefixMatches s.toPubVer v.toPubVer) := by
  rw [Bool.eq_iff_iff, prefixMatch_iff hs.pub hv.pub, decide_eq_true_eq]

theorem cmpLoc_nil (l : List Seg) : cmpLoc l [] ≠ .lt := by
  unfold cmpLoc
  rcases l with _ | ⟨x, l⟩ <;> simp [List.compareLex_nil_nil, List.compareLex_cons_nil]

/-- matching never panics on well-formed input -/
theorem clause_total {c : Clause} {v : Ver} (hc : WF c.ver) (hv : WF v) : ∃ b, c.match v = some b := by
  obtain ⟨d, hd, -⟩ := cmp_back hc hv
  have eq : ∃ b, matchEQ c.ver v = some b := by
    have : ∃ b, (Pep440.Clause.mk (if c.ver.loc.length > 0 ∨ c.ver.dev.isSome then .strictMatch else .prefixMatch)
        c.ver).match v = some b := by
      split
      · simp only [Pep440.Clause.match, strict_spec hc hv]; exact ⟨_, rfl⟩
      · exact ⟨_, rfl⟩
    obtain ⟨b, hb⟩ := this
    unfold matchEQ
    simp only [hb]
    cases b <;> exact ⟨_, rfl⟩
  obtain ⟨b, hb⟩ := eq
  unfold Clause.match
  cases c.op <;> simp only [hd, hb, Option.map_some]
  · split
    · split
      · simp only [Pep440.Clause.match, matchStrictExclude, strict_spec hc hv, Option.map_some]; exact ⟨_, rfl⟩
      · exact ⟨_, rfl⟩
    · exact ⟨_, rfl⟩
  all_goals exact ⟨_, rfl⟩

/-- C24: `!=` is the complement of `==`; `<=`, `>`, `>=` follow the version order; `<V` means below `V` and, when `V` has
neither dev part nor local label, not matched by `V.*` — so it rejects every pre- and dev-release of `V`; a specifier
is the conjunction of its clauses. -/
theorem C24_requires_python {s v : Ver} (hs : WF s) (hv : WF v) :
    (Clause.mk .ne s).match v = ((Clause.mk .eq s).match v).map (!·) ∧
    (Clause.mk .le s).match v = some (decide (cmpVer v s ≠ .gt)) ∧
    (Clause.mk .ge s).match v = some (decide (cmpVer v s ≠ .lt)) ∧
    (Clause.mk .gt s).match v = some (decide (cmpVer v s = .gt)) ∧
    (∃ b, (Clause.mk .lt s).match v = some b ∧
      (s.dev = none → s.loc = [] → (b = true ↔ cmpVer v s = .lt ∧ ¬ PrefixMatches s.toPubVer v.toPubVer)) ∧
      (s.dev ≠ none ∨ s.loc ≠ [] → (b = true ↔ cmpVer v s = .lt))) ∧
    (∀ sp : List Clause, specMatch sp v = some true ↔ ∀ c ∈ sp, c.match v = some true) ∧
    (∀ sp : List Clause, (∀ c ∈ sp, WF c.ver) →
      (specMatch sp v = some false ↔ ∃ c ∈ sp, c.match v = some false)) := by
  obtain ⟨d, hd, hsd⟩ := cmp_back hs hv
  have htrue : ∀ sp : List Clause, specMatch sp v = some true ↔ ∀ c ∈ sp, c.match v = some true := by
    intro sp
    induction sp with
    | nil => simp [specMatch]
    | cons c cs ih =>
      rw [specMatch]
      rcases h : c.match v with _ | (_ | _) <;> simp [h, ih]
  refine ⟨rfl, ?_, ?_, ?_, ?_, htrue, ?_⟩
  · simp only [Clause.match, hd, Option.map_some, decide_le, hsd]
  · simp only [Clause.match, hd, Option.map_some, decide_ge, hsd]
  · simp only [Clause.match, hd, Option.map_some, decide_gt, hsd]
  · obtain ⟨b, hb⟩ := clause_total (c := ⟨.lt, s⟩) hs hv
    refine ⟨b, hb, ?_, ?_⟩
    · intro h1 h2
      simp only [Clause.match, hd, h1, h2, List.length_nil, Nat.lt_irrefl, gt_iff_lt, Option.isSome_none,
        Bool.false_eq_true, or_self, if_false, Pep440.Clause.match, matchPrefixExclude] at hb
      rw [← hsd, ordOf_eq_lt, ← prefixMatch_iff hs.pub hv.pub]
      by_cases h0 : d < 0
      · rw [if_pos h0] at hb; injection hb with hb; subst hb; simp [h0]
      · rw [if_neg h0] at hb; injection hb with hb; subst hb; simp [h0]
    · intro h
      have hc : s.loc.length > 0 ∨ s.dev.isSome = true := by
        rcases h with h | h
        · right
          rcases hx : s.dev with _ | x
          · exact absurd hx h
          · rfl
        · left; rcases hx : s.loc with _ | x
          · exact absurd hx h
          · simp
      simp only [Clause.match, hd, hc, if_true, Pep440.Clause.match, matchStrictExclude, strict_spec hs hv,
        Option.map_some] at hb
      by_cases h0 : d < 0
      · rw [if_pos h0] at hb; injection hb with hb; subst hb
        have hlt : cmpVer v s = .lt := by rw [← hsd, ordOf_eq_lt.2 h0]
        rw [hlt]
        simp only [Bool.not_eq_true', decide_eq_false_iff_not, iff_true]
        split
        · rename_i hl
          intro he
          unfold cmpVer at hlt
          rw [he, hl] at hlt
          exact cmpLoc_nil _ hlt
        · simp
      · rw [if_neg h0] at hb; injection hb with hb; subst hb
        rw [← hsd, ordOf_eq_lt]; simp [h0]
  · intro sp hsp
    have htot : ∃ b, specMatch sp v = some b := by
      clear htrue
      induction sp with
      | nil => exact ⟨_, rfl⟩
      | cons c cs ih =>
        rw [specMatch]
        obtain ⟨b, hb⟩ := clause_total (hsp c (by simp)) hv
        rw [hb]
        cases b
        · exact ⟨_, rfl⟩
        · exact ih (fun c hc => hsp c (by simp [hc]))
    obtain ⟨b, hb⟩ := htot
    have ht := htrue sp
    rw [hb] at ht ⊢
    cases b
    · simp only [true_iff]
      have : ¬ ∀ c ∈ sp, c.match v = some true := fun h => absurd (ht.2 h) (by simp)
      apply Classical.byContradiction
      intro hn
      apply this
      intro c hc
      obtain ⟨x, hx⟩ := clause_total (hsp c hc) hv
      cases x
      · exact absurd ⟨c, hc, hx⟩ hn
      · exact hx
    · simp only [Option.some.injEq, Bool.true_eq_false, false_iff]
      rintro ⟨c, hc, h⟩
      rw [ht.1 rfl c hc] at h; cases h

/-- C24, the pre-release sentence: `<V` for a plain release `V` rejects every version of the same release (zero-padded)
and epoch, in particular all its pre- and dev-releases -/
theorem C24_lt_rejects_prereleases {s v : Ver} (hs : WF s) (hv : WF v) (h1 : s.pre = none) (h2 : s.post = none)
    (h3 : s.dev = none) (h4 : s.loc = []) (he : v.epoch = s.epoch) (hr : ∀ i, comp v.toPubVer i = comp s.toPubVer i) :
    (Clause.mk .lt s).match v = some false := by
  obtain ⟨-, -, -, -, ⟨b, hb, h, -⟩, -⟩ := C24_requires_python hs hv
  have h := h h3 h4
  rw [hb]
  cases b
  · rfl
  · exfalso
    apply (h.1 rfl).2
    refine ⟨he.symm, fun _ i _ => (hr i).symm, ?_⟩
    intro hp; simp [h1, h2] at hp

/-- `3.7rc1` is below `3.7` but `<3.7` rejects it, while `3.6.9` passes -/
example : (Clause.mk .lt { sample with release := [3, 7] }).match { sample with release := [3, 7], pre := some ("rc".toList, 1) } = some false ∧
    (Clause.mk .lt { sample with release := [3, 7] }).match { sample with release := [3, 6, 9] } = some true ∧
    (Clause.mk .ne { sample with release := [3, 7] }).match { sample with release := [3, 7, 1] } = some false := by
  decide +kernel

/-- C25: `== V` without dev part and local label matches exactly the versions of which `V` is a prefix and that have no
dev part, and no post- or pre-release part unless `V` has one (up to and including its own last suffix). -/
theorem C25_requires_python_eq {s v : Ver} (hs : WF s) (hv : WF v) (hd : s.dev = none) (hl : s.loc = []) :
    ∃ b, (Clause.mk .eq s).match v = some b ∧
      (b = true ↔ PrefixMatches s.toPubVer v.toPubVer ∧ v.dev = none ∧ (s.post = none → v.post = none) ∧
        (s.pre = none → v.pre = none)) := by
  obtain ⟨b, hb⟩ := clause_total (c := ⟨.eq, s⟩) hs hv
  refine ⟨b, hb, ?_⟩
  simp only [Clause.match, matchEQ, hd, hl, List.length_nil, Nat.lt_irrefl, gt_iff_lt, Option.isSome_none,
    Bool.false_eq_true, or_self, if_false, Pep440.Clause.match] at hb
  rw [← prefixMatch_iff hs.pub hv.pub]
  cases hm : matchPrefixMatch s v
  · rw [hm] at hb; simp at hb; subst hb; simp
  · rw [hm] at hb
    simp only [Option.some.injEq] at hb
    subst hb
    have pm := (prefixMatch_iff hs.pub hv.pub).1 hm
    rcases hpo : s.post with _ | x
    · rcases hpr : s.pre with _ | y
      · simp [and_assoc]
      · simp
    · simp only [Option.isSome_some, if_true, true_and, reduceCtorEq, false_imp_iff]
      rcases hpr : s.pre with _ | y
      · have := (pm.2.2 (Or.inr (by simp [hpo]))).2.1
        rw [hpr] at this
        have : v.pre = none := by
          rcases hv' : v.pre with _ | z
          · rfl
          · rw [hv'] at this; exact this.elim
        simp [this]
      · simp

/-- `==3.6` matches `3.6.9` but not `3.6.9rc1` -/
example : (Clause.mk .eq { sample with release := [3, 6] }).match { sample with release := [3, 6, 9] } = some true ∧
    (Clause.mk .eq { sample with release := [3, 6] }).match { sample with release := [3, 6, 9], pre := some ("rc".toList, 1) }
      = some false := by decide +kernel

/-! ### C26 -/

theorem ltrim_split (s : Str) : ∃ a, s = a ++ s.dropWhile isSpace ∧ ∀ c ∈ a, isSpace c = true :=
  ⟨s.takeWhile isSpace, List.takeWhile_append_dropWhile.symm, fun c hc => by
    have := List.all_takeWhile (p := isSpace) (l := s)
    exact List.all_eq_true.1 this c hc⟩

theorem parse_trim {ver : Str} {v : Ver} (h : parseVersion ver = .ok v) : parseVersion (trimSpace ver) = .ok v := by
  rw [trimSpace_eq]
  apply parse_rtrim
  obtain ⟨a, e, ha⟩ := ltrim_split ver
  have acc := parse_accepts h
  have ha' : ∀ c ∈ a, reSpace c = true := fun c hc =>
    accepts_space (acc c (by rw [e]; exact List.mem_append_left _ hc)) (ha c hc)
  have m := match_blank a (ver.dropWhile isSpace) [] ha' (by simp)
  rw [List.append_nil, ← e] at m
  rw [← h]
  unfold parseVersion
  rw [m]

theorem trim_sub {ver : Str} : ∀ c ∈ trimSpace ver, c ∈ ver := by
  intro c hc
  rw [trimSpace_eq] at hc
  have := rtrim_sub c hc
  exact (List.dropWhile_sublist _).subset this

/-- the operators as written, and the missing operator -/
def ops : List (Op × Str) :=
  [(.lt, "<".toList), (.gt, ">".toList), (.le, "<=".toList), (.ge, ">=".toList), (.eq, "==".toList), (.ne, "!=".toList),
   (.eq, "".toList)]

theorem splitOp_ops {s : Str} (he : '=' ∉ s) (h1 : '<' ∉ s) (h2 : '>' ∉ s) {op : Op}
    {o : Str} (ho : (op, o) ∈ ops) : splitOp (o ++ s) = (op, s) := by
  have e := noPrefix he
  have l := noPrefix h1
  have g := noPrefix h2
  simp only [hasPrefix] at e l g
  simp only [ops, List.mem_cons, Prod.mk.injEq, List.not_mem_nil, or_false] at ho
  rcases ho with ⟨rfl, rfl⟩ | ⟨rfl, rfl⟩ | ⟨rfl, rfl⟩ | ⟨rfl, rfl⟩ | ⟨rfl, rfl⟩ | ⟨rfl, rfl⟩ | ⟨rfl, rfl⟩
  case inr.inr.inr.inr.inr.inr =>
    cases s with
    | nil => rfl
    | cons c s =>
      have n1 : ¬ '<' = c := by rintro rfl; simp at h1
      have n2 : ¬ '>' = c := by rintro rfl; simp at h2
      have n3 : ¬ '=' = c := by rintro rfl; simp at he
      have n4 : ¬ ('!' = c ∧ ['='].isPrefixOf s = true) := by
        rintro ⟨rfl, h⟩
        cases s with
        | nil => simp at h
        | cons d s => simp [List.isPrefixOf] at h; subst h; simp at he
      have n4' : ('!' == c && ['='].isPrefixOf s) = false := by
        rw [Bool.eq_false_iff]; simpa using n4
      simp [splitOp, hasPrefix, List.isPrefixOf, n1, n2, n3, n4', -Bool.and_eq_false_imp]
  all_goals simp [splitOp, hasPrefix, List.isPrefixOf, e]

theorem trimSpace_nil_op (s : Str) : trimSpace ([] ++ s) = [] ++ trimSpace s := rfl

theorem parseClause_ops {ver : Str} {v : Ver} (h : parseVersion ver = .ok v) {op : Op} {o : Str} (ho : (op, o) ∈ ops) :
    parseClause (o ++ ver) = .ok ⟨op, v⟩ := by
  have main : ∀ s, trimSpace (o ++ ver) = o ++ s → (∀ c ∈ s, c ∈ ver) → parseVersion s = .ok v →
      parseClause (o ++ ver) = .ok ⟨op, v⟩ := by
    intro s ht hsub hp
    unfold parseClause
    rw [ht]
    rw [splitOp_ops (fun hm => acc_not h (by decide) (hsub _ hm)) (fun hm => acc_not h (by decide) (hsub _ hm))
      (fun hm => acc_not h (by decide) (hsub _ hm)) ho]
    simp only [hp]
  by_cases hne : o = []
  · subst hne
    exact main (trimSpace ver) (trimSpace_nil_op ver) trim_sub (parse_trim h)
  · apply main (rtrim ver) _ rtrim_sub (parse_rtrim h)
    apply trimSpace_op hne
    simp only [ops, List.mem_cons, Prod.mk.injEq, List.not_mem_nil, or_false] at ho
    rcases ho with ⟨rfl, rfl⟩ | ⟨rfl, rfl⟩ | ⟨rfl, rfl⟩ | ⟨rfl, rfl⟩ | ⟨rfl, rfl⟩ | ⟨rfl, rfl⟩ | ⟨rfl, rfl⟩ <;> decide

/-- C26: for every list of operators (or none) and texts `ParseVersion` accepts, joined with commas, the parser returns
exactly those clauses in order; a missing operator means `==`.  (In the model the parser has no panicking step: every
slice it takes is of a prefix it has just tested.) -/
theorem C26_parse (l : List (Op × Str × Str × Ver))
    (hop : ∀ x ∈ l, (x.1, x.2.1) ∈ [(Op.lt, "<".toList), (.gt, ">".toList), (.le, "<=".toList), (.ge, ">=".toList),
      (.eq, "==".toList), (.ne, "!=".toList), (.eq, "".toList)])
    (hver : ∀ x ∈ l, parseVersion x.2.2.1 = .ok x.2.2.2) :
    parseSpecifier (join [','] (l.map (fun x => x.2.1 ++ x.2.2.1))) = .ok (l.map (fun x => ⟨x.1, x.2.2.2⟩)) := by
  unfold parseSpecifier
  induction l with
  | nil => simp [join, fieldsFunc, parseClauses]
  | cons x l ih =>
    have ih := ih (fun y hy => hop y (by simp [hy])) (fun y hy => hver y (by simp [hy]))
    have hc := parseClause_ops (hver x (by simp)) (hop x (by simp))
    have hne : x.2.1 ++ x.2.2.1 ≠ [] := by
      have h := hver x (by simp)
      have : x.2.2.1 ≠ [] := by
        intro e; rw [e] at h
        have e0 : parseVersion [] = .error () := by decide +kernel
        rw [e0] at h; cases h
      simp [this]
    have hcomma : ∀ c ∈ x.2.1 ++ x.2.2.1, decide (c = ',') = false := by
      intro c hc
      rw [decide_eq_false_iff_not]
      rintro rfl
      rcases List.mem_append.1 hc with hc | hc
      · have ho := hop x (by simp)
        revert hc
        simp only [List.mem_cons, Prod.mk.injEq, List.not_mem_nil, or_false] at ho
        rcases ho with ⟨-, h⟩ | ⟨-, h⟩ | ⟨-, h⟩ | ⟨-, h⟩ | ⟨-, h⟩ | ⟨-, h⟩ | ⟨-, h⟩ <;> rw [h] <;> decide
      · exact acc_not (hver x (by simp)) (by decide) hc
    cases l with
    | nil =>
      simp only [List.map_cons, List.map_nil, join]
      rw [fieldsFunc_none hne hcomma]
      simp only [parseClauses, hc]
    | cons y l =>
      simp only [List.map_cons, join] at ih ⊢
      rw [List.append_assoc]
      rw [show ∀ z : Str, [','] ++ z = ',' :: z from fun _ => rfl]
      rw [fieldsFunc_cons hne hcomma (by decide)]
      simp only [parseClauses, hc, ih]

/-- the hypotheses are met, e.g. by `>=3.6, <4` and by a bare ` 3.7 ` -/
example : parseVersion " 3.7 ".toList = .ok { sample with release := [3, 7] } ∧
    parseSpecifier ">=3.6,<4, 3.7 ".toList = .ok [⟨.ge, { sample with release := [3, 6] }⟩, ⟨.lt, { sample with release := [4] }⟩,
      ⟨.eq, { sample with release := [3, 7] }⟩] := by decide +kernel

end Pep345
