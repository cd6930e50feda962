import Verif.Pep440.Specifier
/-! Properties C09–C15, C22, C23: what specifier clauses match. -/
namespace Pep440
open Go Spec

/-- sample version values used by the examples -/
def sample : Ver := { epoch := 0, release := [1, 4, 2], pre := none, post := none, dev := none, loc := [] }
def sampleRc : Ver := { epoch := 0, release := [1, 4], pre := some ("rc".toList, 2), post := none, dev := none, loc := [] }

theorem sample_wf : WF sample :=
  { pub := { epoch := by simp [sample, Nat63]
             release := by simp [sample, Nat63]
             pre := by simp [sample]
             post := by simp [sample]
             dev := by simp [sample] }
    loc := by simp [sample, WFLoc] }

theorem sampleRc_wf : WF sampleRc :=
  { pub := { epoch := by simp [sampleRc, Nat63]
             release := by simp [sampleRc, Nat63]
             pre := by simp [sampleRc, Nat63, spellings]
             post := by simp [sampleRc]
             dev := by simp [sampleRc] }
    loc := by simp [sampleRc, WFLoc] }

/-! ### C09 -/

/-- C09: a specifier matches iff all its clauses do; on well-formed input it answers (no panic), and answers no iff
some clause says no.  Hence order and repetition of clauses do not matter, adding clauses only removes matches, and
the empty specifier matches everything. -/
theorem C09_conjunction :
    (∀ (sp : Specifier) (v : Ver), specMatch sp v = some true ↔ ∀ c ∈ sp, c.match v = some true) ∧
    (∀ (sp : Specifier) (v : Ver), (∀ c ∈ sp, WFClause c) → WF v →
      (specMatch sp v = some false ↔ ∃ c ∈ sp, c.match v = some false)) ∧
    (∀ (sp sp' : Specifier) (v : Ver), (∀ c ∈ sp, WFClause c) → WF v → (∀ c, c ∈ sp ↔ c ∈ sp') →
      specMatch sp v = specMatch sp' v) ∧
    (∀ (sp sp' : Specifier) (v : Ver), specMatch (sp ++ sp') v = some true → specMatch sp v = some true) ∧
    (∀ v, specMatch [] v = some true) := by
  have hfalse : ∀ (sp : Specifier) (v : Ver), (∀ c ∈ sp, WFClause c) → WF v →
      (specMatch sp v = some false ↔ ∃ c ∈ sp, c.match v = some false) := by
    intro sp v hs hv
    obtain ⟨b, hb⟩ := specMatch_total hs hv
    have ht := @specMatch_true sp v
    rw [hb] at ht ⊢
    cases b
    · simp only [true_iff]
      have : ¬ ∀ c ∈ sp, c.match v = some true := fun h => absurd (ht.2 h) (by simp)
      apply Classical.byContradiction
      intro hn
      apply this
      intro c hc
      obtain ⟨x, hx⟩ := clause_total (hs c hc) hv
      cases x
      · exact absurd ⟨c, hc, hx⟩ hn
      · exact hx
    · simp only [Option.some.injEq, Bool.true_eq_false, false_iff]
      rintro ⟨c, hc, h⟩
      rw [ht.1 rfl c hc] at h; cases h
  refine ⟨fun sp v => specMatch_true, hfalse, ?_, ?_, fun _ => rfl⟩
  · intro sp sp' v hs hv hm
    have hs' : ∀ c ∈ sp', WFClause c := fun c hc => hs c ((hm c).2 hc)
    obtain ⟨b, hb⟩ := specMatch_total hs hv
    obtain ⟨b', hb'⟩ := specMatch_total hs' hv
    rw [hb, hb']
    congr 1
    rw [Bool.eq_iff_iff]
    have h1 := @specMatch_true sp v
    have h2 := @specMatch_true sp' v
    rw [hb] at h1; rw [hb'] at h2
    simp only [Option.some.injEq] at h1 h2
    rw [h1, h2]
    exact ⟨fun h c hc => h c ((hm c).2 hc), fun h c hc => h c ((hm c).1 hc)⟩
  · intro sp sp' v h
    rw [specMatch_true] at h ⊢
    exact fun c hc => h c (List.mem_append_left _ hc)

example : WFClause ⟨.ge, sampleRc⟩ ∧ WF sample ∧ specMatch [⟨.ge, sampleRc⟩, ⟨.strictMatch, sample⟩] sample = some true ∧
    specMatch [⟨.ge, sampleRc⟩, ⟨.gt, sample⟩] sample = some false :=
  ⟨⟨sampleRc_wf, by simp [sampleRc]⟩, sample_wf, by decide +kernel, by decide +kernel⟩

/-! ### C10 -/

/-- C10: exclusion clauses are complements of matching clauses, `>` of `<=`, `<` of `>=` (including whether they
panic); of `<=` and `>=` at least one matches. -/
theorem C10_complements (s v : Ver) :
    (Clause.mk .strictExclude s).match v = ((Clause.mk .strictMatch s).match v).map (!·) ∧
    (Clause.mk .prefixExclude s).match v = ((Clause.mk .prefixMatch s).match v).map (!·) ∧
    (Clause.mk .gt s).match v = ((Clause.mk .le s).match v).map (!·) ∧
    (Clause.mk .lt s).match v = ((Clause.mk .ge s).match v).map (!·) ∧
    (WF s → WF v → (Clause.mk .le s).match v = some true ∨ (Clause.mk .ge s).match v = some true) := by
  refine ⟨rfl, rfl, ?_, ?_, ?_⟩
  · simp only [Clause.match, matchLE, matchGT, Option.map_map, Function.comp_def]
    congr 1; funext d; rw [← decide_not]; congr 1; rw [eq_iff_iff]; omega
  · simp only [Clause.match, matchGE, matchLT, Option.map_map, Function.comp_def]
    congr 1; funext d; rw [← decide_not]; congr 1; rw [eq_iff_iff]; omega
  · intro hs hv
    simp only [Clause.match, ordered_spec hs hv]
    cases cmpVer v s <;> simp

example : (Clause.mk .le sample).match sampleRc = some true ∧ (Clause.mk .gt sample).match sampleRc = some false ∧
    (Clause.mk .prefixExclude sampleRc).match sample = some true := by decide +kernel

/-! ### C11 -/

/-- the clauses `ParseSpecifier` returns -/
theorem parseClause_ok {s : Str} {c : Clause} (h : parseClause s = some (.ok c)) :
    (∃ t, parseVersion t = .ok c.ver) ∧ 1 ≤ c.ver.release.length ∧
    (c.op = .compatible → 2 ≤ c.ver.release.length) ∧
    (c.op ≠ .strictMatch → c.op ≠ .strictExclude → c.ver.loc = []) ∧
    (c.op = .prefixMatch ∨ c.op = .prefixExclude → c.ver.dev = none) := by
  unfold parseClause at h
  split at h
  · cases h
  · cases h
  · rename_i op t minSegments devOK localOK ho
    split at h
    · cases h
    · rename_i ver hv
      split at h
      · cases h
      · split at h
        · cases h
        · split at h
          · cases h
          · rename_i h1 h2 h3
            injection h with h; injection h with h; subst h
            have hl : 1 ≤ ver.release.length := by
              have := (parsed_shape hv).release
              rcases hr : ver.release with _ | ⟨a, l⟩
              · exact absurd hr this
              · simp
            have hop : (op = .compatible → minSegments = 2) ∧
                (op ≠ .strictMatch → op ≠ .strictExclude → localOK = false) ∧
                (op = .prefixMatch ∨ op = .prefixExclude → devOK = false) := by
              unfold splitOp at ho
              simp only at ho
              repeat' split at ho
              all_goals first
                | (cases ho; done)
                | (injection ho with ho; injection ho with ho; simp only [Prod.mk.injEq] at ho
                   obtain ⟨rfl, -, rfl, rfl, rfl⟩ := ho; simp)
            refine ⟨⟨t, hv⟩, hl, ?_, ?_, ?_⟩
            · intro e; rw [hop.1 e] at h1; simp only at e ⊢; omega
            · intro e1 e2
              rw [hop.2.1 e1 e2] at h3
              simp only [Bool.not_false, and_true] at h3
              exact List.eq_nil_of_length_eq_zero (by simp only at *; omega)
            · intro e
              rw [hop.2.2 e] at h2
              simpa using h2

theorem parseClauses_ok {l : List Str} {sp : Specifier} (h : parseClauses l = some (.ok sp)) :
    ∀ c ∈ sp, ∃ s, parseClause s = some (.ok c) := by
  induction l generalizing sp with
  | nil => simp [parseClauses] at h; subst h; simp
  | cons s ss ih =>
    rw [parseClauses] at h
    split at h
    · exact ih h
    · split at h
      · cases h
      · cases h
      · rename_i c hc
        split at h
        · cases h
        · cases h
        · rename_i cs hcs
          injection h with h; injection h with h; subst h
          intro x hx
          rcases List.mem_cons.1 hx with rfl | hx
          · exact ⟨_, hc⟩
          · exact ih hcs x hx

/-- C11: `~= V.N` is `>= V.N` together with the prefix match on `V`, and the parser only produces `~=` clauses with at
least two release components.  The second conjunct spells both halves out in terms of the order and of
`PrefixMatches`. -/
theorem C11_compatible :
    (∀ s v : Ver, 2 ≤ s.release.length →
      ((Clause.mk .compatible s).match v = some true ↔
        (Clause.mk .ge s).match v = some true ∧ (Clause.mk .prefixMatch (compatBase s.toPubVer)).match v = some true)) ∧
    (∀ s v : Ver, WF s → WF v → 2 ≤ s.release.length →
      ∃ b, (Clause.mk .compatible s).match v = some b ∧
        (b = true ↔ cmpVer v s ≠ .lt ∧ PrefixMatches (compatBase s.toPubVer).toPubVer v.toPubVer)) ∧
    (∀ str sp, parseSpecifier str = some (.ok sp) → ∀ c ∈ sp, c.op = .compatible → 2 ≤ c.ver.release.length) := by
  have ne : ∀ s : Ver, 2 ≤ s.release.length → s.release ≠ [] := fun s h e => by simp [e] at h
  refine ⟨?_, ?_, ?_⟩
  · intro s v h
    simp only [Clause.match, matchCompatible_eq (ne s h)]
    rcases matchGE s v with _ | (_ | _) <;> simp
  · intro s v hs hv h
    simp only [Clause.match, matchCompatible_eq (ne s h), (ordered_spec hs hv).2.1, Option.map_some]
    refine ⟨_, rfl, ?_⟩
    rw [Bool.and_eq_true, prefixMatch_iff (compatBase_wf hs.pub) hv.pub, decide_eq_true_eq]
  · intro str sp h c hc he
    obtain ⟨s, hs⟩ := parseClauses_ok h c hc
    exact (parseClause_ok hs).2.2.1 he

example : (Clause.mk .compatible sample).match { sample with release := [1, 4, 5] } = some true ∧
    (Clause.mk .compatible sample).match { sample with release := [1, 5] } = some false ∧
    parseSpecifier "~= 1.4.2".toList = some (.ok [⟨.compatible, sample⟩]) ∧
    parseSpecifier "~= 1".toList = some (.error ()) := by decide +kernel

/-! ### C12 -/

/-- C12: `==` without a local label compares public versions, with one the whole versions. -/
theorem C12_strict_match {s v : Ver} (hs : WF s) (hv : WF v) :
    ∃ b, (Clause.mk .strictMatch s).match v = some b ∧
      (s.loc = [] → (b = true ↔ cmpPub v.toPubVer s.toPubVer = .eq)) ∧
      (s.loc ≠ [] → (b = true ↔ cmpVer v s = .eq)) := by
  simp only [Clause.match, strict_spec hs hv]
  refine ⟨_, rfl, ?_, ?_⟩
  · intro h; simp [h]
  · intro h; simp [h]

example : (Clause.mk .strictMatch sample).match { sample with loc := [.str "x".toList] } = some true ∧
    (Clause.mk .strictMatch { sample with loc := [.str "x".toList] }).match sample = some false := by decide +kernel

/-! ### C13 -/

/-- C13: `==s.*` matches exactly the versions with the components the clause gives. -/
theorem C13_prefix_match {s v : Ver} (hs : WF s) (hv : WF v) :
    ∃ b, (Clause.mk .prefixMatch s).match v = some b ∧ (b = true ↔ PrefixMatches s.toPubVer v.toPubVer) :=
  ⟨_, rfl, prefixMatch_iff hs.pub hv.pub⟩

/-- C13, last sentence: the candidate's local label and dev number never matter -/
theorem C13_local_dev_irrelevant {s v w : Ver} (hs : WF s) (hv : WF v) (hw : WF w) (h1 : v.epoch = w.epoch)
    (h2 : v.release = w.release) (h3 : v.pre = w.pre) (h4 : v.post = w.post) :
    (Clause.mk .prefixMatch s).match v = (Clause.mk .prefixMatch s).match w := by
  simp only [Clause.match, Option.some.injEq]
  rw [Bool.eq_iff_iff, prefixMatch_iff hs.pub hv.pub, prefixMatch_iff hs.pub hw.pub]
  unfold PrefixMatches
  have : ∀ i, comp v.toPubVer i = comp w.toPubVer i := fun i => by unfold comp; simp only [h2]
  simp only [h1, h3, h4, this]

example : (Clause.mk .prefixMatch { sample with release := [1, 4] }).match sample = some true ∧
    (Clause.mk .prefixMatch { sample with release := [1, 5] }).match sample = some false ∧
    (Clause.mk .prefixMatch sampleRc).match { sampleRc with release := [1, 4, 0], post := some 1 } = some true ∧
    (Clause.mk .prefixMatch sampleRc).match { sampleRc with release := [1, 4, 1] } = some false := by decide +kernel

/-! ### C14 -/

/-- C14 (partial): `<V` matches exactly the versions below `V` in the PEP 440 order and `>V` exactly those above it; so
neither matches `V` itself, `<V` never matches `V` with a local label, and `>V` never matches a pre-release of `V`.
Missing: PEP 440 also wants pre-releases of `V` left out of `<V`, post-releases and local versions of `V` left out of
`>V`; the code does not do that, see `C14_violated_lt` and `C14_violated_gt`. -/
theorem C14_exclusive_partial {s v : Ver} (hs : WF s) (hv : WF v) :
    (Clause.mk .lt s).match v = some (decide (cmpVer v s = .lt)) ∧
    (Clause.mk .gt s).match v = some (decide (cmpVer v s = .gt)) :=
  ⟨(ordered_spec hs hv).2.2.1, (ordered_spec hs hv).2.2.2⟩

example : (Clause.mk .lt sample).match sampleRc = some true ∧ (Clause.mk .gt sample).match sampleRc = some false := by
  decide +kernel

/-- C14 is violated: `< 1.7` matches `1.7a1`. -/
theorem C14_violated_lt : ∃ sp v, parseSpecifier "< 1.7".toList = some (.ok sp) ∧ parseVersion "1.7a1".toList = .ok v ∧
    specMatch sp v = some true :=
  ⟨[⟨.lt, { epoch := 0, release := [1, 7], pre := none, post := none, dev := none, loc := [] }⟩],
   { epoch := 0, release := [1, 7], pre := some ("a".toList, 1), post := none, dev := none, loc := [] },
   by decide +kernel⟩

/-- C14 is violated: `> 1.7` matches `1.7.post1` and `1.7+local`. -/
theorem C14_violated_gt : ∃ sp v w, parseSpecifier "> 1.7".toList = some (.ok sp) ∧
    parseVersion "1.7.post1".toList = .ok v ∧ parseVersion "1.7+local".toList = .ok w ∧
    specMatch sp v = some true ∧ specMatch sp w = some true :=
  ⟨[⟨.gt, { epoch := 0, release := [1, 7], pre := none, post := none, dev := none, loc := [] }⟩],
   { epoch := 0, release := [1, 7], pre := none, post := some 1, dev := none, loc := [] },
   { epoch := 0, release := [1, 7], pre := none, post := none, dev := none, loc := [.str "local".toList] },
   by decide +kernel⟩

/-! ### C15 -/

theorem noLocal_wf {v : Ver} (h : WF v) : WF (noLocal v) := ⟨h.pub, by simp [noLocal, WFLoc]⟩

/-- C15 (partial): for a clause without local label, `>=V` ignores the candidate's local label; `<=V` does unless the
public versions are equal.  Missing: `<=V` on `V+local`, see `C15_violated`. -/
theorem C15_inclusive_partial {s v : Ver} (hs : WF s) (hl : s.loc = []) (hv : WF v) :
    (Clause.mk .ge s).match v = (Clause.mk .ge s).match (noLocal v) ∧
    (cmpPub v.toPubVer s.toPubVer ≠ .eq → (Clause.mk .le s).match v = (Clause.mk .le s).match (noLocal v)) := by
  have hn := noLocal_wf hv
  have e : (noLocal v).toPubVer = v.toPubVer := rfl
  have e2 : cmpLoc (noLocal v).loc [] = .eq := rfl
  simp only [Clause.match, ordered_spec hs hv, ordered_spec hs hn, Option.some.injEq, decide_eq_decide, cmpVer, hl, e, e2]
  constructor
  · have : cmpLoc v.loc [] ≠ .lt := by
      unfold cmpLoc
      rcases v.loc with _ | ⟨x, l⟩ <;> simp [List.compareLex_nil_nil, List.compareLex_cons_nil]
    cases cmpPub v.toPubVer s.toPubVer <;> simp [this]
  · intro h
    cases hc : cmpPub v.toPubVer s.toPubVer <;> simp [hc] at h ⊢

/-- C15, exactly: for a clause without local label, `<=V` ignores the candidate's local label unless the candidate has one and its
public version equals `V`. -/
theorem C15_exact {s v : Ver} (hs : WF s) (hl : s.loc = []) (hv : WF v) :
    (Clause.mk .le s).match v = (Clause.mk .le s).match (noLocal v) ↔ v.loc = [] ∨ cmpPub v.toPubVer s.toPubVer ≠ .eq := by
  have hn := noLocal_wf hv
  have e : (noLocal v).toPubVer = v.toPubVer := rfl
  have e2 : cmpLoc (noLocal v).loc [] = .eq := rfl
  simp only [Clause.match, ordered_spec hs hv, ordered_spec hs hn, Option.some.injEq, decide_eq_decide, cmpVer, hl, e, e2]
  cases hc : cmpPub v.toPubVer s.toPubVer with
  | eq =>
    unfold cmpLoc
    rcases v.loc with _ | ⟨x, l⟩ <;> simp [List.compareLex_nil_nil, List.compareLex_cons_nil]
  | lt => simp
  | gt => simp

example : (Clause.mk .ge sampleRc).match { sampleRc with loc := [.int 3] } = some true := by decide +kernel

example : (Clause.mk .le sampleRc).match { sampleRc with loc := [.int 3] } = some false ∧
    (Clause.mk .le sampleRc).match { sampleRc with epoch := 1, loc := [.int 3] } = some false ∧
    (Clause.mk .le sampleRc).match sampleRc = some true := by decide +kernel

/-- C15 is violated: `<=1.0` matches `1.0` but not `1.0+ubuntu1`. -/
theorem C15_violated : ∃ sp v w, parseSpecifier "<=1.0".toList = some (.ok sp) ∧ parseVersion "1.0".toList = .ok v ∧
    parseVersion "1.0+ubuntu1".toList = .ok w ∧ specMatch sp v = some true ∧ specMatch sp w = some false :=
  ⟨[⟨.le, { epoch := 0, release := [1, 0], pre := none, post := none, dev := none, loc := [] }⟩],
   { epoch := 0, release := [1, 0], pre := none, post := none, dev := none, loc := [] },
   { epoch := 0, release := [1, 0], pre := none, post := none, dev := none, loc := [.str "ubuntu1".toList] },
   by decide +kernel⟩

/-! ### C22 -/

theorem pub_eq_parts {v w : Ver} (hv : WF v) (hw : WF w) (h : v.toPubVer.cmp w.toPubVer = some 0) :
    v.epoch = w.epoch ∧ (∀ i, comp v.toPubVer i = comp w.toPubVer i) ∧ SamePre v.pre w.pre ∧ v.post = w.post := by
  unfold PubVer.cmp at h
  split at h
  · rename_i he; injection h with h; exact absurd h he
  · rename_i he
    split at h
    · rename_i hr; injection h with h; exact absurd h hr
    · rename_i hr
      split at h
      · cases h
      · rename_i d hd
        split at h
        · rename_i h0; injection h with h; exact absurd h h0
        · rename_i h0
          split at h
          · rename_i hp; injection h with h; exact absurd h hp
          · rename_i hp
            simp only [ne_eq, Classical.not_not] at he hr h0 hp
            refine ⟨(cmpEpoch_zero hv.pub hw.pub).1 he, (cmpRelease_zero hv.pub.release hw.pub.release).1 hr, ?_,
              (cmpPost_zero hv.pub hw.pub).1 hp⟩
            obtain ⟨d', hd', hs⟩ := cmpPre_spec hv.pub hw.pub
            rw [hd] at hd'; injection hd' with hd'; subst hd' h0
            rw [ordOf_eq_eq.2 rfl] at hs
            unfold Spec.preKey at hs
            rcases hvp : v.pre with _ | ⟨l, n⟩ <;> rcases hwp : w.pre with _ | ⟨l', n'⟩ <;> simp only [hvp, hwp] at hs
            · trivial
            · exfalso; split at hs <;> simp [Ext.cmp] at hs
            · exfalso; split at hs <;> simp [Ext.cmp] at hs
            · simp only [Ext.cmp, cmpPair] at hs
              have := hs.symm
              rw [Ordering.then_eq_eq] at this
              exact ⟨Nat.compare_eq_eq.1 this.1, Int.compare_eq_eq.1 this.2⟩

/-- C22: versions that compare equal satisfy the same clauses. -/
theorem C22_equal_versions_same_clauses {c : Clause} {v w : Ver} (hc : WFClause c) (hv : WF v) (hw : WF w)
    (h : v.cmp w = some 0) : c.match v = c.match w := by
  obtain ⟨op, s⟩ := c
  obtain ⟨hs, hr⟩ := hc
  obtain ⟨d, hd, hsd⟩ := cmpVer_spec hv hw
  rw [h] at hd; injection hd with hd; subst hd
  rw [ordOf_eq_eq.2 rfl] at hsd
  have key : cmpVer v s = cmpVer w s := Std.TransCmp.congr_left hsd.symm
  have hpub : cmpPub v.toPubVer w.toPubVer = .eq := by
    have := hsd.symm
    unfold cmpVer at this
    rw [Ordering.then_eq_eq] at this
    exact this.1
  have keyp : cmpPub v.toPubVer s.toPubVer = cmpPub w.toPubVer s.toPubVer := Std.TransCmp.congr_left hpub
  have hz : v.toPubVer.cmp w.toPubVer = some 0 := by
    obtain ⟨d, hd, hsd⟩ := cmpPub_spec hv.pub hw.pub
    rw [hpub, ordOf_eq_eq] at hsd; rw [hd, hsd]
  have parts := pub_eq_parts hv hw hz
  have pm : ∀ s : Ver, WFPub s.toPubVer → matchPrefixMatch s v = matchPrefixMatch s w := by
    intro s hs
    rw [Bool.eq_iff_iff, prefixMatch_iff hs hv.pub, prefixMatch_iff hs hw.pub]
    unfold PrefixMatches
    have sp : SamePre s.pre v.pre ↔ SamePre s.pre w.pre := by
      have := parts.2.2.1
      rcases s.pre with _ | ⟨a, b⟩ <;> rcases hvp : v.pre with _ | ⟨l, n⟩ <;> rcases hwp : w.pre with _ | ⟨l', n'⟩ <;>
        simp only [hvp, hwp, SamePre] at this ⊢
      rw [this.1, this.2]
    simp only [parts.1, parts.2.1, parts.2.2.2, sp]
  unfold Clause.match
  cases op <;> simp only
  · rw [matchCompatible_eq hr, matchCompatible_eq hr, (ordered_spec hs hv).2.1, (ordered_spec hs hw).2.1, key,
      pm _ (compatBase_wf hs.pub)]
  · rw [strict_spec hs hv, strict_spec hs hw, key, keyp]
  · rw [pm s hs.pub]
  · rw [matchStrictExclude, matchStrictExclude, strict_spec hs hv, strict_spec hs hw, key, keyp]
  · rw [matchPrefixExclude, matchPrefixExclude, pm s hs.pub]
  · rw [(ordered_spec hs hv).1, (ordered_spec hs hw).1, key]
  · rw [(ordered_spec hs hv).2.1, (ordered_spec hs hw).2.1, key]
  · rw [(ordered_spec hs hv).2.2.1, (ordered_spec hs hw).2.2.1, key]
  · rw [(ordered_spec hs hv).2.2.2, (ordered_spec hs hw).2.2.2, key]

example : ({ sampleRc with release := [1, 4, 0, 0] } : Ver).cmp { sampleRc with pre := some ("preview".toList, 2) } = some 0 := by
  decide +kernel

/-! ### C23 -/

theorem inAllowList_spec {list : List Ver} {v : Ver} (hl : ∀ i ∈ list, WF i) (hv : WF v) :
    ∃ b, inAllowList list v = some b ∧ (b = true ↔ ∃ i ∈ list, cmpVer i v = .eq) := by
  induction list with
  | nil => exact ⟨false, rfl, by simp⟩
  | cons i is ih =>
    obtain ⟨d, hd, hs⟩ := cmpVer_spec (hl i (by simp)) hv
    rw [inAllowList, hd]
    simp only
    obtain ⟨b, hb, hi⟩ := ih (fun j hj => hl j (by simp [hj]))
    by_cases h0 : d = 0
    · rw [if_pos h0]
      refine ⟨true, rfl, ?_⟩
      simp only [true_iff]
      exact ⟨i, by simp, by rw [← hs, ordOf_eq_eq.2 h0]⟩
    · rw [if_neg h0]
      refine ⟨b, hb, ?_⟩
      rw [hi]
      constructor
      · rintro ⟨j, hj, e⟩; exact ⟨j, by simp [hj], e⟩
      · rintro ⟨j, hj, e⟩
        rcases List.mem_cons.1 hj with rfl | hj
        · rw [e, ordOf_eq_eq] at hs; exact absurd hs h0
        · exact ⟨j, hj, e⟩

/-- C23: `ExcludePreReleases` allows exactly the versions without pre-release and dev part and those equal to a listed
one; `MultiExcluder` allows what all its members allow. -/
theorem C23_excluders :
    (∀ (list : List Ver) (v : Ver), (∀ i ∈ list, WF i) → WF v →
      ∃ b, excludePreReleases list v = some b ∧
        (b = true ↔ (v.pre = none ∧ v.dev = none) ∨ ∃ i ∈ list, cmpVer i v = .eq)) ∧
    (∀ (es : List Excl) (v : Ver), multiExcluder es v = some true ↔ ∀ e ∈ es, e v = some true) ∧
    (∀ (es : List Excl) (v : Ver), (∀ e ∈ es, e v ≠ none) → multiExcluder es v ≠ none) ∧
    (∀ v, allowAll v = some true) := by
  refine ⟨?_, ?_, ?_, fun _ => rfl⟩
  · intro list v hl hv
    unfold excludePreReleases
    by_cases hp : v.pre = none ∧ v.dev = none
    · exact ⟨true, by simp [PubVer.isPreRelease, hp], by simp [hp]⟩
    · obtain ⟨b, hb, hi⟩ := inAllowList_spec hl hv
      refine ⟨b, ?_, by simp only [hp, false_or, hi]⟩
      rw [if_neg]
      · exact hb
      · simp only [PubVer.isPreRelease, Bool.not_eq_true', Bool.or_eq_false_iff]
        intro h
        exact hp (by simpa using h)
  · intro es v
    induction es with
    | nil => simp [multiExcluder]
    | cons e es ih =>
      rw [multiExcluder]
      rcases he : e v with _ | (_ | _) <;> simp [he, ih]
  · intro es v h
    induction es with
    | nil => simp [multiExcluder]
    | cons e es ih =>
      rw [multiExcluder]
      have h1 := h e (by simp)
      rcases he : e v with _ | (_ | _)
      · exact absurd he h1
      · simp
      · exact ih (fun x hx => h x (by simp [hx]))

example : excludePreReleases [{ sampleRc with release := [1, 4, 0] }] sampleRc = some true ∧
    excludePreReleases [sample] sampleRc = some false ∧ excludePreReleases [] sample = some true ∧
    multiExcluder [allowAll, excludePreReleases []] sampleRc = some false := by decide +kernel

end Pep440
