import Verif.Pep440.PropsSelect
/-! Properties C16–C18: parsing and printing specifiers. -/
namespace Pep440
open Go Spec

/-- characters a version text may contain -/
theorem parse_accepts {s : Str} {v : Ver} (h : parseVersion s = .ok v) : ∀ c ∈ s, reVersion.accepts c = true := by
  unfold parseVersion at h
  split at h
  · cases h
  · rename_i m hm
    unfold Re.matchFull at hm
    rw [Option.map_eq_some_iff] at hm
    obtain ⟨p, hp, -⟩ := hm
    have h1 := List.mem_of_find?_eq_some hp
    have h2 := List.find?_some hp
    obtain ⟨w, e, hw⟩ := Re.run_split _ _ _ h1
    have : p.2 = [] := by simpa using h2
    rw [this, List.append_nil] at e
    subst e; exact hw

theorem accepts_space {c : Char} (h : reVersion.accepts c = true) (hs : isSpace c = true) : reSpace c = true := by
  simp only [isSpace, Bool.or_eq_true, decide_eq_true_eq, Bool.and_eq_true] at hs
  have alt : ∀ d : Char, reVersion.accepts d = false → c = d → False := fun d h1 e => by rw [e, h1] at h; cases h
  rcases hs with (((((((((((((((h | h) | h) | h) | h) | h) | h) | h) | h) | h) | h) | h) | h) | h) | h)) <;>
    first
    | (subst h; decide)
    | exact absurd h (fun e => alt _ (by decide) e)
    | skip
  -- the range U+2000 … U+200A
  obtain ⟨h1, h2⟩ := h
  have h1 := char_le.1 h1
  have h2 := char_le.1 h2
  exfalso
  have key : ∀ n : Fin 11, reVersion.accepts (Char.ofNat (8192 + n.val)) = false := by decide
  have a : (' ' : Char).toNat = 8192 := rfl
  have b : (' ' : Char).toNat = 8202 := rfl
  have e : c = Char.ofNat (8192 + (c.toNat - 8192)) := by
    rw [show 8192 + (c.toNat - 8192) = c.toNat by omega, Char.ofNat_toNat]
  exact alt _ (key ⟨c.toNat - 8192, by omega⟩) e

/-! ### trimming -/

def rtrim (s : Str) : Str := (s.reverse.dropWhile isSpace).reverse

theorem trimSpace_eq (s : Str) : trimSpace s = rtrim (s.dropWhile isSpace) := rfl

theorem rtrim_split (s : Str) : ∃ b, s = rtrim s ++ b ∧ ∀ c ∈ b, isSpace c = true := by
  refine ⟨(s.reverse.takeWhile isSpace).reverse, ?_, ?_⟩
  · unfold rtrim
    rw [← List.reverse_append, List.takeWhile_append_dropWhile, List.reverse_reverse]
  · intro c hc
    rw [List.mem_reverse] at hc
    have := List.all_takeWhile (p := isSpace) (l := s.reverse)
    exact List.all_eq_true.1 this c hc

theorem dropWhile_self {p : Char → Bool} {s : Str} (h : ∀ c ∈ s.head?, p c = false) : s.dropWhile p = s := by
  cases s with
  | nil => rfl
  | cons c t => rw [List.dropWhile_cons, if_neg (by simp [h c (by simp)])]

theorem head_dropWhile {p : Char → Bool} (s : Str) : ∀ c ∈ (s.dropWhile p).head?, p c = false := by
  intro c hc
  have := List.head?_dropWhile_not p s
  simp only [Option.mem_def] at hc
  rw [hc] at this
  simpa using this

theorem rtrim_idem (s : Str) : rtrim (rtrim s) = rtrim s := by
  unfold rtrim
  rw [List.reverse_reverse, dropWhile_self (head_dropWhile _)]

theorem rtrim_append {a b : Str} (h : ∀ c ∈ a, isSpace c = false) : rtrim (a ++ b) = a ++ rtrim b := by
  unfold rtrim
  rw [List.reverse_append, List.dropWhile_append]
  split
  · rename_i hb
    have hb : List.dropWhile isSpace b.reverse = [] := by simpa using hb
    rw [hb, dropWhile_self (by
      intro c hc
      exact h c (by rw [← List.mem_reverse]; exact List.mem_of_mem_head? hc))]
    simp
  · rw [List.reverse_append, List.reverse_reverse]

theorem trimSpace_op {o r : Str} (ho : o ≠ []) (h : ∀ c ∈ o, isSpace c = false) : trimSpace (o ++ r) = o ++ rtrim r := by
  rw [trimSpace_eq, dropWhile_self, rtrim_append h]
  intro c hc
  cases o with
  | nil => exact absurd rfl ho
  | cons d o => simp at hc; subst hc; exact h _ (by simp)

theorem trimSpace_idem (s : Str) : trimSpace (trimSpace s) = trimSpace s := by
  rw [trimSpace_eq s, trimSpace_eq]
  have : ∀ c ∈ (rtrim (s.dropWhile isSpace)).head?, isSpace c = false := by
    intro c hc
    obtain ⟨b, e, -⟩ := rtrim_split (s.dropWhile isSpace)
    apply head_dropWhile (p := isSpace) s c
    rw [e]
    rcases hr : rtrim (s.dropWhile isSpace) with _ | ⟨d, t⟩
    · rw [hr] at hc; simp at hc
    · rw [hr] at hc; simpa using hc
  rw [dropWhile_self this, rtrim_idem]

theorem parse_rtrim {ver : Str} {v : Ver} (h : parseVersion ver = .ok v) : parseVersion (rtrim ver) = .ok v := by
  obtain ⟨b, e, hb⟩ := rtrim_split ver
  have acc := parse_accepts h
  have hb' : ∀ c ∈ b, reSpace c = true := fun c hc =>
    accepts_space (acc c (by rw [e]; exact List.mem_append_right _ hc)) (hb c hc)
  have m := match_blank [] (rtrim ver) b (by simp) hb'
  rw [List.nil_append, ← e] at m
  rw [← h]
  unfold parseVersion
  rw [m]

theorem rtrim_sub {ver : Str} : ∀ c ∈ rtrim ver, c ∈ ver := by
  intro c hc
  obtain ⟨b, e, -⟩ := rtrim_split ver
  rw [e]; exact List.mem_append_left _ hc

/-! ### one clause -/

theorem noSuffix {s : Str} (h : '*' ∉ s) : hasSuffix s ".*".toList = false := by
  cases hc : hasSuffix s ".*".toList with
  | false => rfl
  | true =>
    exfalso
    unfold hasSuffix at hc
    rw [List.isSuffixOf_iff_suffix] at hc
    obtain ⟨t, ht⟩ := hc
    exact h (by rw [← ht]; simp)

theorem noPrefix {s : Str} {c : Char} (h : c ∉ s) : hasPrefix s [c] = false := by
  cases s with
  | nil => rfl
  | cons d s => simp [hasPrefix, List.isPrefixOf]; rintro rfl; simp at h

/-- the operators that need no white space, `<` and `>` with one blank, and what `splitOp` makes of them -/
theorem splitOp_plain {s : Str} (hs : '*' ∉ s) (he : '=' ∉ s) :
    splitOp ("~=".toList ++ s) = some (.ok (.compatible, s, 2, true, false)) ∧
    splitOp ("==".toList ++ s) = some (.ok (.strictMatch, s, 1, true, true)) ∧
    splitOp ("!=".toList ++ s) = some (.ok (.strictExclude, s, 1, true, true)) ∧
    splitOp ("<=".toList ++ s) = some (.ok (.le, s, 1, true, false)) ∧
    splitOp (">=".toList ++ s) = some (.ok (.ge, s, 1, true, false)) ∧
    splitOp ("< ".toList ++ s) = some (.ok (.lt, s, 1, true, false)) ∧
    splitOp ("> ".toList ++ s) = some (.ok (.gt, s, 1, true, false)) := by
  have h1 := noSuffix hs
  have h2 := noPrefix he
  simp only [hasPrefix] at h2
  refine ⟨?_, ?_, ?_, ?_, ?_, ?_, ?_⟩ <;> simp [splitOp, hasPrefix, List.isPrefixOf, h2, dropByte] <;>
    simpa using h1

end Pep440

namespace Pep440
open Go Spec

theorem acc_not {ver : Str} {v : Ver} (h : parseVersion ver = .ok v) {c : Char} (hc : reVersion.accepts c = false) :
    c ∉ ver := fun hm => by have := parse_accepts h c hm; rw [hc] at this; cases this

/-- the ways of writing an operator before a version that the parser understands -/
def goodOps : List (CmpOp × Str) :=
  [(.compatible, "~=".toList), (.strictMatch, "==".toList), (.strictExclude, "!=".toList), (.le, "<=".toList),
   (.ge, ">=".toList), (.lt, "< ".toList), (.gt, "> ".toList)]

theorem parseClause_good {ver : Str} {v : Ver} (h : parseVersion ver = .ok v) {op : CmpOp} {o : Str}
    (ho : (op, o) ∈ goodOps) (h2 : op = .compatible → 2 ≤ v.release.length)
    (hl : op ≠ .strictMatch → op ≠ .strictExclude → v.loc = []) :
    trimSpace (o ++ ver) ≠ [] ∧ parseClause (trimSpace (o ++ ver)) = some (.ok ⟨op, v⟩) := by
  have hp := parse_rtrim h
  have hr : 1 ≤ v.release.length := by
    have := (parsed_shape h).release
    rcases hr : v.release with _ | ⟨a, l⟩
    · exact absurd hr this
    · simp
  have sp := splitOp_plain (s := rtrim ver) (fun hm => acc_not h (c := '*') (by decide) (rtrim_sub _ hm))
    (fun hm => acc_not h (c := '=') (by decide) (rtrim_sub _ hm))
  have hne : rtrim ver ≠ [] := by
    intro e; rw [e] at hp; revert hp
    have : parseVersion [] = .error () := by decide +kernel
    rw [this]; intro h; cases h
  have blank : ∀ c : Char, isSpace c = false → trimSpace ([c] ++ (' ' :: ver)) = c :: ' ' :: rtrim ver := by
    intro c hc
    rw [trimSpace_op (by simp) (by simpa using hc)]
    have : rtrim (' ' :: ver) = ' ' :: rtrim ver := by
      unfold rtrim
      rw [List.reverse_cons, List.dropWhile_append, if_neg]
      · simp
      · intro he; apply hne; unfold rtrim; simpa using he
    rw [this]; rfl
  simp only [goodOps, List.mem_cons, Prod.mk.injEq, List.not_mem_nil, or_false] at ho
  have fin : ∀ o', trimSpace (o ++ ver) = o' ++ rtrim ver → (∃ m dk lk,
      splitOp (o' ++ rtrim ver) = some (.ok (op, rtrim ver, m, dk, lk)) ∧ m ≤ v.release.length ∧ dk = true ∧
        (lk = true ∨ v.loc = [])) → o' ≠ [] →
      trimSpace (o ++ ver) ≠ [] ∧ parseClause (trimSpace (o ++ ver)) = some (.ok ⟨op, v⟩) := by
    rintro o' ht ⟨m, dk, lk, hs, hm, rfl, hk⟩ hne'
    refine ⟨by rw [ht]; simp [hne'], ?_⟩
    unfold parseClause
    rw [trimSpace_idem, ht, hs]
    simp only [hp]
    rw [if_neg (by omega), if_neg (by simp)]
    rcases hk with rfl | hk
    · simp
    · rw [if_neg (by simp [hk])]
  rcases ho with ⟨rfl, rfl⟩ | ⟨rfl, rfl⟩ | ⟨rfl, rfl⟩ | ⟨rfl, rfl⟩ | ⟨rfl, rfl⟩ | ⟨rfl, rfl⟩ | ⟨rfl, rfl⟩
  · exact fin _ (trimSpace_op (by simp) (by decide)) ⟨_, _, _, sp.1, h2 rfl, rfl, Or.inr (hl (by simp) (by simp))⟩ (by simp)
  · exact fin _ (trimSpace_op (by simp) (by decide)) ⟨_, _, _, sp.2.1, hr, rfl, Or.inl rfl⟩ (by simp)
  · exact fin _ (trimSpace_op (by simp) (by decide)) ⟨_, _, _, sp.2.2.1, hr, rfl, Or.inl rfl⟩ (by simp)
  · exact fin _ (trimSpace_op (by simp) (by decide)) ⟨_, _, _, sp.2.2.2.1, hr, rfl, Or.inr (hl (by simp) (by simp))⟩ (by simp)
  · exact fin _ (trimSpace_op (by simp) (by decide)) ⟨_, _, _, sp.2.2.2.2.1, hr, rfl, Or.inr (hl (by simp) (by simp))⟩ (by simp)
  · exact fin "< ".toList (blank '<' (by decide)) ⟨_, _, _, sp.2.2.2.2.2.1, hr, rfl, Or.inr (hl (by simp) (by simp))⟩ (by simp)
  · exact fin "> ".toList (blank '>' (by decide)) ⟨_, _, _, sp.2.2.2.2.2.2, hr, rfl, Or.inr (hl (by simp) (by simp))⟩ (by simp)

theorem goodOp_chars {op : CmpOp} {o : Str} (ho : (op, o) ∈ goodOps) : o ≠ [] ∧ ',' ∉ o := by
  simp only [goodOps, List.mem_cons, Prod.mk.injEq, List.not_mem_nil, or_false] at ho
  rcases ho with ⟨rfl, rfl⟩ | ⟨rfl, rfl⟩ | ⟨rfl, rfl⟩ | ⟨rfl, rfl⟩ | ⟨rfl, rfl⟩ | ⟨rfl, rfl⟩ | ⟨rfl, rfl⟩ <;> simp

theorem no_comma {ver : Str} {v : Ver} (h : parseVersion ver = .ok v) {op : CmpOp} {o : Str} (ho : (op, o) ∈ goodOps) :
    o ++ ver ≠ [] ∧ ∀ c ∈ o ++ ver, (decide (c = ',')) = false := by
  have := goodOp_chars ho
  refine ⟨by simp [this.1], ?_⟩
  intro c hc
  rw [decide_eq_false_iff_not]
  rintro rfl
  rcases List.mem_append.1 hc with hc | hc
  · exact this.2 hc
  · exact acc_not h (by decide) hc

theorem splitOp_prefix {r : Str} (h1 : hasSuffix r ".*".toList = true) (he : '=' ∉ r) :
    splitOp ("==".toList ++ r) = some (.ok (.prefixMatch, trimSuffix r ".*".toList, 1, false, false)) ∧
    splitOp ("!=".toList ++ r) = some (.ok (.prefixExclude, trimSuffix r ".*".toList, 1, false, false)) := by
  have h2 := noPrefix he
  simp only [hasPrefix] at h2
  constructor <;> simp [splitOp, hasPrefix, List.isPrefixOf, h2] <;>
    exact h1

/-! ### C16 -/

/-- C16 (partial): the operators `~=`, `==`, `!=`, `<=`, `>=` directly before any text `ParseVersion` accepts (two release
components for `~=`, a local label only for `==` and `!=`) parse to that clause.  For `<` and `>` this is proved only
with exactly one blank after the operator; directly before the version it is false, see `C16_violated`. -/
theorem C16_operators_partial {ver : Str} {v : Ver} (h : parseVersion ver = .ok v) {op : CmpOp} {o : Str}
    (ho : (op, o) ∈ [(CmpOp.compatible, "~=".toList), (.strictMatch, "==".toList), (.strictExclude, "!=".toList),
      (.le, "<=".toList), (.ge, ">=".toList), (.lt, "< ".toList), (.gt, "> ".toList)])
    (h2 : op = .compatible → 2 ≤ v.release.length) (hl : op ≠ .strictMatch → op ≠ .strictExclude → v.loc = []) :
    parseSpecifier (o ++ ver) = some (.ok [⟨op, v⟩]) := by
  have hc := no_comma h ho
  obtain ⟨a, b⟩ := parseClause_good h ho h2 hl
  unfold parseSpecifier
  rw [fieldsFunc_none hc.1 hc.2]
  simp only [parseClauses, a, if_false, b]

example : parseVersion " v1.0.post2 ".toList =
      .ok { epoch := 0, release := [1, 0], pre := none, post := some 2, dev := none, loc := [] } ∧
    parseSpecifier "~= v1.0.post2 ".toList =
      some (.ok [⟨.compatible, { epoch := 0, release := [1, 0], pre := none, post := some 2, dev := none, loc := [] }⟩]) := by
  decide +kernel

/-- C16 for prefix clauses: `==ver.*` and `!=ver.*` parse for every version text without dev part and local label. -/
theorem C16_prefix {ver : Str} {v : Ver} (h : parseVersion ver = .ok v) (hd : v.dev = none) (hl : v.loc = []) :
    parseSpecifier ("==".toList ++ ver ++ ".*".toList) = some (.ok [⟨.prefixMatch, v⟩]) ∧
    parseSpecifier ("!=".toList ++ ver ++ ".*".toList) = some (.ok [⟨.prefixExclude, v⟩]) := by
  have hr : 1 ≤ v.release.length := by
    have := (parsed_shape h).release
    rcases hr : v.release with _ | ⟨a, l⟩
    · exact absurd hr this
    · simp
  have he : '=' ∉ ver ++ ".*".toList := by
    simp only [List.mem_append, not_or]; exact ⟨acc_not h (by decide), by decide⟩
  have suf : hasSuffix (ver ++ ".*".toList) ".*".toList = true := by
    unfold hasSuffix; rw [List.isSuffixOf_iff_suffix]; exact List.suffix_append _ _
  have trim : trimSuffix (ver ++ ".*".toList) ".*".toList = ver := by
    unfold trimSuffix; rw [suf]; simp
  have rt : rtrim (ver ++ ".*".toList) = ver ++ ".*".toList := by
    unfold rtrim; rw [List.reverse_append]
    rw [dropWhile_self (by simp; decide), List.reverse_append, List.reverse_reverse, List.reverse_reverse]
  have go : ∀ (o : Str) (op : CmpOp), o ≠ [] → (∀ c ∈ o, isSpace c = false) → ',' ∉ o →
      splitOp (o ++ (ver ++ ".*".toList)) = some (.ok (op, ver, 1, false, false)) →
      parseSpecifier (o ++ ver ++ ".*".toList) = some (.ok [⟨op, v⟩]) := by
    intro o op h1 h2 h3 h4
    rw [List.append_assoc]
    have ht : trimSpace (o ++ (ver ++ ".*".toList)) = o ++ (ver ++ ".*".toList) := by rw [trimSpace_op h1 h2, rt]
    unfold parseSpecifier
    rw [fieldsFunc_none (by simp [h1]) (by
      intro c hc
      rw [decide_eq_false_iff_not]
      rintro rfl
      simp only [List.mem_append] at hc
      rcases hc with hc | hc | hc
      · exact h3 hc
      · exact acc_not h (by decide) hc
      · revert hc; decide)]
    have hc : parseClause (o ++ (ver ++ ".*".toList)) = some (.ok ⟨op, v⟩) := by
      unfold parseClause
      rw [ht, h4]
      simp only [h]
      rw [if_neg (by omega), if_neg (by simp [hd]), if_neg (by simp [hl])]
    have : o ++ (ver ++ ".*".toList) ≠ [] := by simp [h1]
    simp only [parseClauses, ht, this, if_false, hc]
  have s12 := splitOp_prefix suf he
  rw [trim] at s12
  obtain ⟨s1, s2⟩ := s12
  exact ⟨go _ _ (by simp) (by decide) (by decide) s1, go _ _ (by simp) (by decide) (by decide) s2⟩

example : parseSpecifier "==1.0rc1.*".toList =
    some (.ok [⟨.prefixMatch, { epoch := 0, release := [1, 0], pre := some ("rc".toList, 1), post := none, dev := none, loc := [] }⟩]) := by
  decide +kernel

/-- C16 is violated: `<10` is read as `<0`, and `<1.0` and `>1.0` are rejected. -/
theorem C16_violated :
    parseVersion "10".toList = .ok { epoch := 0, release := [10], pre := none, post := none, dev := none, loc := [] } ∧
    parseSpecifier "<10".toList =
      some (.ok [⟨.lt, { epoch := 0, release := [0], pre := none, post := none, dev := none, loc := [] }⟩]) ∧
    parseSpecifier "<1.0".toList = some (.error ()) ∧ parseSpecifier ">1.0".toList = some (.error ()) := by
  decide +kernel

/-! ### C17 -/

theorem goodOp_text {op : CmpOp} (h : op ∈ [CmpOp.compatible, .strictMatch, .strictExclude, .le, .ge]) :
    (op, op.text) ∈ goodOps := by
  simp only [List.mem_cons, List.not_mem_nil, or_false] at h
  rcases h with rfl | rfl | rfl | rfl | rfl <;> decide

theorem spec_round (sp : Specifier)
    (h : ∀ c ∈ sp, c.op ∈ [CmpOp.compatible, .strictMatch, .strictExclude, .le, .ge] ∧
      (∃ t, c.ver.string = some t ∧ parseVersion t = .ok c.ver) ∧
      (c.op = .compatible → 2 ≤ c.ver.release.length) ∧
      (c.op ≠ .strictMatch → c.op ≠ .strictExclude → c.ver.loc = [])) :
    ∃ t, specString sp = some t ∧ parseSpecifier t = some (.ok sp) := by
  have main : ∃ ts, sp.mapM Clause.string = some ts ∧
      parseClauses (fieldsFunc (fun c => c = ',') (join [','] ts)) = some (.ok sp) ∧ (sp ≠ [] → ts ≠ []) := by
    induction sp with
    | nil => exact ⟨[], rfl, by simp [join, fieldsFunc, parseClauses], by simp⟩
    | cons c cs ih =>
      obtain ⟨ts, h1, h2, h3⟩ := ih (fun d hd => h d (by simp [hd]))
      obtain ⟨hop, ⟨t, ht, hp⟩, hc, hl⟩ := h c (by simp)
      have good := goodOp_text hop
      have nc := no_comma hp good
      obtain ⟨a, b⟩ := parseClause_good hp good hc hl
      have hs : c.string = some (c.op.text ++ t) := by unfold Clause.string; rw [ht]; rfl
      refine ⟨(c.op.text ++ t) :: ts, by rw [List.mapM_cons, hs, h1]; rfl, ?_, by simp⟩
      cases ts with
      | nil =>
        have : cs = [] := Classical.byContradiction fun e => h3 e rfl
        subst this
        simp only [join]
        rw [fieldsFunc_none nc.1 nc.2]
        simp only [parseClauses, a, if_false, b]
      | cons u us =>
        simp only [join]
        rw [List.append_assoc]
        rw [show [','] ++ join [','] (u :: us) = ',' :: join [','] (u :: us) from rfl]
        rw [fieldsFunc_cons nc.1 nc.2 (by decide)]
        simp only [parseClauses, a, if_false, b, h2]
  obtain ⟨ts, h1, h2, -⟩ := main
  refine ⟨join [','] ts, by unfold specString; rw [h1]; rfl, h2⟩

/-- C17 (partial): a specifier that `ParseSpecifier` returned and that uses only `~=`, `==`, `!=`, `<=`, `>=` without `.*`
(and no wrapped local number) is printed to a text that parses back to the very same clauses.  Missing: `.*` is lost
in printing, `<` and `>` are printed without the blank the parser needs; see the `C17_violated` theorems. -/
theorem C17_print_parse_partial {s : Str} {sp : Specifier} (h : parseSpecifier s = some (.ok sp))
    (hop : ∀ c ∈ sp, c.op ∈ [CmpOp.compatible, .strictMatch, .strictExclude, .le, .ge])
    (hn : ∀ c ∈ sp, ∀ n, Seg.int n ∈ c.ver.loc → 0 ≤ n) :
    ∃ t, specString sp = some t ∧ parseSpecifier t = some (.ok sp) := by
  apply spec_round
  intro c hc
  obtain ⟨x, hx⟩ := parseClauses_ok h c hc
  obtain ⟨⟨t, ht⟩, -, h2, hl, -⟩ := parseClause_ok hx
  exact ⟨hop c hc, C04_parse_print_parse_partial ht (hn c hc), h2, hl⟩

example : ∃ sp, parseSpecifier " >= 1.4rc2 , !=1.4.2,~=1.4.2".toList = some (.ok sp) ∧
    specString sp = some ">=1.4rc2,!=1.4.2,~=1.4.2".toList :=
  ⟨[⟨.ge, sampleRc⟩, ⟨.strictExclude, sample⟩, ⟨.compatible, sample⟩], by decide +kernel⟩

/-- C17 is violated for prefix clauses: `==1.4.*` prints as `==1.4`, which no longer matches `1.4.2`. -/
theorem C17_violated_prefix : ∃ sp t sp', parseSpecifier "==1.4.*".toList = some (.ok sp) ∧ specString sp = some t ∧
    parseSpecifier t = some (.ok sp') ∧ specMatch sp sample = some true ∧ specMatch sp' sample = some false :=
  ⟨[⟨.prefixMatch, { sample with release := [1, 4] }⟩], "==1.4".toList, [⟨.strictMatch, { sample with release := [1, 4] }⟩],
   by decide +kernel⟩

/-- C17 is violated for `<`: `< 1.4` prints as `<1.4`, which is rejected; `< 10` prints as `<10`, which means `<0`. -/
theorem C17_violated_lt : (∃ sp t, parseSpecifier "< 1.4".toList = some (.ok sp) ∧ specString sp = some t ∧
      parseSpecifier t = some (.error ())) ∧
    (∃ sp t sp', parseSpecifier "< 10".toList = some (.ok sp) ∧ specString sp = some t ∧
      parseSpecifier t = some (.ok sp') ∧ specMatch sp sample = some true ∧ specMatch sp' sample = some false) :=
  ⟨⟨[⟨.lt, { sample with release := [1, 4] }⟩], "<1.4".toList, by decide +kernel⟩,
   ⟨[⟨.lt, { sample with release := [10] }⟩], "<10".toList, [⟨.lt, { sample with release := [0] }⟩], by decide +kernel⟩⟩

/-! ### C18 -/

theorem splitOp_none {s : Str} (h : splitOp s = none) : s = "<".toList ∨ s = ">".toList := by
  unfold splitOp at h
  simp only at h
  repeat' split at h
  all_goals first
    | (cases h; done)
    | skip
  all_goals
    rename_i hp _ hd
    have : s.drop 1 = [] := by
      rcases hx : s.drop 1 with _ | ⟨c, t⟩
      · rfl
      · rw [hx] at hd; unfold dropByte at hd; simp only at hd; split at hd <;> cases hd
    cases s with
    | nil => revert hp; decide
    | cons c s =>
      have e : s = [] := this
      subst e
      simp [hasPrefix, List.isPrefixOf] at hp
      subst hp
      simp

/-- C18 (partial): `ParseSpecifier` panics only if one of the comma-separated parts is, apart from white space, just `<`
or just `>`.  The unrestricted claim is false: see `C18_violated`. -/
theorem C18_no_panic_partial {str : Str}
    (h : ∀ part ∈ fieldsFunc (fun c => c = ',') str, trimSpace part ≠ "<".toList ∧ trimSpace part ≠ ">".toList) :
    parseSpecifier str ≠ none := by
  unfold parseSpecifier
  revert h
  generalize fieldsFunc (fun c => c = ',') str = l
  intro h
  induction l with
  | nil => simp [parseClauses]
  | cons s ss ih =>
    have ih := ih (fun p hp => h p (by simp [hp]))
    rw [parseClauses]
    split
    · exact ih
    · split
      · rename_i hn
        exfalso
        unfold parseClause at hn
        rw [trimSpace_idem] at hn
        split at hn
        · rename_i hs
          have := h s (by simp)
          rcases splitOp_none hs with e | e
          · exact this.1 e
          · exact this.2 e
        · cases hn
        · split at hn
          · cases hn
          · split at hn
            · cases hn
            · split at hn
              · cases hn
              · split at hn <;> cases hn
      · simp
      · split
        · rename_i e; exact absurd e ih
        · simp
        · simp

example : ∀ part ∈ fieldsFunc (fun c => c = ',') " ~=1, <,=".toList, trimSpace part ≠ ">".toList := by decide +kernel
example : parseSpecifier "~=1.0, garbage".toList = some (.error ()) := by decide +kernel

/-- C18 is violated: the specifier `<` makes `ParseSpecifier` panic (slice out of range). -/
theorem C18_violated : parseSpecifier "<".toList = none ∧ parseSpecifier ">=1.0, >".toList = none := by decide +kernel

end Pep440
