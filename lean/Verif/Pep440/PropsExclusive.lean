import Verif.Pep440.PropsSpecifier
/-! C14: for which versions the exclusions of PEP 440 are missing. -/
namespace Pep440
open Go Spec

/-- the same epoch, and the same release but for trailing zeros -/
def Spec.SameBase (v s : Ver) : Prop :=
  v.epoch = s.epoch ∧ ∃ r i j, v.release = r ++ List.replicate i 0 ∧ s.release = r ++ List.replicate j 0

theorem strip_zeros (r : List Int) (i : Nat) : stripZeros (r ++ List.replicate i 0) = stripZeros r := by
  unfold stripZeros
  induction i with
  | zero => simp
  | succ i ih =>
    rw [List.replicate_succ', ← List.append_assoc, List.reverse_append]
    simpa using ih

/-- C14, exactly for which pre-releases of a `V` that is none itself the claim about `<V` fails: for all of them but the developmental
releases of a later post-release of `V` (which come after `V`). -/
theorem C14_exact_lt {s v : Ver} (hs : WF s) (hv : WF v) (hb : SameBase v s) (hp : v.pre ≠ none ∨ v.dev ≠ none) (hn : s.pre = none ∧ s.dev = none) :
    (Clause.mk .lt s).match v = some true ↔
      ¬ (v.pre = none ∧ ∃ p, v.post = some p ∧ ∀ q, s.post = some q → q < p) := by
  rw [(C14_exclusive_partial hs hv).1]
  obtain ⟨he, r, i, j, h1, h2⟩ := hb
  unfold cmpVer cmpPub
  rw [he, h1, h2, strip_zeros, strip_zeros]
  obtain ⟨⟨e, rel, pre, post, dev⟩, loc⟩ := v
  obtain ⟨⟨e', rel', pre', post', dev'⟩, loc'⟩ := s
  obtain ⟨rfl, rfl⟩ : pre' = none ∧ dev' = none := hn
  have refl : List.compareLex compare (stripZeros r) (stripZeros r) = .eq := Std.ReflCmp.compare_self
  simp only [refl, Std.ReflCmp.compare_self, Ordering.eq_then, Option.some.injEq, decide_eq_true_eq]
  rcases pre with _ | ⟨l, n⟩
  · rcases dev with _ | d
    · simp at hp
    · rcases post with _ | p <;> rcases post' with _ | q <;> simp [Spec.preKey, postKey, devKey, Ext.cmp]
      rcases Int.lt_trichotomy p q with h | h | h
      · rw [Int.compare_eq_lt.mpr h]; simp; omega
      · subst h; simp
      · rw [Int.compare_eq_gt.mpr h]; simp; omega
  · simp [Spec.preKey, Ext.cmp]

/-- C14, the claims about `>V` fail for every `V`: it matches every post-release of a `V` that is none itself (with whatever developmental
number and local label) and `V` with every local label. -/
theorem C14_exact_gt {s v : Ver} (hs : WF s) (hv : WF v) (hb : SameBase v s) (hp : v.pre = s.pre) :
    (s.post = none → v.post ≠ none → (Clause.mk .gt s).match v = some true) ∧
    (s.loc = [] → v.loc ≠ [] → v.post = s.post → v.dev = s.dev → (Clause.mk .gt s).match v = some true) := by
  rw [(C14_exclusive_partial hs hv).2]
  obtain ⟨he, r, i, j, h1, h2⟩ := hb
  unfold cmpVer cmpPub
  rw [he, h1, h2, strip_zeros, strip_zeros]
  obtain ⟨⟨e, rel, pre, post, dev⟩, loc⟩ := v
  obtain ⟨⟨e', rel', pre', post', dev'⟩, loc'⟩ := s
  obtain rfl : pre = pre' := hp
  have refl : List.compareLex compare (stripZeros r) (stripZeros r) = .eq := Std.ReflCmp.compare_self
  simp only [refl, Std.ReflCmp.compare_self, Ordering.eq_then, Option.some.injEq, decide_eq_true_eq]
  constructor
  · rintro rfl hne
    rcases post with _ | p
    · exact absurd rfl hne
    rcases pre with _ | ⟨l, n⟩
    · rcases dev' with _ | d <;> simp [Spec.preKey, postKey, Ext.cmp]
    · simp [Spec.preKey, postKey, Ext.cmp, cmpPair]
  · rintro rfl hne rfl rfl
    rcases loc with _ | ⟨x, loc⟩
    · exact absurd rfl hne
    rcases pre with _ | ⟨l, n⟩ <;> rcases post with _ | p <;> rcases dev with _ | d <;>
      simp [Spec.preKey, postKey, devKey, Ext.cmp, cmpPair, cmpLoc, List.compareLex_cons_nil]

/-- the hypotheses are met: `1.7` against `1.7.0a1`, `1.7.post1.dev2`, `1.7.0.post1` and `1.7+x` -/
example : WF { epoch := 0, release := [1, 7], pre := none, post := none, dev := none, loc := [] } ∧
    WF { epoch := 0, release := [1, 7, 0], pre := some ("a".toList, 1), post := none, dev := none, loc := [] } ∧
    SameBase { epoch := 0, release := [1, 7, 0], pre := some ("a".toList, 1), post := none, dev := none, loc := [] }
      { epoch := 0, release := [1, 7], pre := none, post := none, dev := none, loc := [] } ∧
    (Clause.mk .lt { epoch := 0, release := [1, 7], pre := none, post := none, dev := none, loc := [] }).match
      { epoch := 0, release := [1, 7, 0], pre := some ("a".toList, 1), post := none, dev := none, loc := [] } = some true ∧
    (Clause.mk .lt { epoch := 0, release := [1, 7], pre := none, post := none, dev := none, loc := [] }).match
      { epoch := 0, release := [1, 7, 0], pre := none, post := some 1, dev := some 2, loc := [] } = some false ∧
    (Clause.mk .gt { epoch := 0, release := [1, 7], pre := none, post := none, dev := none, loc := [] }).match
      { epoch := 0, release := [1, 7, 0], pre := none, post := some 1, dev := none, loc := [] } = some true ∧
    (Clause.mk .gt { epoch := 0, release := [1, 7], pre := none, post := none, dev := none, loc := [] }).match
      { epoch := 0, release := [1, 7], pre := none, post := none, dev := none, loc := [.str "x".toList] } = some true := by
  refine ⟨?_, ?_, ⟨rfl, [1, 7], 1, 0, rfl, rfl⟩, by decide +kernel, by decide +kernel, by decide +kernel, by decide +kernel⟩
  · exact C02_parsed_covered (s := "1.7".toList) (by decide +kernel) (by simp [Ordinary])
  · exact C02_parsed_covered (s := "1.7.0a1".toList) (by decide +kernel) (by simp [Ordinary])

end Pep440
