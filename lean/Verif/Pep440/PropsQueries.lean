import Verif.Pep440.PropsOrder
/-! C122: what a version says about itself agrees with the order. -/
namespace Pep440
open Go Spec

/-- only the epoch and the release -/
def Spec.bare (v : Ver) : Ver := { v with pre := none, post := none, dev := none, loc := [] }

/-- without the markers of a pre-release -/
def Spec.released (v : Ver) : Ver := { v with pre := none, dev := none }

theorem bare_wf {v : Ver} (h : WF v) : WF (bare v) where
  pub := { epoch := h.pub.epoch, release := h.pub.release, pre := by simp [bare], post := by simp [bare], dev := by simp [bare] }
  loc := by simp [bare, WFLoc]

theorem released_wf {v : Ver} (h : WF v) : WF (released v) where
  pub := { epoch := h.pub.epoch, release := h.pub.release, pre := by simp [released], post := h.pub.post, dev := by simp [released] }
  loc := h.loc

/-- **C122**: a version is final if and only if it is, in the order, the same as its epoch and release alone. -/
theorem C122_final {v : Ver} (h : WF v) : v.isFinal = true ↔ v.cmp (bare v) = some 0 := by
  obtain ⟨d, hd, hs⟩ := cmpVer_spec h (bare_wf h)
  rw [hd]
  have key : cmpVer v (bare v) = .eq ↔ v.isFinal = true := by
    unfold cmpVer cmpPub Ver.isFinal PubVer.isFinal bare
    simp only [Std.ReflCmp.compare_self, Ordering.eq_then]
    obtain ⟨⟨ep, rel, pre, post, dev⟩, loc⟩ := v
    cases pre <;> cases post <;> cases dev <;> cases loc <;> simp [Spec.preKey, postKey, devKey, Ext.cmp, cmpLoc, List.compareLex_nil_nil, List.compareLex_cons_nil]
  rw [← key, ← hs, ordOf_eq_eq]
  simp

/-- **C122**: a version is a pre-release if and only if it comes before the one without the markers of a pre-release. -/
theorem C122_pre {v : Ver} (h : WF v) : v.isPreRelease = true ↔ ∃ d, v.cmp (released v) = some d ∧ d < 0 := by
  obtain ⟨d, hd, hs⟩ := cmpVer_spec h (released_wf h)
  rw [hd]
  have key : cmpVer v (released v) = .lt ↔ v.isPreRelease = true := by
    unfold cmpVer cmpPub PubVer.isPreRelease released
    simp only [Std.ReflCmp.compare_self, Ordering.eq_then]
    obtain ⟨⟨ep, rel, pre, post, dev⟩, loc⟩ := v
    cases pre <;> cases post <;> cases dev <;> simp [Spec.preKey, postKey, devKey, Ext.cmp, Std.ReflCmp.compare_self]
  rw [← key, ← hs, ordOf_eq_lt]
  constructor
  · intro h; exact ⟨d, rfl, h⟩
  · rintro ⟨_, e, h⟩; rw [Option.some.inj e]; exact h

theorem padCmp_step (x y : List Int) : padCmp x y = (compare (x.getD 0 0) (y.getD 0 0)).then (padCmp x.tail y.tail) := by
  cases x <;> cases y <;> simp [padCmp]

theorem padCmp_three (a b : PubVer) : padCmp a.release b.release =
    (compare a.major b.major).then ((compare a.minor b.minor).then ((compare a.micro b.micro).then (padCmp (a.release.drop 3) (b.release.drop 3)))) := by
  have h : ∀ (l : List Int) (i : Nat), (l.drop i).getD 0 0 = l.getD i 0 := by
    intro l i; simp [List.getD]
  rw [padCmp_step, padCmp_step a.release.tail, padCmp_step a.release.tail.tail]
  unfold PubVer.major PubVer.minor PubVer.micro PubVer.releaseSegment
  rw [← h a.release 1, ← h b.release 1, ← h a.release 2, ← h b.release 2]
  have t : ∀ l : List Int, l.tail.tail.tail = l.drop 3 := fun l => by simp [← List.drop_one, List.drop_drop]
  rw [t, t]
  simp

/-- **C122**: of two versions of the same epoch the one with the smaller (Major, Minor, Micro) comes first; and final ones with at most three
numbers and the same (Major, Minor, Micro) are the same in the order. -/
theorem C122_parts {a b : Ver} (ha : WF a) (hb : WF b) (he : a.epoch = b.epoch) :
    ∃ d, a.cmp b = some d ∧
    (a.major < b.major ∨ a.major = b.major ∧ (a.minor < b.minor ∨ a.minor = b.minor ∧ a.micro < b.micro) → d < 0) ∧
    (a.major = b.major → a.minor = b.minor → a.micro = b.micro → a.isFinal = true → b.isFinal = true →
      a.release.length ≤ 3 → b.release.length ≤ 3 → d = 0) := by
  obtain ⟨d, hd, hs⟩ := cmpVer_spec ha hb
  refine ⟨d, hd, ?_⟩
  rw [← ordOf_eq_lt, ← ordOf_eq_eq, hs]
  unfold cmpVer cmpPub
  rw [← padCmp_spec (fun n h => (ha.pub.release n h).1) (fun n h => (hb.pub.release n h).1), padCmp_three, he,
    (Std.ReflCmp.compare_self : compare b.epoch b.epoch = .eq)]
  constructor
  · rintro (h | ⟨h, h' | ⟨h', h''⟩⟩)
    · rw [Int.compare_eq_lt.mpr h]; rfl
    · rw [h, (Std.ReflCmp.compare_self : compare b.major b.major = .eq), Int.compare_eq_lt.mpr h']; rfl
    · rw [h, h', (Std.ReflCmp.compare_self : compare b.major b.major = .eq), (Std.ReflCmp.compare_self : compare b.minor b.minor = .eq),
        Int.compare_eq_lt.mpr h'']; rfl
  · intro h1 h2 h3 f1 f2 l1 l2
    rw [h1, h2, h3, (Std.ReflCmp.compare_self : compare b.major b.major = .eq), (Std.ReflCmp.compare_self : compare b.minor b.minor = .eq),
      (Std.ReflCmp.compare_self : compare b.micro b.micro = .eq), List.drop_eq_nil_of_le l1, List.drop_eq_nil_of_le l2]
    obtain ⟨⟨ep, rel, pre, post, dev⟩, loc⟩ := a
    obtain ⟨⟨ep', rel', pre', post', dev'⟩, loc'⟩ := b
    simp only [Ver.isFinal, PubVer.isFinal, Bool.and_eq_true, Option.isNone_iff_eq_none, List.isEmpty_iff] at f1 f2
    obtain ⟨⟨⟨rfl, rfl⟩, rfl⟩, rfl⟩ := f1
    obtain ⟨⟨⟨rfl, rfl⟩, rfl⟩, rfl⟩ := f2
    simp [padCmp, Spec.preKey, postKey, devKey, Ext.cmp, cmpLoc, List.compareLex_nil_nil]

/-- for versions in texts -/
example : ∃ a b, parseVersion "1.2rc1".toList = .ok a ∧ parseVersion "1.2.1.dev3+x".toList = .ok b ∧ WF a ∧ WF b ∧
    a.isPreRelease = true ∧ b.isPreRelease = true ∧ a.isFinal = false ∧ a.major = b.major ∧ a.minor = b.minor ∧ a.micro < b.micro := by
  refine ⟨{ epoch := 0, release := [1, 2], pre := some ("rc".toList, 1), post := none, dev := none, loc := [] },
    { epoch := 0, release := [1, 2, 1], pre := none, post := none, dev := some 3, loc := [.str "x".toList] },
    by decide +kernel, by decide +kernel, ?_, ?_, by decide +kernel⟩
  · exact C02_parsed_covered (s := "1.2rc1".toList) (by decide +kernel) (by simp [Ordinary])
  · exact C02_parsed_covered (s := "1.2.1.dev3+x".toList) (by decide +kernel) (by simp [Ordinary])

end Pep440
