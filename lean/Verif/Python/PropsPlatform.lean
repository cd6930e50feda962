import Verif.Python.Platform
import Verif.Pep440.PropsOrder
/-! C82: the order of interpreter versions. -/
namespace Python
open Go Pep440 Pep440.Spec

namespace Spec
/-- order of the release levels of `sys.version_info` -/
def levelRank (l : Str) : Nat :=
  if l = "alpha".toList then 0 else if l = "beta".toList then 1 else if l = "candidate".toList then 2 else 3

def levels : List Str := ["alpha".toList, "beta".toList, "candidate".toList, "final".toList]

/-- order of interpreter releases, without the serial number -/
def cmpLevel (a b : VersionInfo) : Ordering :=
  (compare a.major b.major).then <| (compare a.minor b.minor).then <| (compare a.micro b.micro).then <|
  compare (levelRank a.releaseLevel) (levelRank b.releaseLevel)

/-- order of interpreter releases -/
def cmpInfo (a b : VersionInfo) : Ordering := (cmpLevel a b).then (compare a.serial b.serial)

/-- as an interpreter gives it: numbers that fit a non-negative `int`, one of the four levels -/
structure Valid (a : VersionInfo) : Prop where
  major : Nat63 a.major
  minor : Nat63 a.minor
  micro : Nat63 a.micro
  level : a.releaseLevel ∈ levels
end Spec
open Python.Spec (levelRank levels cmpLevel cmpInfo Valid)

/-- the version made of a valid info -/
theorem pep440_ok {a : VersionInfo} (h : Valid a) : ∃ v, a.pep440 = .ok v ∧ WF v ∧ v.epoch = 0 ∧ v.release = [a.major, a.minor, a.micro] ∧
    v.post = none ∧ v.dev = none ∧ v.loc = [] ∧
    Pep440.Spec.preKey v.toPubVer = (if levelRank a.releaseLevel = 3 then .posInf else .fin (levelRank a.releaseLevel, 0)) := by
  have hwf : ∀ pre : Option (Str × Int), (∀ l n, pre = some (l, n) → l ∈ spellings ∧ Nat63 n) →
      WF { epoch := 0, release := [a.major, a.minor, a.micro], pre := pre, post := none, dev := none, loc := [] } := by
    intro pre hp
    refine ⟨⟨⟨Int.le_refl 0, by show (0 : Int) < _; decide⟩, ?_, hp, (fun n hn => nomatch hn), (fun n hn => nomatch hn)⟩, ?_⟩
    · intro n hn
      rcases List.mem_cons.mp hn with rfl | hn
      · exact h.major
      rcases List.mem_cons.mp hn with rfl | hn
      · exact h.minor
      rcases List.mem_cons.mp hn with rfl | hn
      · exact h.micro
      · cases hn
    · intro n hn; cases hn
  have hl := h.level
  have z : Nat63 0 := ⟨Int.le_refl 0, by decide⟩
  simp only [levels, List.mem_cons, List.not_mem_nil, or_false] at hl
  unfold VersionInfo.pep440
  rcases hl with e | e | e | e <;> rw [e]
  · exact ⟨_, rfl, hwf _ (by intro l n he; cases he; exact ⟨by decide, z⟩), rfl, rfl, rfl, rfl, rfl, rfl⟩
  · exact ⟨_, rfl, hwf _ (by intro l n he; cases he; exact ⟨by decide, z⟩), rfl, rfl, rfl, rfl, rfl, rfl⟩
  · exact ⟨_, rfl, hwf _ (by intro l n he; cases he; exact ⟨by decide, z⟩), rfl, rfl, rfl, rfl, rfl, rfl⟩
  · exact ⟨_, rfl, hwf _ (by intro l n he; cases he), rfl, rfl, rfl, rfl, rfl, rfl⟩

theorem levelRank_le (l : Str) : levelRank l ≤ 3 := by
  unfold levelRank
  split
  · omega
  split
  · omega
  split <;> omega

theorem then_assoc (a b c : Ordering) : (a.then b).then c = a.then (b.then c) := by cases a <;> rfl

/-- **C82** what the versions compare like, for all interpreter releases: like these without their serial numbers.  So they compare like the
releases if and only if these differ in more than the serial number, or do not differ at all. -/
theorem C82_exact {a b : VersionInfo} (ha : Valid a) (hb : Valid b) :
    ∃ v w, a.pep440 = .ok v ∧ b.pep440 = .ok w ∧ cmpSign v w = some (cmpLevel a b) ∧
      (cmpSign v w = some (cmpInfo a b) ↔ (cmpLevel a b = .eq → a.serial = b.serial)) := by
  obtain ⟨v, hv, wfv, e1, r1, p1, d1, l1, k1⟩ := pep440_ok ha
  obtain ⟨w, hw, wfw, e2, r2, p2, d2, l2, k2⟩ := pep440_ok hb
  refine ⟨v, w, hv, hw, ?_⟩
  rw [cmpSign_spec wfv wfw]
  have hlev : cmpVer v w = cmpLevel a b := by
    unfold cmpVer cmpPub
    have hrel : List.compareLex compare (stripZeros v.release) (stripZeros w.release) =
        (compare a.major b.major).then ((compare a.minor b.minor).then (compare a.micro b.micro)) := by
      rw [← padCmp_spec (fun x hx => (wfv.pub.release x hx).1) (fun x hx => (wfw.pub.release x hx).1), r1, r2]
      simp [padCmp]
    have hpre : Ext.cmp (cmpPair compare compare) (Pep440.Spec.preKey v.toPubVer) (Pep440.Spec.preKey w.toPubVer) =
        compare (levelRank a.releaseLevel) (levelRank b.releaseLevel) := by
      rw [k1, k2]
      have h1 := levelRank_le a.releaseLevel
      have h2 := levelRank_le b.releaseLevel
      by_cases h3 : levelRank a.releaseLevel = 3
      · by_cases h4 : levelRank b.releaseLevel = 3
        · rw [if_pos h3, if_pos h4, h3, h4]; rfl
        · rw [if_pos h3, if_neg h4]
          exact (Nat.compare_eq_gt.mpr (by omega)).symm
      · by_cases h4 : levelRank b.releaseLevel = 3
        · rw [if_neg h3, if_pos h4]
          exact (Nat.compare_eq_lt.mpr (by omega)).symm
        · rw [if_neg h3, if_neg h4]
          show (compare _ _).then (compare (0 : Int) 0) = _
          rw [show compare (0 : Int) 0 = .eq from rfl]
          cases compare (levelRank a.releaseLevel) (levelRank b.releaseLevel) <;> rfl
    rw [hrel, hpre, e1, e2, l1, l2]
    rw [show Pep440.Spec.postKey v.toPubVer = Pep440.Spec.postKey w.toPubVer by unfold Pep440.Spec.postKey; rw [p1, p2],
      show Pep440.Spec.devKey v.toPubVer = Pep440.Spec.devKey w.toPubVer by unfold Pep440.Spec.devKey; rw [d1, d2]]
    rw [show Pep440.Spec.postKey w.toPubVer = .negInf by unfold Pep440.Spec.postKey; rw [p2], show Pep440.Spec.devKey w.toPubVer = .posInf by unfold Pep440.Spec.devKey; rw [d2]]
    unfold cmpLevel
    rw [show compare (0 : Int) 0 = .eq from rfl, show cmpLoc [] [] = .eq from rfl]
    simp only [Ext.cmp]
    cases compare a.major b.major <;> cases compare a.minor b.minor <;> cases compare a.micro b.micro <;>
      cases compare (levelRank a.releaseLevel) (levelRank b.releaseLevel) <;> rfl
  rw [hlev]
  refine ⟨rfl, ?_⟩
  rw [Option.some.injEq]
  unfold cmpInfo
  cases hc : cmpLevel a b with
  | lt => simp
  | gt => simp
  | eq =>
    rw [show Ordering.eq.then (compare a.serial b.serial) = compare a.serial b.serial from rfl]
    constructor
    · intro h _; exact Int.compare_eq_eq.mp h.symm
    · intro h; exact (Int.compare_eq_eq.mpr (h rfl)).symm

/-- **C82** (part) The versions compare like the interpreter releases whenever these differ in more than the serial number, or do not
differ at all.  Missing: the serial number, which the code ignores (see `C82_violated`). -/
theorem C82_order_partial {a b : VersionInfo} (ha : Valid a) (hb : Valid b) (hs : cmpLevel a b = .eq → a.serial = b.serial) :
    ∃ v w, a.pep440 = .ok v ∧ b.pep440 = .ok w ∧ cmpSign v w = some (cmpInfo a b) := by
  obtain ⟨v, w, h1, h2, _, h3⟩ := C82_exact ha hb
  exact ⟨v, w, h1, h2, h3.mpr hs⟩

/-- **C82** fails: 3.11.0a1 and 3.11.0a2 give versions that compare equal. -/
theorem C82_violated : ∃ a b v w, Valid a ∧ Valid b ∧ a.pep440 = .ok v ∧ b.pep440 = .ok w ∧ cmpInfo a b = .lt ∧ cmpSign v w = some .eq :=
  ⟨⟨3, 11, 0, "alpha".toList, 1⟩, ⟨3, 11, 0, "alpha".toList, 2⟩, _, _,
    ⟨by unfold Nat63; decide, by unfold Nat63; decide, by unfold Nat63; decide, by decide⟩,
    ⟨by unfold Nat63; decide, by unfold Nat63; decide, by unfold Nat63; decide, by decide⟩, rfl, rfl, by decide, by decide +kernel⟩

/-- **C82** a level that is none of the four is an error -/
theorem C82_other_level {a : VersionInfo} (h : a.releaseLevel ∉ levels) : a.pep440 = .error () := by
  simp only [levels, List.mem_cons, List.not_mem_nil, or_false, not_or] at h
  unfold VersionInfo.pep440
  simp only
  rw [if_neg h.1, if_neg h.2.1, if_neg h.2.2.1, if_neg h.2.2.2]

example : ∃ a b : VersionInfo, Valid a ∧ Valid b ∧ (cmpLevel a b = .eq → a.serial = b.serial) ∧ cmpInfo a b = .lt :=
  ⟨⟨3, 11, 0, "candidate".toList, 2⟩, ⟨3, 11, 0, "final".toList, 0⟩,
    ⟨by unfold Nat63; decide, by unfold Nat63; decide, by unfold Nat63; decide, by decide⟩,
    ⟨by unfold Nat63; decide, by unfold Nat63; decide, by unfold Nat63; decide, by decide⟩, by decide, by decide⟩

example : (⟨3, 11, 0, "gamma".toList, 0⟩ : VersionInfo).releaseLevel ∉ levels := by decide

end Python
