import Verif.Pep425.Model
import Verif.Go.Strings
/-! Properties C27–C30: compatibility tags. -/
namespace Pep425
open Go

/-- `w` is one of the dot-separated components of `s` -/
def IsComponent (w s : Str) : Prop :=
  ∃ pre post : List Str, s = join ['.'] (pre ++ w :: post) ∧ ∀ p ∈ pre ++ w :: post, '.' ∉ p

/-- `u` is one of the simple tags the compressed tag `t` stands for -/
def Expands (t u : Tag) : Prop :=
  IsComponent u.python t.python ∧ IsComponent u.abi t.abi ∧ IsComponent u.platform t.platform

theorem mem_split_iff {w s : Str} : w ∈ split '.' s ↔ IsComponent w s := by
  constructor
  · intro h
    obtain ⟨pre, post, e⟩ := List.append_of_mem h
    refine ⟨pre, post, ?_, ?_⟩
    · rw [← e, join_split]
    · intro p hp
      rw [← e] at hp
      exact fun hm => (mem_split hp '.' hm).2 rfl
  · rintro ⟨pre, post, e, h⟩
    rw [e, split_join (by simp) h]
    simp

theorem mem_decompress {t u : Tag} : u ∈ t.decompress ↔ Expands t u := by
  unfold Tag.decompress Expands
  simp only [List.mem_flatMap, List.mem_map, ← mem_split_iff]
  constructor
  · rintro ⟨x, hx, y, hy, z, hz, rfl⟩; exact ⟨hx, hy, hz⟩
  · rintro ⟨h1, h2, h3⟩; exact ⟨_, h1, _, h2, _, h3, rfl⟩

/-- C27: the expansion of a tag is exactly the product of the dot-components of its fields. -/
theorem C27_decompress (t u : Tag) :
    (u ∈ t.decompress ↔ Expands t u) ∧
    (u ∈ t.decompress → '.' ∉ u.python ∧ '.' ∉ u.abi ∧ '.' ∉ u.platform) ∧
    t.decompress.length =
      (t.python.count '.' + 1) * ((t.abi.count '.' + 1) * (t.platform.count '.' + 1)) := by
  refine ⟨mem_decompress, ?_, ?_⟩
  · rw [mem_decompress]
    rintro ⟨⟨a, b, -, h1⟩, ⟨c, d, -, h2⟩, ⟨e, f, -, h3⟩⟩
    exact ⟨h1 _ (by simp), h2 _ (by simp), h3 _ (by simp)⟩
  · unfold Tag.decompress
    simp only [List.length_flatMap, List.length_map, List.map_const', List.sum_replicate_nat, length_split]

example : Tag.decompress ⟨"py2.py3".toList, "none".toList, "any".toList⟩ =
    [⟨"py2".toList, "none".toList, "any".toList⟩, ⟨"py3".toList, "none".toList, "any".toList⟩] := by decide +kernel

theorem intersect_iff {a b : List Tag} :
    intersect a b = true ↔ ∃ u, (∃ x ∈ a, Expands x u) ∧ (∃ y ∈ b, Expands y u) := by
  unfold intersect
  simp only [List.any_eq_true, beq_iff_eq, mem_decompress]
  constructor
  · rintro ⟨x, hx, u, hu, y, hy, w, hw, rfl⟩
    exact ⟨u, ⟨x, hx, hu⟩, ⟨y, hy, hw⟩⟩
  · rintro ⟨u, ⟨x, hx, hu⟩, ⟨y, hy, hw⟩⟩
    exact ⟨x, hx, u, hu, y, hy, u, hw, rfl⟩

/-- C28: two tag lists intersect iff some simple tag belongs to both expansions; the relation is symmetric; `Supports`
is the case of one tag. -/
theorem C28_intersect (a b : List Tag) (t : Tag) :
    (intersect a b = true ↔ ∃ u, (∃ x ∈ a, Expands x u) ∧ (∃ y ∈ b, Expands y u)) ∧
    intersect a b = intersect b a ∧
    (supports a t = true ↔ ∃ u, (∃ x ∈ a, Expands x u) ∧ Expands t u) := by
  refine ⟨intersect_iff, ?_, ?_⟩
  · rw [Bool.eq_iff_iff, intersect_iff, intersect_iff]
    exact ⟨fun ⟨u, h, h'⟩ => ⟨u, h', h⟩, fun ⟨u, h, h'⟩ => ⟨u, h', h⟩⟩
  · unfold supports
    rw [intersect_iff]
    simp

example : supports [⟨"cp39".toList, "cp39".toList, "linux".toList⟩, ⟨"py3".toList, "none".toList, "any".toList⟩]
    ⟨"py2.py3".toList, "none".toList, "any".toList⟩ = true ∧
    supports [⟨"cp39".toList, "cp39".toList, "linux".toList⟩] ⟨"py2.py3".toList, "none".toList, "any".toList⟩ = false := by
  decide +kernel

theorem preferenceLoop_spec (t : Tag) (len i : Nat) (l : List Tag) (hl : i + l.length = len) :
    (preferenceLoop t len i l = len + 1 ∧ ∀ it ∈ l, intersect [it] [t] = false) ∨
    (∃ k, ∃ h : k < l.length, preferenceLoop t len i l = i + k + 1 ∧ intersect [l[k]] [t] = true ∧
      ∀ j, ∀ hj : j < l.length, j < k → intersect [l[j]] [t] = false) := by
  induction l generalizing i with
  | nil => left; exact ⟨rfl, by simp⟩
  | cons x l ih =>
    rw [preferenceLoop]
    by_cases hx : intersect [x] [t] = true
    · right
      refine ⟨0, by simp, by rw [if_pos hx], by simpa using hx, by intro j hj h0; omega⟩
    · rw [if_neg hx]
      have hx' : intersect [x] [t] = false := by simpa using hx
      rcases ih (i + 1) (by simp at hl; omega) with ⟨h1, h2⟩ | ⟨k, h, h1, h2, h3⟩
      · left; exact ⟨h1, by simpa [hx'] using h2⟩
      · right
        refine ⟨k + 1, by simpa using h, by rw [h1]; omega, by simpa using h2, ?_⟩
        intro j hj hjk
        cases j with
        | zero => simpa using hx'
        | succ j => simpa using h3 j (by simpa using hj) (by omega)

theorem supports_iff_any (inst : List Tag) (t : Tag) : supports inst t = inst.any (fun it => intersect [it] [t]) := by
  unfold supports intersect
  simp [List.any_cons]

/-- C29: the preference of an unsupported tag is one past the last rank; of a supported tag, the (1-based) position of
the first installer tag that shares a simple tag with it; and appending tags to the installer list does not change
the rank of a supported tag. -/
theorem C29_preference (inst : List Tag) (t : Tag) :
    (1 ≤ preference inst t ∧ preference inst t ≤ inst.length + 1) ∧
    (preference inst t = inst.length + 1 ↔ supports inst t = false) ∧
    (∀ k, ∀ h : k < inst.length, preference inst t = k + 1 ↔
      ((∃ u, Expands inst[k] u ∧ Expands t u) ∧
        ∀ j, ∀ hj : j < inst.length, j < k → ¬ ∃ u, Expands inst[j] u ∧ Expands t u)) ∧
    (∀ more, supports inst t = true → preference (inst ++ more) t = preference inst t) := by
  have one : ∀ x, intersect [x] [t] = true ↔ ∃ u, Expands x u ∧ Expands t u := by
    intro x; rw [intersect_iff]; simp
  have key := preferenceLoop_spec t inst.length 0 inst (by simp)
  have sup := supports_iff_any inst t
  refine ⟨?_, ?_, ?_, ?_⟩
  · unfold preference
    rcases key with ⟨h1, -⟩ | ⟨k, h, h1, -⟩ <;> omega
  · unfold preference
    rw [sup]
    rcases key with ⟨h1, h2⟩ | ⟨k, h, h1, h2, -⟩
    · simp only [h1, true_iff]
      rw [List.any_eq_false]
      intro x hx; simp [h2 x hx]
    · rw [h1]
      have : (inst.any fun it => intersect [it] [t]) = true := by
        rw [List.any_eq_true]; exact ⟨inst[k], List.getElem_mem h, h2⟩
      rw [this]
      simp; omega
  · intro k hk
    unfold preference
    rw [← one]
    simp only [← one, Bool.not_eq_true]
    rcases key with ⟨h1, h2⟩ | ⟨m, h, h1, h2, h3⟩
    · rw [h1]
      constructor
      · intro e; omega
      · rintro ⟨e, -⟩; rw [h2 _ (List.getElem_mem hk)] at e; cases e
    · rw [h1]
      constructor
      · intro e
        have : m = k := by omega
        subst this
        exact ⟨h2, h3⟩
      · rintro ⟨e1, e2⟩
        rcases Nat.lt_trichotomy m k with hlt | he | hgt
        · rw [e2 m h hlt] at h2; cases h2
        · omega
        · rw [h3 k hk hgt] at e1; cases e1
  · intro more hs
    unfold preference
    have key2 := preferenceLoop_spec t (inst ++ more).length 0 (inst ++ more) (by simp)
    rcases key with ⟨h1, h2⟩ | ⟨m, h, h1, h2, h3⟩
    · rw [sup, List.any_eq_true] at hs
      obtain ⟨x, hx, e⟩ := hs
      rw [h2 x hx] at e; cases e
    · rcases key2 with ⟨g1, g2⟩ | ⟨n, g, g1, g2, g3⟩
      · rw [g2 inst[m] (List.mem_append_left _ (List.getElem_mem h))] at h2; cases h2
      · have : n = m := by
          rcases Nat.lt_trichotomy n m with hlt | he | hgt
          · have := h3 n (by omega) hlt
            rw [List.getElem_append_left (by omega)] at g2
            rw [this] at g2; cases g2
          · exact he
          · have := g3 m (by simp; omega) hgt
            rw [List.getElem_append_left h] at this
            rw [this] at h2; cases h2
        rw [h1, g1, this]

example : preference [⟨"cp39".toList, "cp39".toList, "linux".toList⟩, ⟨"py3".toList, "none".toList, "any".toList⟩]
    ⟨"py2.py3".toList, "none".toList, "any".toList⟩ = 2 := by decide +kernel

/-- C30: a tag's text parses back to the tag iff no field contains a dash, and a parsed tag prints as the text it came
from. -/
theorem C30_round_trip :
    (∀ t : Tag, parseTag t.string = .ok t ↔ '-' ∉ t.python ∧ '-' ∉ t.abi ∧ '-' ∉ t.platform) ∧
    (∀ s t, parseTag s = .ok t → t.string = s) := by
  constructor
  · intro t
    constructor
    · intro h
      unfold parseTag at h
      split at h
      · rename_i p a l hs
        injection h with h; subst h
        refine ⟨fun hm => ?_, fun hm => ?_, fun hm => ?_⟩
        · exact (mem_split (s := Tag.string ⟨p, a, l⟩) (p := p) (by rw [hs]; simp) '-' hm).2 rfl
        · exact (mem_split (s := Tag.string ⟨p, a, l⟩) (p := a) (by rw [hs]; simp) '-' hm).2 rfl
        · exact (mem_split (s := Tag.string ⟨p, a, l⟩) (p := l) (by rw [hs]; simp) '-' hm).2 rfl
      · cases h
    · rintro ⟨h1, h2, h3⟩
      unfold parseTag Tag.string
      have ne : ∀ {w : Str}, '-' ∉ w → ∀ c ∈ w, c ≠ '-' := fun hw c hc e => hw (e ▸ hc)
      rw [split_cons (ne h1), split_cons (ne h2), split_none (ne h3)]
  · intro s t h
    unfold parseTag at h
    split at h
    · rename_i p a l hs
      injection h with h; subst h
      have := join_split '-' s
      rw [hs] at this
      rw [← this]
      simp [Tag.string, join]
    · cases h

example : parseTag "py3-none-any".toList = .ok ⟨"py3".toList, "none".toList, "any".toList⟩ ∧
    parseTag "py3-none-any-x".toList = .error () := by decide +kernel

end Pep425
