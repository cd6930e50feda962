import Verif.Go.Basic
/-! Lemmas about splitting and joining. -/
namespace Go

/-! ### splitting -/

theorem split_none {sep : Char} {w : Str} (h : ∀ c ∈ w, c ≠ sep) : split sep w = [w] := by
  induction w with
  | nil => rfl
  | cons c w ih => rw [split, if_neg (h c (by simp)), ih (fun d hd => h d (by simp [hd]))]

theorem split_cons {sep : Char} {w s : Str} (h : ∀ c ∈ w, c ≠ sep) : split sep (w ++ sep :: s) = w :: split sep s := by
  induction w with
  | nil => simp [split]
  | cons c w ih =>
    rw [List.cons_append, split, if_neg (h c (by simp)), ih (fun d hd => h d (by simp [hd]))]

theorem split_ne_nil (sep : Char) (s : Str) : split sep s ≠ [] := by
  induction s with
  | nil => simp [split]
  | cons c s ih =>
    rw [split]; split
    · simp
    · split <;> simp

/-- every part of a split consists of characters of the text -/
theorem mem_split {sep : Char} {s p : Str} (hp : p ∈ split sep s) : ∀ c ∈ p, c ∈ s ∧ c ≠ sep := by
  induction s generalizing p with
  | nil => simp [split] at hp; subst hp; simp
  | cons d s ih =>
    rw [split] at hp
    split at hp
    · rename_i h
      simp only [List.mem_cons] at hp
      rcases hp with rfl | hp
      · simp
      · intro c hc; have := ih hp c hc; exact ⟨by simp [this.1], this.2⟩
    · rename_i h
      split at hp
      · simp at hp; subst hp; intro c hc; simp at hc; subst hc; exact ⟨by simp, h⟩
      · rename_i q qs hq
        rw [hq] at ih
        simp only [List.mem_cons] at hp
        rcases hp with rfl | hp
        · intro c hc
          simp only [List.mem_cons] at hc
          rcases hc with rfl | hc
          · exact ⟨by simp, h⟩
          · have := ih (p := q) (by simp) c hc; exact ⟨by simp [this.1], this.2⟩
        · intro c hc; have := ih (p := p) (by simp [hp]) c hc; exact ⟨by simp [this.1], this.2⟩

theorem join_cons {sep p : Str} {ps : List Str} (h : ps ≠ []) : join sep (p :: ps) = p ++ sep ++ join sep ps := by
  cases ps with
  | nil => exact absurd rfl h
  | cons q ps => rfl

/-- joining the parts of a split gives the text back -/
theorem join_split (sep : Char) (s : Str) : join [sep] (split sep s) = s := by
  induction s with
  | nil => rfl
  | cons c s ih =>
    rw [split]
    by_cases h : c = sep
    · rw [if_pos h, join_cons (split_ne_nil _ _), ih, h]; rfl
    · rw [if_neg h]
      cases hs : split sep s with
      | nil => exact absurd hs (split_ne_nil _ _)
      | cons q qs =>
        rw [hs] at ih
        show join [sep] ((c :: q) :: qs) = c :: s
        rw [← ih]
        cases qs <;> rfl

/-- splitting a join of separator-free parts gives the parts back -/
theorem split_join {sep : Char} {ps : List Str} (hne : ps ≠ []) (h : ∀ p ∈ ps, sep ∉ p) :
    split sep (join [sep] ps) = ps := by
  induction ps with
  | nil => exact absurd rfl hne
  | cons p ps ih =>
    have hp : ∀ c ∈ p, c ≠ sep := fun c hc e => h p (by simp) (e ▸ hc)
    cases ps with
    | nil => exact split_none hp
    | cons q ps =>
      rw [join_cons (by simp), List.append_assoc, List.singleton_append, split_cons hp,
        ih (by simp) (fun x hx => h x (by simp [hx]))]

theorem length_split (sep : Char) (s : Str) : (split sep s).length = s.count sep + 1 := by
  induction s with
  | nil => rfl
  | cons c s ih =>
    rw [split]
    by_cases h : c = sep
    · rw [if_pos h, List.length_cons, ih, h, List.count_cons_self]
    · rw [if_neg h, List.count_cons_of_ne (by simpa using h), ← ih]
      cases hs : split sep s with
      | nil => exact absurd hs (split_ne_nil _ _)
      | cons q qs => rfl

end Go
