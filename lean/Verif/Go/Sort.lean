/-! What is assumed of `sort.Slice` (standard library). -/
namespace Go

/-- `lt` is a strict weak order on the elements satisfying `P` -/
structure StrictWeak {α : Type} (lt : α → α → Bool) (P : α → Prop) : Prop where
  irrefl : ∀ a, P a → lt a a = false
  trans : ∀ a b c, P a → P b → P c → lt a b = true → lt b c = true → lt a c = true
  incomp : ∀ a b c, P a → P b → P c → lt a b = false → lt b a = false → lt b c = false → lt c b = false →
    lt a c = false ∧ lt c a = false

/-- the contract of `sort.Slice(x, less)`: it permutes the slice, and if `less` is a strict weak order on the elements
the result is sorted.  Elements that compare equal may come in any order (the sort is not stable). -/
structure SortSlice {α : Type} (sort : (α → α → Bool) → List α → List α) : Prop where
  perm : ∀ lt l, (sort lt l).Perm l
  sorted : ∀ lt l, StrictWeak lt (· ∈ l) → (sort lt l).Pairwise (fun a b => lt b a = false)

/-- insertion into a sorted list, used to show that the contract can be met -/
def insertSorted {α : Type} (lt : α → α → Bool) (a : α) : List α → List α
  | [] => [a]
  | b :: l => if lt b a then b :: insertSorted lt a l else a :: b :: l

/-- a sorting function that meets the contract -/
def insertionSort {α : Type} (lt : α → α → Bool) : List α → List α
  | [] => []
  | a :: l => insertSorted lt a (insertionSort lt l)

theorem insertSorted_perm {α : Type} (lt : α → α → Bool) (a : α) (l : List α) : (insertSorted lt a l).Perm (a :: l) := by
  induction l with
  | nil => exact List.Perm.refl _
  | cons b l ih =>
    rw [insertSorted]
    split
    · exact ((ih.cons b).trans (List.Perm.swap a b l))
    · exact List.Perm.refl _

theorem insertionSort_perm {α : Type} (lt : α → α → Bool) (l : List α) : (insertionSort lt l).Perm l := by
  induction l with
  | nil => exact List.Perm.refl _
  | cons a l ih => exact (insertSorted_perm lt a _).trans (ih.cons a)

theorem StrictWeak.negTrans {α : Type} {lt : α → α → Bool} {P : α → Prop} (h : StrictWeak lt P) {a b c : α}
    (ha : P a) (hb : P b) (hc : P c) (h1 : lt b a = false) (h2 : lt c b = false) : lt c a = false := by
  cases h3 : lt c a with
  | false => rfl
  | true =>
    cases h4 : lt a b with
    | true =>
      have := h.trans c a b hc ha hb h3 h4
      rw [h2] at this; cases this
    | false =>
      cases h5 : lt b c with
      | true =>
        have := h.trans b c a hb hc ha h5 h3
        rw [h1] at this; cases this
      | false =>
        have := (h.incomp a b c ha hb hc h4 h1 h5 h2).2
        rw [h3] at this; cases this

theorem StrictWeak.asymm {α : Type} {lt : α → α → Bool} {P : α → Prop} (h : StrictWeak lt P) {a b : α}
    (ha : P a) (hb : P b) (h1 : lt a b = true) : lt b a = false := by
  cases h2 : lt b a with
  | false => rfl
  | true =>
    have := h.trans a b a ha hb ha h1 h2
    rw [h.irrefl a ha] at this; cases this

theorem insertSorted_sorted {α : Type} {lt : α → α → Bool} {P : α → Prop} (hw : StrictWeak lt P) {a : α} {l : List α}
    (ha : P a) (hl : ∀ x ∈ l, P x) (h : l.Pairwise (fun a b => lt b a = false)) :
    (insertSorted lt a l).Pairwise (fun a b => lt b a = false) := by
  induction l with
  | nil => simp [insertSorted]
  | cons b l ih =>
    rw [insertSorted]
    rw [List.pairwise_cons] at h
    have hb := hl b (by simp)
    split
    · rename_i hba
      rw [List.pairwise_cons]
      refine ⟨?_, ih (fun x hx => hl x (by simp [hx])) h.2⟩
      intro x hx
      rcases List.mem_cons.mp ((insertSorted_perm lt a l).mem_iff.mp hx) with rfl | hx
      · exact hw.asymm hb ha hba
      · exact h.1 x hx
    · rename_i hba
      have hba : lt b a = false := by simpa using hba
      rw [List.pairwise_cons]
      refine ⟨?_, List.pairwise_cons.mpr h⟩
      intro x hx
      rcases List.mem_cons.mp hx with rfl | hx
      · exact hba
      · exact hw.negTrans ha hb (hl x (by simp [hx])) hba (h.1 x hx)

theorem insertionSort_sorted {α : Type} {lt : α → α → Bool} {P : α → Prop} (hw : StrictWeak lt P) (l : List α)
    (hl : ∀ x ∈ l, P x) : (insertionSort lt l).Pairwise (fun a b => lt b a = false) := by
  induction l with
  | nil => exact List.Pairwise.nil
  | cons a l ih =>
    exact insertSorted_sorted hw (hl a (by simp))
      (fun x hx => hl x (List.mem_cons_of_mem _ ((insertionSort_perm lt l).mem_iff.mp hx)))
      (ih (fun x hx => hl x (by simp [hx])))

/-- the contract of `sort.Slice` can be met -/
theorem sortSlice_exists {α : Type} : SortSlice (α := α) insertionSort :=
  ⟨insertionSort_perm, fun _ l hw => insertionSort_sorted hw l (fun _ h => h)⟩

/-- sorting by a strict total order gives a result that depends neither on the order of the input nor on the algorithm -/
theorem SortSlice.unique {α : Type} {s s' : (α → α → Bool) → List α → List α} (hs : SortSlice s) (hs' : SortSlice s')
    {lt : α → α → Bool} (hw : ∀ l : List α, StrictWeak lt (· ∈ l))
    (ht : ∀ a b, lt a b = false → lt b a = false → a = b) {l l' : List α} (h : l.Perm l') : s lt l = s' lt l' := by
  refine List.Perm.eq_of_pairwise (le := fun a b => lt b a = false) ?_ (hs.sorted lt l (hw l)) (hs'.sorted lt l' (hw l')) ?_
  · intro a b _ _ h1 h2; exact ht a b h2 h1
  · exact (hs.perm lt l).trans (h.trans (hs'.perm lt l').symm)

/-- sorting distinct elements by a strict total order gives a strictly increasing list -/
theorem SortSlice.strict {α : Type} {s : (α → α → Bool) → List α → List α} (hs : SortSlice s)
    {lt : α → α → Bool} (hw : ∀ l : List α, StrictWeak lt (· ∈ l))
    (ht : ∀ a b, lt a b = false → lt b a = false → a = b) {l : List α} (hn : l.Nodup) :
    (s lt l).Pairwise (fun a b => lt a b = true) := by
  have h1 := hs.sorted lt l (hw l)
  have h2 : (s lt l).Nodup := (hs.perm lt l).nodup_iff.mpr hn
  refine (h1.and h2).imp ?_
  rintro a b ⟨h3, h4⟩
  cases e : lt a b with
  | true => rfl
  | false => exact absurd (ht a b e h3) h4

end Go
