import Verif.Fsutil.Model
import Verif.Go.PathLemmas
import Verif.Go.Sort
/-! The order used by `LayerFromFileReferences`. -/
namespace Fsutil
open Go

/-- part number `i`, empty when missing -/
def part (l : List Str) (i : Nat) : Str := l.getD i []

theorem nilLess_iff (b : List Str) :
    nilLess b = true ↔ ∃ i, (∀ j, j < i → part [] j = part b j) ∧ part [] i < part b i := by
  induction b with
  | nil =>
    constructor
    · intro h; simp [nilLess] at h
    · rintro ⟨i, _, h⟩; simp [part] at h
  | cons d ds ih =>
    rw [nilLess]
    by_cases hd : ([] : Str) ≠ d
    · rw [if_pos hd]
      constructor
      · intro h; exact ⟨0, by omega, by simpa [part] using of_decide_eq_true h⟩
      · intro _
        obtain ⟨c, d, rfl⟩ := List.exists_cons_of_ne_nil (Ne.symm hd)
        simp
    · rw [if_neg hd, ih]
      have hd' : d = [] := by simpa [eq_comm] using hd
      subst hd'
      constructor
      · rintro ⟨i, h1, h2⟩
        refine ⟨i + 1, ?_, by simpa [part] using h2⟩
        intro j hj
        cases j with
        | zero => rfl
        | succ j => simpa [part] using h1 j (by omega)
      · rintro ⟨i, h1, h2⟩
        cases i with
        | zero => simp [part] at h2
        | succ i =>
          refine ⟨i, ?_, by simpa [part] using h2⟩
          intro j hj
          simpa [part] using h1 (j + 1) (by omega)

theorem lessNil_iff (a : List Str) : lessNil a = false := by
  induction a with
  | nil => rfl
  | cons c cs ih =>
    rw [lessNil]
    split
    · simp
    · exact ih

theorem partsLess_iff (a b : List Str) :
    partsLess a b = true ↔ ∃ i, (∀ j, j < i → part a j = part b j) ∧ part a i < part b i := by
  induction a generalizing b with
  | nil => rw [partsLess]; exact nilLess_iff b
  | cons c cs ih =>
    cases b with
    | nil =>
      rw [partsLess, lessNil_iff]
      · constructor
        · intro h; cases h
        · rintro ⟨i, _, h2⟩; simp [part] at h2
      · simp
    | cons d ds =>
      rw [partsLess]
      by_cases hc : c ≠ d
      · rw [if_pos hc]
        constructor
        · intro h; exact ⟨0, by omega, by simpa [part] using of_decide_eq_true h⟩
        · rintro ⟨i, h1, h2⟩
          cases i with
          | zero => exact decide_eq_true (by simpa [part] using h2)
          | succ i => exact absurd (by simpa [part] using h1 0 (by omega)) hc
      · rw [if_neg hc, ih]
        have hc' : c = d := by simpa using hc
        subst hc'
        constructor
        · rintro ⟨i, h1, h2⟩
          refine ⟨i + 1, ?_, by simpa [part] using h2⟩
          intro j hj
          cases j with
          | zero => rfl
          | succ j => simpa [part] using h1 j (by omega)
        · rintro ⟨i, h1, h2⟩
          cases i with
          | zero => exact absurd (by simpa [part] using h2) (List.lt_irrefl c)
          | succ i =>
            refine ⟨i, ?_, by simpa [part] using h2⟩
            intro j hj
            simpa [part] using h1 (j + 1) (by omega)

theorem partsLess_irrefl (a : List Str) : partsLess a a = false := by
  cases h : partsLess a a with
  | false => rfl
  | true =>
    obtain ⟨i, _, h2⟩ := (partsLess_iff a a).mp h
    exact absurd h2 (List.lt_irrefl _)

theorem partsLess_trans {a b c : List Str} (h1 : partsLess a b = true) (h2 : partsLess b c = true) : partsLess a c = true := by
  obtain ⟨i, p1, q1⟩ := (partsLess_iff a b).mp h1
  obtain ⟨j, p2, q2⟩ := (partsLess_iff b c).mp h2
  refine (partsLess_iff a c).mpr ⟨min i j, ?_, ?_⟩
  · intro k hk
    rw [p1 k (by omega), p2 k (by omega)]
  · rcases Nat.lt_trichotomy i j with h | h | h
    · rw [Nat.min_eq_left (by omega), ← p2 i h]; exact q1
    · subst h; rw [Nat.min_self]; exact List.lt_trans q1 q2
    · rw [Nat.min_eq_right (by omega), p1 j h]; exact q2

/-- incomparable part lists agree up to missing parts -/
theorem partsLess_incomp {a b : List Str} (h1 : partsLess a b = false) (h2 : partsLess b a = false) (i : Nat) : part a i = part b i := by
  induction i using Nat.strongRecOn with
  | ind i ih =>
    refine List.le_antisymm ?_ ?_
    · intro h
      have := (partsLess_iff b a).mpr ⟨i, fun j hj => (ih j hj).symm, h⟩
      rw [h2] at this; cases this
    · intro h
      have := (partsLess_iff a b).mpr ⟨i, ih, h⟩
      rw [h1] at this; cases this

theorem partsLess_of_same {a b : List Str} (h : ∀ i, part a i = part b i) : partsLess a b = false := by
  cases hl : partsLess a b with
  | false => rfl
  | true =>
    obtain ⟨i, _, h2⟩ := (partsLess_iff a b).mp hl
    rw [h i] at h2
    exact absurd h2 (List.lt_irrefl _)

theorem refLess_weak (P : FileRef → Prop) : StrictWeak refLess P where
  irrefl _ _ := partsLess_irrefl _
  trans _ _ _ _ _ _ h1 h2 := partsLess_trans h1 h2
  incomp a _ c _ _ _ h1 h2 h3 h4 :=
    have e : ∀ i, part (split '/' a.name) i = part (split '/' c.name) i :=
      fun i => (partsLess_incomp h1 h2 i).trans (partsLess_incomp h3 h4 i)
    ⟨partsLess_of_same e, partsLess_of_same (fun i => (e i).symm)⟩

/-- lists without empty parts are determined by their parts -/
theorem part_ext {a b : List Str} (ha : ∀ c ∈ a, c ≠ []) (hb : ∀ c ∈ b, c ≠ []) (h : ∀ i, part a i = part b i) : a = b := by
  induction a generalizing b with
  | nil =>
    cases b with
    | nil => rfl
    | cons d ds => exact absurd (by simpa [part] using (h 0).symm) (hb d (by simp))
  | cons c cs ih =>
    cases b with
    | nil => exact absurd (by simpa [part] using h 0) (ha c (by simp))
    | cons d ds =>
      have h0 : c = d := by simpa [part] using h 0
      have ht : cs = ds := ih (fun x hx => ha x (by simp [hx])) (fun x hx => hb x (by simp [hx]))
        (fun i => by simpa [part] using h (i + 1))
      rw [h0, ht]

theorem part_pad (cs : List Str) (i : Nat) : part (if cs = [] then [[]] else cs) i = part cs i := by
  cases cs with
  | nil => cases i <;> rfl
  | cons c cs => rfl

/-- cleaned names are determined by their parts -/
theorem clean_part_ext {m n : Str} (hm : clean m = m) (hn : clean n = n)
    (h : ∀ i, part (split '/' m) i = part (split '/' n) i) : m = n := by
  obtain ⟨cs, hc, em⟩ := clean_shape m
  obtain ⟨ds, hd, en⟩ := clean_shape n
  rw [hm] at em; rw [hn] at en
  have nec : ∀ c ∈ cs, c ≠ [] := fun c hc' => (hc.elem c hc').1
  have ned : ∀ c ∈ ds, c ≠ [] := fun c hc' => (hd.elem c hc').1
  have sm := split_render (rooted := isRooted m) (cs := cs) (fun c hc' => (hc.elem c hc').2.2)
  have sn := split_render (rooted := isRooted n) (cs := ds) (fun c hc' => (hd.elem c hc').2.2)
  rw [← em] at sm; rw [← en] at sn
  have dot : ∀ {x : List Str}, (∀ c ∈ x, c ≠ []) → ∀ c ∈ (if x = [] then [['.']] else x), c ≠ [] := by
    intro x hx c hc
    split at hc
    · rw [List.mem_singleton.mp hc]; simp
    · exact hx c hc
  have first : ∀ {x : List Str}, (∀ c ∈ x, c ≠ []) → part (if x = [] then [['.']] else x) 0 ≠ [] := by
    intro x hx
    cases x with
    | nil => simp [part]
    | cons c x => simpa [part] using hx c (by simp)
  cases hrm : isRooted m <;> cases hrn : isRooted n <;> rw [hrm] at sm em <;> rw [hrn] at sn en <;>
    simp only [Bool.false_eq_true, if_false, if_true] at sm sn <;> rw [sm, sn] at h
  · have e := part_ext (dot nec) (dot ned) h
    rw [← join_split '/' m, ← join_split '/' n, sm, sn, e]
  · exact absurd (h 0) (by rw [show part ([] :: _) 0 = [] from rfl]; exact first nec)
  · exact absurd (h 0).symm (by rw [show part ([] :: _) 0 = [] from rfl]; exact first ned)
  · have e : cs = ds := part_ext nec ned (fun i => by
      have := h (i + 1)
      rw [show ∀ x : List Str, part ([] :: x) (i + 1) = part x i from fun x => rfl,
        show ∀ x : List Str, part ([] :: x) (i + 1) = part x i from fun x => rfl, part_pad, part_pad] at this
      exact this)
    rw [em, en, e]

theorem refLess_total {a b : FileRef} (ha : clean a.name = a.name) (hb : clean b.name = b.name)
    (h1 : refLess a b = false) (h2 : refLess b a = false) : a.name = b.name :=
  clean_part_ext ha hb (partsLess_incomp h1 h2)

/-- a directory comes before what lies below it -/
theorem refLess_below {a b : FileRef} {x : Str} (ha : clean a.name = a.name) (hb : clean b.name = b.name) (e : b.name = a.name ++ '/' :: x) :
    refLess a b = true := by
  unfold refLess
  have key : ∀ (l m : List Str), m ≠ [] → (∀ c ∈ m, c ≠ []) → partsLess l (l ++ m) = true := by
    intro l m hm hne
    refine (partsLess_iff _ _).mpr ⟨l.length, ?_, ?_⟩
    · intro j hj
      unfold part
      simp [List.getD, List.getElem?_append_left hj]
    · obtain ⟨c, m, rfl⟩ := List.exists_cons_of_ne_nil hm
      obtain ⟨y, c, rfl⟩ := List.exists_cons_of_ne_nil (hne c (by simp))
      simp [part, List.getD]
  rw [e, split_append]
  refine key _ _ (split_ne_nil _ _) ?_
  obtain ⟨cs, hc, en⟩ := clean_shape b.name
  rw [hb] at en
  have nec : ∀ c ∈ cs, c ≠ [] := fun c hc' => (hc.elem c hc').1
  have sm := split_render (rooted := isRooted b.name) (cs := cs) (fun c hc' => (hc.elem c hc').2.2)
  rw [← en] at sm
  intro c hmem
  have hs : split '/' b.name = split '/' a.name ++ split '/' x := by rw [e, split_append]
  rw [hs] at sm
  obtain ⟨p, ps, hp⟩ := List.exists_cons_of_ne_nil (split_ne_nil '/' a.name)
  rw [hp] at sm
  cases hr : isRooted b.name with
  | true =>
    rw [hr] at sm
    simp only [if_true, List.cons_append, List.cons.injEq] at sm
    by_cases hcs : cs = []
    · -- the name is "/"
      exfalso
      rw [hr, hcs] at en
      have en' : b.name = ['/'] := en
      rw [e] at en'
      have h1 : a.name = [] := by
        cases hn : a.name with
        | nil => rfl
        | cons y ys => rw [hn] at en'; simp at en'
      rw [h1] at ha
      exact absurd ha (by decide)
    · rw [if_neg hcs] at sm
      exact nec c (sm.2 ▸ List.mem_append_right _ hmem)
  | false =>
    rw [hr] at sm
    simp only [Bool.false_eq_true, if_false] at sm
    by_cases hcs : cs = []
    · rw [if_pos hcs] at sm
      have := congrArg List.length sm
      have h2 := List.length_pos_iff.mpr (split_ne_nil '/' x)
      rw [List.length_append, List.length_cons, List.length_singleton] at this; omega
    · rw [if_neg hcs] at sm
      exact nec c (sm ▸ List.mem_append_right _ hmem)

end Fsutil
