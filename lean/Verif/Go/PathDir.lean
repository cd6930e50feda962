import Verif.Go.PathLemmas
/-! Lemmas about `path.Split` and `path.Dir`. -/
namespace Go

theorem takeWhile_ne {s t : Str} (h : '/' ∉ s) :
    (s ++ '/' :: t).takeWhile (· ≠ '/') = s ∧ (s ++ '/' :: t).dropWhile (· ≠ '/') = '/' :: t := by
  induction s with
  | nil => simp
  | cons c s ih =>
    have hc : c ≠ '/' := fun e => h (by simp [e])
    have := ih (fun hm => h (by simp [hm]))
    simp [hc] at this ⊢
    exact this

theorem pathSplit_slash {d c : Str} (h : '/' ∉ c) : pathSplit (d ++ '/' :: c) = (d ++ ['/'], c) := by
  unfold pathSplit
  have hr : '/' ∉ c.reverse := by simpa using h
  have e : (d ++ '/' :: c).reverse = c.reverse ++ '/' :: d.reverse := by simp
  rw [e, (takeWhile_ne hr).1, (takeWhile_ne hr).2]
  simp

theorem pathSplit_none {c : Str} (h : '/' ∉ c) : pathSplit c = ([], c) := by
  unfold pathSplit
  have : ∀ s : Str, '/' ∉ s → s.takeWhile (· ≠ '/') = s ∧ s.dropWhile (· ≠ '/') = [] := by
    intro s hs
    induction s with
    | nil => simp
    | cons c s ih =>
      have hc : c ≠ '/' := fun e => hs (by simp [e])
      have := ih (fun hm => hs (by simp [hm]))
      simp [hc] at this ⊢
      exact this
  have h' := this c.reverse (by simpa using h)
  rw [h'.1, h'.2]
  simp

theorem cleanElems_snoc_nil (r : Bool) (cs : List Str) : cleanElems r (cs ++ [[]]) = cleanElems r cs := by
  unfold cleanElems
  rw [List.foldl_append]
  simp [cleanStep]

/-- a slash at the end of a path goes away -/
theorem clean_snoc_slash {s : Str} (h : s ≠ []) : clean (s ++ ['/']) = clean s := by
  unfold clean
  rw [isRooted_append h, split_append, show split '/' ([] : Str) = [[]] from rfl, cleanElems_snoc_nil]

theorem CleanElems.init {r : Bool} {cs : List Str} {c : Str} (h : CleanElems r (cs ++ [c])) : CleanElems r cs := by
  obtain ⟨n, ds, e, hd, hr⟩ := h
  rcases List.eq_nil_or_concat ds with rfl | ⟨es, d, rfl⟩
  · simp only [List.append_nil] at e
    cases n with
    | zero => simp at e
    | succ n =>
      rw [List.replicate_succ'] at e
      exact ⟨n, [], by simpa using (List.append_inj' e rfl).1, by simp, fun h => by have := hr h; omega⟩
  · rw [List.concat_eq_append, ← List.append_assoc] at e
    have := (List.append_inj' e rfl).1
    exact ⟨n, es, this, fun x hx => hd x (by simp [hx]), hr⟩

theorem render_snoc {r : Bool} {cs : List Str} {c : Str} (hne : cs ≠ []) : render r (cs ++ [c]) = render r cs ++ '/' :: c := by
  have hj : ∀ l : List Str, l ≠ [] → join ['/'] (l ++ [c]) = join ['/'] l ++ '/' :: c := by
    intro l
    induction l with
    | nil => intro h; exact absurd rfl h
    | cons x l ih =>
      intro _
      by_cases hl : l = []
      · subst hl; simp [join]
      · rw [List.cons_append, join_cons (by simp), join_cons hl, ih hl]; simp
  unfold render
  cases r with
  | true => simp only [if_true]; rw [hj cs hne]; rfl
  | false =>
    simp only [Bool.false_eq_true, if_false]
    rw [if_neg (by simp), if_neg hne, hj cs hne]

theorem render_ne_nil' {r : Bool} {cs : List Str} (h : ∀ c ∈ cs, c ≠ []) : render r cs ≠ [] := by
  unfold render
  cases r with
  | true => simp
  | false =>
    simp only [Bool.false_eq_true, if_false]
    split
    · simp
    · exact join_ne_nil (by assumption) h

/-- the directory of a cleaned path is the path without its last element -/
theorem pathDir_render {r : Bool} {cs : List Str} {c : Str} (h : CleanElems r (cs ++ [c])) :
    pathDir (render r (cs ++ [c])) = render r cs := by
  have hc : '/' ∉ c := (h.elem c (by simp)).2.2
  have hi := h.init
  unfold pathDir
  by_cases hne : cs = []
  · subst hne
    cases r with
    | true =>
      have : render true ([] ++ [c]) = [] ++ '/' :: c := by simp [render, join]
      rw [this, pathSplit_slash hc]
      show clean ['/'] = render true []
      decide
    | false =>
      have : render false ([] ++ [c]) = c := by simp [render, join]
      rw [this, pathSplit_none hc]
      show clean [] = render false []
      decide
  · rw [render_snoc hne, pathSplit_slash hc, clean_snoc_slash (render_ne_nil' (fun x hx => (hi.elem x hx).1)), clean_render hi]

end Go
