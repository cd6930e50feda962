import Verif.Python.ConfigSpec
/-! Lemmas: how the model of the parser treats each kind of line. -/
namespace Python
open Go

theorem dropWhile_ne_nil {α : Type} {f : α → Bool} {l : List α} (h : ∃ c ∈ l, f c = false) : l.dropWhile f ≠ [] := by
  induction l with
  | nil => obtain ⟨c, hc, _⟩ := h; cases hc
  | cons a l ih =>
    rw [List.dropWhile_cons]
    split
    · rename_i ha
      obtain ⟨c, hc, hf⟩ := h
      rcases List.mem_cons.mp hc with rfl | hc
      · rw [ha] at hf; cases hf
      · exact ih ⟨c, hc, hf⟩
    · simp

theorem dropWhile_all {α : Type} {f : α → Bool} {l : List α} (h : ∀ c ∈ l, f c = true) : l.dropWhile f = [] := by
  induction l with
  | nil => rfl
  | cons a l ih => rw [List.dropWhile_cons, if_pos (h a (by simp)), ih (fun c hc => h c (by simp [hc]))]

theorem trimSpace_eq_nil {l : Str} : trimSpace l = [] ↔ Spec.Blank l := by
  unfold trimSpace
  constructor
  · intro h c hc
    cases hs : isSpace c with
    | true => rfl
    | false =>
      exfalso
      have h1 : l.dropWhile isSpace ≠ [] := dropWhile_ne_nil ⟨c, hc, hs⟩
      obtain ⟨d, t, e⟩ := List.exists_cons_of_ne_nil h1
      have hd : isSpace d = false := by
        have := List.head?_dropWhile_not isSpace l
        rw [e] at this
        simpa using this
      rw [List.reverse_eq_nil_iff] at h
      exact dropWhile_ne_nil ⟨d, by rw [e]; simp, hd⟩ h
  · intro h
    rw [dropWhile_all h]
    rfl

variable {p : Parser}

theorem commentStart_eq (hu : Spec.Usual p) (l : Str) :
    (Spec.Comment p l → commentStart p l = 0 ∧ l ≠ []) ∧ (¬ Spec.Comment p l → commentStart p l = l.length) := by
  unfold commentStart
  simp only [hu.inline, List.foldl_nil]
  constructor
  · rintro ⟨c, hc, hp⟩
    have : p.commentPrefixes.any (fun pre => hasPrefix (trimSpace l) pre) = true :=
      List.any_eq_true.mpr ⟨c, hc, by unfold hasPrefix; exact List.isPrefixOf_iff_prefix.mpr hp⟩
    refine ⟨if_pos this, ?_⟩
    rintro rfl
    exact hu.prefixes c hc (List.prefix_nil.mp hp)
  · intro h
    refine if_neg ?_
    intro h1
    obtain ⟨c, hc, hp⟩ := List.any_eq_true.mp h1
    exact h ⟨c, hc, by unfold hasPrefix at hp; exact List.isPrefixOf_iff_prefix.mp hp⟩

theorem line_comment (hu : Spec.Usual p) {l : Str} (h : Spec.Comment p l) (st : CfgState) : cfgLine p st l = .ok st := by
  obtain ⟨h1, h2⟩ := (commentStart_eq hu l).1 h
  unfold cfgLine
  simp only [h1, List.take_zero]
  rw [if_pos (by decide), if_pos hu.empty]
  cases hv : st.val with
  | none => rfl
  | some vs =>
    simp only
    rw [if_neg]
    intro e
    exact h2 (List.length_eq_zero_iff.mp e.symm)

theorem line_blank (hu : Spec.Usual p) {l : Str} (h : Spec.Blank l) (hc : ¬ Spec.Comment p l) (st : CfgState) :
    cfgLine p st l = .ok { st with val := st.val.map (· ++ [[]]) } := by
  have h1 := (commentStart_eq hu l).2 hc
  unfold cfgLine
  simp only [h1, List.take_length]
  rw [if_pos (trimSpace_eq_nil.mpr h), if_pos hu.empty]
  obtain ⟨cfg, ind, s, k, v⟩ := st
  cases v with
  | none => rfl
  | some vs => simp only; rw [if_pos trivial, trimSpace_eq_nil.mpr h]; rfl

theorem blank_not_comment (hu : Spec.Usual p) {l : Str} (h : Spec.Blank l) : ¬ Spec.Comment p l := by
  rintro ⟨c, hc, hp⟩
  rw [trimSpace_eq_nil.mpr h] at hp
  exact hu.prefixes c hc (List.prefix_nil.mp hp)

theorem indentLevel_eq {l : Str} (h : ¬ Spec.Blank l) : indentLevel l = Spec.indent l := by
  unfold indentLevel Spec.indent
  rw [if_neg]
  intro hb
  exact h (List.all_eq_true.mp hb)

/-- a line that says something -/
theorem line_content (hu : Spec.Usual p) {l : Str} (h : Spec.Content p l) (st : CfgState) :
    cfgLine p st l =
      if st.val.isSome ∧ 0 < Spec.indent l ∧ st.indent < Spec.indent l then .ok { st with val := some (st.val.getD [] ++ [trimSpace l]) }
      else if hasPrefix (trimSpace l) ['['] && hasSuffix (trimSpace l) [']'] then sectionLine p st (Spec.indent l) (trimSpace l)
      else optionLine p st (Spec.indent l) (trimSpace l) := by
  have h1 := (commentStart_eq hu l).2 h.1
  unfold cfgLine
  simp only [h1, List.take_length, indentLevel_eq h.2]
  rw [if_neg (fun e => h.2 (trimSpace_eq_nil.mp e))]

theorem header_iff (v : Str) : (hasPrefix v ['['] && hasSuffix v [']']) = true ↔ ∃ s, v = '[' :: (s ++ [']']) := by
  unfold hasPrefix hasSuffix
  rw [Bool.and_eq_true, List.isPrefixOf_iff_prefix, List.isSuffixOf_iff_suffix]
  constructor
  · rintro ⟨⟨t, e⟩, ⟨u, e2⟩⟩
    rw [List.singleton_append] at e
    subst e
    cases u with
    | nil => simp at e2
    | cons x u =>
      rw [List.cons_append, List.cons.injEq] at e2
      exact ⟨u, by rw [← e2.2]⟩
  · rintro ⟨s, rfl⟩
    exact ⟨⟨s ++ [']'], rfl⟩, ⟨'[' :: s, rfl⟩⟩

theorem header_name (s : Str) : trimSuffix (trimPrefix ('[' :: (s ++ [']'])) ['[']) [']'] = s := by
  have h1 : trimPrefix ('[' :: (s ++ [']'])) ['['] = s ++ [']'] := by
    unfold trimPrefix
    rw [if_pos (by unfold hasPrefix; rw [List.isPrefixOf_iff_prefix]; exact ⟨s ++ [']'], rfl⟩)]
    rfl
  rw [h1]
  unfold trimSuffix
  rw [if_pos (by unfold hasSuffix; rw [List.isSuffixOf_iff_suffix]; exact ⟨s, rfl⟩)]
  simp

theorem strIndex_char (c : Char) (s : Str) :
    (strIndex [c] s = none ∧ c ∉ s) ∨ ∃ a b, s = a ++ c :: b ∧ c ∉ a ∧ strIndex [c] s = some a.length := by
  induction s with
  | nil => exact Or.inl ⟨rfl, by simp⟩
  | cons d s ih =>
    rw [strIndex]
    by_cases hd : d = c
    · subst hd
      refine Or.inr ⟨[], s, rfl, by simp, ?_⟩
      rw [if_pos (by simp [List.isPrefixOf])]
      rfl
    · rw [if_neg (by simp [List.isPrefixOf]; exact fun e => hd e.symm)]
      rcases ih with ⟨h1, h2⟩ | ⟨a, b, rfl, h2, h3⟩
      · refine Or.inl ⟨by rw [h1]; rfl, ?_⟩
        intro h
        rcases List.mem_cons.mp h with h | h
        · exact hd h.symm
        · exact h2 h
      · refine Or.inr ⟨d :: a, b, rfl, ?_, by rw [h3]; rfl⟩
        intro h
        rcases List.mem_cons.mp h with h | h
        · exact hd h.symm
        · exact h2 h

/-- the first position of a delimiter -/
theorem findSep_spec {ds : List Str} (h : ∀ d ∈ ds, ∃ c, d = [c]) (v : Str) :
    (findSep ds v = (v.length, 0) ∧ ∀ x ∈ v, [x] ∉ ds) ∨
    ∃ a c b, v = a ++ c :: b ∧ [c] ∈ ds ∧ (∀ x ∈ a, [x] ∉ ds) ∧ findSep ds v = (a.length, 1) := by
  -- invariant of the loop, over the delimiters seen so far
  have key : ∀ (todo seen : List Str) (acc : Nat × Nat), (∀ d ∈ todo, ∃ c, d = [c]) →
      ((acc = (v.length, 0) ∧ ∀ x ∈ v, [x] ∉ seen) ∨
        ∃ a c b, v = a ++ c :: b ∧ [c] ∈ seen ∧ (∀ x ∈ a, [x] ∉ seen) ∧ acc = (a.length, 1)) →
      let r := todo.foldl (fun acc sep =>
        match strIndex sep v with
        | some i => if i < acc.1 then (i, sep.length) else acc
        | none => acc) acc
      ((r = (v.length, 0) ∧ ∀ x ∈ v, [x] ∉ seen ++ todo) ∨
        ∃ a c b, v = a ++ c :: b ∧ [c] ∈ seen ++ todo ∧ (∀ x ∈ a, [x] ∉ seen ++ todo) ∧ r = (a.length, 1)) := by
    intro todo
    induction todo with
    | nil => intro seen acc _ h; simpa using h
    | cons d todo ih =>
      intro seen acc hd hinv
      obtain ⟨c, rfl⟩ := hd d (by simp)
      rw [List.foldl_cons, show seen ++ [c] :: todo = (seen ++ [[c]]) ++ todo by simp]
      refine ih (seen ++ [[c]]) _ (fun d h => hd d (by simp [h])) ?_
      rcases strIndex_char c v with ⟨h1, h2⟩ | ⟨a, b, hv, h2, h3⟩
      · rw [h1]
        simp only
        rcases hinv with ⟨e, hn⟩ | ⟨a', c', b', hv', hc', hn, e⟩
        · refine Or.inl ⟨e, ?_⟩
          intro x hx hm
          rcases List.mem_append.mp hm with hm | hm
          · exact hn x hx hm
          · simp only [List.mem_singleton, List.cons.injEq, and_true] at hm; exact h2 (hm ▸ hx)
        · refine Or.inr ⟨a', c', b', hv', by simp [hc'], ?_, e⟩
          intro x hx hm
          rcases List.mem_append.mp hm with hm | hm
          · exact hn x hx hm
          · simp only [List.mem_singleton, List.cons.injEq, and_true] at hm
            exact h2 (hm ▸ (by rw [hv']; simp [hx]))
      · rw [h3]
        simp only
        rcases hinv with ⟨e, hn⟩ | ⟨a', c', b', hv', hc', hn, e⟩
        · rw [e, if_pos (by rw [hv]; simp)]
          refine Or.inr ⟨a, c, b, hv, by simp, ?_, rfl⟩
          intro x hx hm
          rcases List.mem_append.mp hm with hm | hm
          · exact hn x (by rw [hv]; simp [hx]) hm
          · simp only [List.mem_singleton, List.cons.injEq, and_true] at hm; exact h2 (hm ▸ hx)
        · rw [e]
          simp only
          by_cases hlt : a.length < a'.length
          · rw [if_pos hlt]
            refine Or.inr ⟨a, c, b, hv, by simp, ?_, rfl⟩
            have hpre : a <+: a' := by
              have := hv.symm.trans hv'
              exact List.prefix_of_prefix_length_le ⟨c :: b, rfl⟩ (this ▸ ⟨c' :: b', rfl⟩) (by omega)
            intro x hx hm
            rcases List.mem_append.mp hm with hm | hm
            · exact hn x (hpre.subset hx) hm
            · simp only [List.mem_singleton, List.cons.injEq, and_true] at hm; exact h2 (hm ▸ hx)
          · rw [if_neg hlt]
            refine Or.inr ⟨a', c', b', hv', by simp [hc'], ?_, rfl⟩
            have hpre : a' <+: a := by
              have := hv'.symm.trans hv
              exact List.prefix_of_prefix_length_le ⟨c' :: b', rfl⟩ (this ▸ ⟨c :: b, rfl⟩) (by omega)
            intro x hx hm
            rcases List.mem_append.mp hm with hm | hm
            · exact hn x hx hm
            · simp only [List.mem_singleton, List.cons.injEq, and_true] at hm
              exact h2 (hm ▸ hpre.subset hx)
  have := key ds [] (v.length, 0) h (Or.inl ⟨rfl, by simp⟩)
  rw [List.nil_append] at this
  exact this

theorem getKey_none {α : Type} {k : Str} {m : List (Str × α)} : getKey k m = none ↔ k ∉ m.map (·.1) := by
  induction m with
  | nil => simp [getKey]
  | cons e m ih =>
    rw [getKey]
    by_cases h : e.1 = k
    · simp [h]
    · rw [if_neg h, ih]; simp [Ne.symm h]

theorem setKey_new {α : Type} {k : Str} {v : α} {m : List (Str × α)} (h : k ∉ m.map (·.1)) : setKey k v m = m ++ [(k, v)] := by
  induction m with
  | nil => rfl
  | cons e m ih =>
    rw [List.map_cons, List.mem_cons, not_or] at h
    rw [setKey, if_neg (Ne.symm h.1), ih h.2]
    rfl

theorem setKey_last {α : Type} {k : Str} {v w : α} {m : List (Str × α)} (h : k ∉ m.map (·.1)) :
    setKey k v (m ++ [(k, w)]) = m ++ [(k, v)] := by
  induction m with
  | nil => simp [setKey]
  | cons e m ih =>
    rw [List.map_cons, List.mem_cons, not_or] at h
    rw [List.cons_append, setKey, if_neg (Ne.symm h.1), ih h.2]
    rfl

theorem getKey_last {α : Type} {k : Str} {w : α} {m : List (Str × α)} (h : k ∉ m.map (·.1)) :
    getKey k (m ++ [(k, w)]) = some w := by
  induction m with
  | nil => simp [getKey]
  | cons e m ih =>
    rw [List.map_cons, List.mem_cons, not_or] at h
    rw [List.cons_append, getKey, if_neg (Ne.symm h.1), ih h.2]

end Python
