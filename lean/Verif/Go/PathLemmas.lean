import Verif.Go.Path
import Verif.Go.Strings
/-! Lemmas about cleaned paths. -/
namespace Go

/-- an ordinary path element: not empty, not `.` or `..`, no slash -/
def Plain (c : Str) : Prop := c ≠ [] ∧ c ≠ ['.'] ∧ c ≠ ['.', '.'] ∧ '/' ∉ c

/-- the elements of a cleaned path: ordinary ones, after some `..` if the path is not rooted -/
def CleanElems (rooted : Bool) (cs : List Str) : Prop :=
  ∃ n ds, cs = List.replicate n ['.', '.'] ++ ds ∧ (∀ d ∈ ds, Plain d) ∧ (rooted = true → n = 0)

theorem cleanStep_plain {rooted : Bool} {st : List Str} {c : Str} (h : Plain c) : cleanStep rooted st c = c :: st := by
  unfold cleanStep
  rw [if_neg (by simp [h.1, h.2.1]), if_neg h.2.2.1]

theorem foldl_plain {rooted : Bool} {st cs : List Str} (h : ∀ c ∈ cs, Plain c) :
    cs.foldl (cleanStep rooted) st = cs.reverse ++ st := by
  induction cs generalizing st with
  | nil => rfl
  | cons c cs ih =>
    rw [List.foldl_cons, cleanStep_plain (h c (by simp)), ih (fun d hd => h d (by simp [hd]))]
    simp

theorem cleanElems_append_plain {rooted : Bool} {cs ds : List Str} (h : ∀ c ∈ ds, Plain c) :
    cleanElems rooted (cs ++ ds) = cleanElems rooted cs ++ ds := by
  unfold cleanElems
  rw [List.foldl_append, foldl_plain h]; simp

theorem cleanStep_ok {rooted : Bool} {st : List Str} {c : Str} (hc : '/' ∉ c) (h : CleanElems rooted st.reverse) :
    CleanElems rooted (cleanStep rooted st c).reverse := by
  obtain ⟨n, ds, e, hd, hn⟩ := h
  unfold cleanStep
  split
  · exact ⟨n, ds, e, hd, hn⟩
  · rename_i h1
    split
    · rename_i h2
      cases st with
      | nil =>
        simp only
        cases rooted with
        | true => exact ⟨0, [], rfl, by simp, by simp⟩
        | false => exact ⟨1, [], rfl, by simp, by simp⟩
      | cons d st =>
        simp only
        have es : st.reverse ++ [d] = List.replicate n ['.', '.'] ++ ds := by simpa using e
        split
        · rename_i hdd
          subst hdd
          -- the last kept element is `..`, so all are
          have : ds = [] := by
            cases hds : ds.reverse with
            | nil => simpa using hds
            | cons x xs =>
              have : ds = xs.reverse ++ [x] := by rw [← List.reverse_cons, ← hds, List.reverse_reverse]
              rw [this, ← List.append_assoc] at es
              have hl := (List.append_inj_right' es rfl)
              have hx := hd x (by rw [this]; simp)
              simp at hl; exact absurd hl.symm hx.2.2.1
          subst this
          refine ⟨n + 1, [], ?_, by simp, ?_⟩
          · simp only [List.reverse_cons, List.append_nil] at es ⊢
            rw [es, List.replicate_succ']
          · intro hr
            have := hn hr
            subst this
            simp at es
        · rename_i hdd
          cases hds : ds.reverse with
          | nil =>
            have : ds = [] := by simpa using hds
            subst this
            cases n with
            | zero => simp at es
            | succ n =>
              rw [List.append_nil, List.replicate_succ'] at es
              have hl := (List.append_inj_right' es rfl)
              simp at hl; exact absurd hl hdd
          | cons x xs =>
            have : ds = xs.reverse ++ [x] := by rw [← List.reverse_cons, ← hds, List.reverse_reverse]
            rw [this, ← List.append_assoc] at es
            have hl := (List.append_inj_left' es rfl)
            exact ⟨n, xs.reverse, hl, fun y hy => hd y (by rw [this]; simp [List.mem_reverse.mp hy]), hn⟩
    · rename_i h2
      refine ⟨n, ds ++ [c], by simp [e], ?_, hn⟩
      intro y hy
      simp only [List.mem_append, List.mem_singleton] at hy
      rcases hy with hy | rfl
      · exact hd y hy
      · simp only [not_or] at h1
        exact ⟨h1.1, h1.2, h2, hc⟩

theorem foldl_ok {rooted : Bool} {cs st : List Str} (hc : ∀ c ∈ cs, '/' ∉ c) (h : CleanElems rooted st.reverse) :
    CleanElems rooted (cs.foldl (cleanStep rooted) st).reverse := by
  induction cs generalizing st with
  | nil => exact h
  | cons c cs ih =>
    rw [List.foldl_cons]
    exact ih (fun d hd => hc d (by simp [hd])) (cleanStep_ok (hc c (by simp)) h)

theorem split_no_sep {sep : Char} {s c : Str} (h : c ∈ split sep s) : sep ∉ c :=
  fun hm => (mem_split h sep hm).2 rfl

/-- every cleaned path has clean elements -/
theorem cleanElems_ok {rooted : Bool} {cs : List Str} (hc : ∀ c ∈ cs, '/' ∉ c) : CleanElems rooted (cleanElems rooted cs) :=
  foldl_ok hc ⟨0, [], rfl, by simp, by simp⟩

theorem foldl_dotdot (n : Nat) (m : Nat) :
    (List.replicate n ['.', '.']).foldl (cleanStep false) (List.replicate m ['.', '.']) = List.replicate (n + m) ['.', '.'] := by
  induction n generalizing m with
  | zero => simp
  | succ n ih =>
    rw [List.replicate_succ, List.foldl_cons]
    have : cleanStep false (List.replicate m ['.', '.']) ['.', '.'] = List.replicate (m + 1) ['.', '.'] := by
      cases m <;> rfl
    rw [this, ih]; congr 1; omega

/-- cleaning clean elements changes nothing -/
theorem cleanElems_id {rooted : Bool} {cs : List Str} (h : CleanElems rooted cs) : cleanElems rooted cs = cs := by
  obtain ⟨n, ds, rfl, hd, hn⟩ := h
  rw [cleanElems_append_plain hd]
  congr 1
  cases rooted with
  | true => rw [hn rfl]; rfl
  | false =>
    unfold cleanElems
    have := foldl_dotdot n 0
    simp only [List.replicate_zero, Nat.add_zero] at this
    rw [this]; simp

theorem CleanElems.elem {rooted : Bool} {cs : List Str} (h : CleanElems rooted cs) :
    ∀ c ∈ cs, c ≠ [] ∧ c ≠ ['.'] ∧ '/' ∉ c := by
  obtain ⟨n, ds, rfl, hd, -⟩ := h
  intro c hc
  simp only [List.mem_append, List.mem_replicate] at hc
  rcases hc with ⟨-, rfl⟩ | hc
  · exact ⟨by decide, by decide, by decide⟩
  · have := hd c hc; exact ⟨this.1, this.2.1, this.2.2.2⟩

theorem join_ne_nil {cs : List Str} (hne : cs ≠ []) (h : ∀ c ∈ cs, c ≠ []) : join ['/'] cs ≠ [] := by
  obtain ⟨c, cs, rfl⟩ := List.exists_cons_of_ne_nil hne
  cases cs with
  | nil => exact h c (by simp)
  | cons d cs =>
    rw [join_cons (by simp)]
    simp

theorem isRooted_render {rooted : Bool} {cs : List Str} (h : ∀ c ∈ cs, c ≠ [] ∧ '/' ∉ c) :
    isRooted (render rooted cs) = rooted := by
  cases rooted with
  | true => rfl
  | false =>
    cases cs with
    | nil => rfl
    | cons c cs =>
      obtain ⟨x, c, rfl⟩ := List.exists_cons_of_ne_nil (h c (by simp)).1
      have hx : x ≠ '/' := by rintro rfl; exact (h _ (List.mem_cons_self)).2 (by simp)
      cases cs <;> simp [render, isRooted, join, hx]

theorem split_render {rooted : Bool} {cs : List Str} (h : ∀ c ∈ cs, '/' ∉ c) :
    split '/' (render rooted cs) =
      if rooted then [] :: (if cs = [] then [[]] else cs) else if cs = [] then [['.']] else cs := by
  unfold render
  cases rooted with
  | true =>
    simp only [if_true]
    rw [split, if_pos rfl]
    cases cs with
    | nil => rfl
    | cons c cs => rw [split_join (by simp) h, if_neg (by simp)]
  | false =>
    simp only [Bool.false_eq_true, if_false]
    cases cs with
    | nil => decide
    | cons c cs => simp only [reduceCtorEq, if_false]; exact split_join (by simp) h

theorem cleanElems_skip {rooted : Bool} (cs : List Str) (c : Str) (h : c = [] ∨ c = ['.']) :
    cleanElems rooted (c :: cs) = cleanElems rooted cs := by
  unfold cleanElems
  rw [List.foldl_cons]
  have : cleanStep rooted [] c = [] := by unfold cleanStep; rw [if_pos h]
  rw [this]

theorem elems_render {rooted : Bool} {cs : List Str} (h : CleanElems rooted cs) :
    cleanElems rooted (split '/' (render rooted cs)) = cs := by
  rw [split_render (fun c hc => (h.elem c hc).2.2)]
  split
  · rw [cleanElems_skip _ _ (Or.inl rfl)]
    split
    · rename_i h0; rw [h0]; rfl
    · exact cleanElems_id h
  · split
    · rename_i h0; rw [h0]; rfl
    · exact cleanElems_id h

/-- the path with these elements is already clean -/
theorem clean_render {rooted : Bool} {cs : List Str} (h : CleanElems rooted cs) :
    clean (render rooted cs) = render rooted cs := by
  unfold clean
  rw [isRooted_render (fun c hc => ⟨(h.elem c hc).1, (h.elem c hc).2.2⟩), elems_render h]

/-- every cleaned path is `render` of clean elements -/
theorem clean_shape (s : Str) : ∃ cs, CleanElems (isRooted s) cs ∧ clean s = render (isRooted s) cs :=
  ⟨_, cleanElems_ok (fun _ hc => split_no_sep hc), rfl⟩

theorem clean_idem (s : Str) : clean (clean s) = clean s := by
  obtain ⟨cs, h, e⟩ := clean_shape s
  rw [e, clean_render h]

theorem render_inj {r r' : Bool} {cs cs' : List Str} (h : CleanElems r cs) (h' : CleanElems r' cs')
    (e : render r cs = render r' cs') : r = r' ∧ cs = cs' := by
  have hr : r = r' := by
    rw [← isRooted_render (rooted := r) (fun c hc => ⟨(h.elem c hc).1, (h.elem c hc).2.2⟩), e,
      isRooted_render (fun c hc => ⟨(h'.elem c hc).1, (h'.elem c hc).2.2⟩)]
  subst hr
  exact ⟨rfl, by rw [← elems_render h, e, elems_render h']⟩

theorem split_append (sep : Char) (s t : Str) : split sep (s ++ sep :: t) = split sep s ++ split sep t := by
  induction s with
  | nil => simp [split]
  | cons c s ih =>
    rw [List.cons_append, split, split]
    split
    · rw [ih]; rfl
    · rw [ih]
      cases h : split sep s with
      | nil => exact absurd h (split_ne_nil _ _)
      | cons q qs => rfl

theorem isRooted_append {s t : Str} (h : s ≠ []) : isRooted (s ++ t) = isRooted s := by
  obtain ⟨c, s, rfl⟩ := List.exists_cons_of_ne_nil h; rfl

/-- joining a path and one ordinary element -/
theorem pathJoin_plain {base n : Str} (hb : base ≠ []) (hn : Plain n) :
    pathJoin [base, n] = render (isRooted base) (cleanElems (isRooted base) (split '/' base) ++ [n]) := by
  unfold pathJoin
  have : [base, n].filter (· ≠ []) = [base, n] := by simp [hb, hn.1]
  rw [this]
  simp only
  unfold clean
  have ej : join ['/'] [base, n] = base ++ '/' :: n := by simp [join]
  rw [ej, isRooted_append hb, split_append, split_none (sep := '/') (fun c hc e => hn.2.2.2 (e ▸ hc)),
    cleanElems_append_plain (by simpa using hn)]

end Go
