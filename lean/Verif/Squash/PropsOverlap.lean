import Verif.Squash.OverlapSpec
import Verif.Squash.PropsSteps
/-! C138: order and repetition of layers matter only where they overlap. -/
namespace Squash
open Go Spec

/-- the four things an entry can do to what is at a path -/
theorem acts (e : Entry) (q : List Str) :
    (Above e q ∧ ∀ V, apply V e q = some (asDir (V q))) ∨ (Puts e q ∧ ∀ V, apply V e q = some (nodeOf e)) ∨
    (Removes e q ∧ ∀ V, apply V e q = none) ∨
    (¬ Above e q ∧ ¬ Puts e q ∧ ¬ Removes e q ∧ ∀ V, apply V e q = V q) := by
  by_cases ha : q <+: pathOf e ∧ q ≠ pathOf e
  · left
    refine ⟨ha, fun V => ?_⟩
    unfold apply applyAt
    rw [if_pos ha]
  right
  have hA : ¬ Above e q := ha
  have ordinary : ¬ isMarkerEntry e → (∀ V, apply V e q = if q = pathOf e then some (nodeOf e) else if pathOf e <+: q ∧ isFile (nodeOf e) then none else V q) →
      (Puts e q ∧ ∀ V, apply V e q = some (nodeOf e)) ∨ (Removes e q ∧ ∀ V, apply V e q = none) ∨
      (¬ Above e q ∧ ¬ Puts e q ∧ ¬ Removes e q ∧ ∀ V, apply V e q = V q) := by
    intro hm hV
    by_cases h1 : q = pathOf e
    · exact Or.inl ⟨⟨hm, h1⟩, fun V => by rw [hV, if_pos h1]⟩
    right
    by_cases h2 : pathOf e <+: q ∧ isFile (nodeOf e)
    · exact Or.inl ⟨Or.inr (Or.inr ⟨hm, h2.2, h2.1, h1⟩), fun V => by rw [hV, if_neg h1, if_pos h2]⟩
    · refine Or.inr ⟨hA, fun h => h1 h.2, ?_, fun V => by rw [hV, if_neg h1, if_neg h2]⟩
      rintro (⟨d, hd, -⟩ | ⟨d, x, hd, -⟩ | ⟨-, h3, h4, -⟩)
      · exact hm ⟨_, by rw [hd, List.getLast?_concat], by decide⟩
      · exact hm ⟨_, by rw [hd, List.getLast?_concat], List.prefix_append _ _⟩
      · exact h2 ⟨h4, h3⟩
  cases hl : (pathOf e).getLast? with
  | none =>
    refine ordinary (fun ⟨c, h, _⟩ => by rw [hl] at h; cases h) (fun V => ?_)
    unfold apply applyAt
    rw [if_neg ha, hl]
  | some c =>
    obtain ⟨d, hd⟩ := List.getLast?_eq_some_iff.mp hl
    rcases Classical.em (¬ isMarker c) with hm | hm
    · refine ordinary (fun ⟨c', h, h'⟩ => by rw [hl] at h; injection h with h; exact hm (h ▸ h')) (fun V => ?_)
      unfold apply applyAt
      rw [if_neg ha, hl]
      simp only
      rw [if_neg (by rintro rfl; exact hm (by decide)), if_neg hm]
    right
    have hm := Classical.not_not.mp hm
    have hmark : isMarkerEntry e := ⟨c, hl, hm⟩
    have hdl : (pathOf e).dropLast = d := by rw [hd]; simp
    by_cases ho : c = ".wh..wh..opq".toList
    · have hV : ∀ V, apply V e q = if d <+: q then none else V q := by
        intro V
        unfold apply applyAt
        rw [if_neg ha, hl]
        simp only
        rw [if_pos ho, hdl]
      by_cases h1 : d <+: q
      · left
        refine ⟨Or.inl ⟨d, by rw [hd, ho], h1, ?_⟩, fun V => by rw [hV, if_pos h1]⟩
        rintro rfl
        exact ha ⟨by rw [hd]; exact List.prefix_append _ _, by rw [hd]; simp⟩
      · right
        refine ⟨hA, fun h => h.1 hmark, ?_, fun V => by rw [hV, if_neg h1]⟩
        rintro (⟨d', hd', h2, -⟩ | ⟨d', x, hd', hx, -⟩ | ⟨h, -⟩)
        · rw [hd] at hd'
          have := (List.append_inj' hd' rfl).1
          exact h1 (this ▸ h2)
        · rw [hd, ho] at hd'
          have := (List.append_inj' hd' rfl).2
          injection this with this
          apply hx
          have h5 : (".wh..wh..opq".toList : Str) = ".wh.".toList ++ ".wh..opq".toList := by decide
          rw [h5] at this
          exact (List.append_cancel_left this).symm
        · exact h hmark
    · obtain ⟨x, hx⟩ := hm
      have hm : isMarker c := ⟨x, hx⟩
      have hdrop : c.drop 4 = x := by rw [← hx]; rfl
      have hxo : x ≠ ".wh..opq".toList := by
        rintro rfl
        exact ho (by rw [← hx]; decide)
      have hV : ∀ V, apply V e q = if d ++ [x] <+: q then none else V q := by
        intro V
        unfold apply applyAt
        rw [if_neg ha, hl]
        simp only
        rw [if_neg ho, if_pos hm, hdl, hdrop]
      by_cases h1 : d ++ [x] <+: q
      · exact Or.inl ⟨Or.inr (Or.inl ⟨d, x, by rw [hd, hx], hxo, h1⟩), fun V => by rw [hV, if_pos h1]⟩
      · right
        refine ⟨hA, fun h => h.1 hmark, ?_, fun V => by rw [hV, if_neg h1]⟩
        rintro (⟨d', hd', -⟩ | ⟨d', x', hd', hx', h2⟩ | ⟨h, -⟩)
        · rw [hd] at hd'
          have := (List.append_inj' hd' rfl).2
          injection this with this
          exact ho this
        · rw [hd, ← hx] at hd'
          have e1 := (List.append_inj' hd' rfl).1
          have e2 := (List.append_inj' hd' rfl).2
          injection e2 with e2
          have e3 := List.append_cancel_left e2
          exact h1 (by rw [e1, e3]; exact h2)
        · exact h hmark

theorem asDir_dir {nd : Node} (h : ¬ isFile nd) : asDir (some nd) = nd := by
  unfold asDir; simp only; rw [if_neg h]

theorem asDir_not_file (x : Option Node) : ¬ isFile (asDir x) := by
  have h0 : ¬ isFile (⟨none, []⟩ : Node) := by rintro ⟨h, h1, -⟩; cases h1
  unfold asDir
  cases x with
  | none => exact h0
  | some nd =>
    simp only
    by_cases h : isFile nd
    · rw [if_pos h]; exact h0
    · rw [if_neg h]; exact h

theorem asDir_twice (x : Option Node) : asDir (some (asDir x)) = asDir x := asDir_dir (asDir_not_file x)

theorem apply_swap {e f : Entry} (h : Spares e f) (h' : Spares f e) (V : View) (q : List Str) :
    apply (apply V e) f q = apply (apply V f) e q := by
  obtain ⟨h1, h2, h3, h4⟩ := h q
  obtain ⟨h1', h2', h3', h4'⟩ := h' q
  rcases acts e q with ⟨a, ha⟩ | ⟨a, ha⟩ | ⟨a, ha⟩ | ⟨-, -, -, ha⟩ <;>
    rcases acts f q with ⟨b, hb⟩ | ⟨b, hb⟩ | ⟨b, hb⟩ | ⟨-, -, -, hb⟩ <;>
    simp only [ha, hb]
  · rw [asDir_dir (h3' b a)]
  · exact absurd a (h4' b)
  · rw [asDir_dir (h3 a b)]
  · rw [h1 a b]
  · exact absurd b (h2 a)
  · exact absurd b (h4 a)
  · exact absurd a (h2' b)

theorem foldl_swap_one {e : Entry} {q : List Str} : ∀ (fs : List Entry) (_ : ∀ f ∈ fs, Spares e f ∧ Spares f e) (V : View),
    fs.foldl apply (apply V e) q = apply (fs.foldl apply V) e q := by
  intro fs
  induction fs with
  | nil => intro _ V; rfl
  | cons f fs ih =>
    intro h V
    rw [List.foldl_cons, List.foldl_cons, ← ih (fun g hg => h g (List.mem_cons_of_mem _ hg))]
    exact foldl_at_congr _ _ _ (apply_swap (h f (by simp)).1 (h f (by simp)).2 V q)

theorem foldl_swap {q : List Str} : ∀ (es fs : List Entry) (_ : GetAlong es fs) (V : View),
    (es ++ fs).foldl apply V q = (fs ++ es).foldl apply V q := by
  intro es
  induction es with
  | nil => intro fs _ V; simp
  | cons e es ih =>
    intro fs h V
    rw [List.cons_append, List.foldl_cons, ih fs (fun x hx => h x (List.mem_cons_of_mem _ hx)), List.foldl_append,
      List.foldl_append, List.foldl_cons]
    exact foldl_at_congr _ _ _ (foldl_swap_one fs (fun f hf => h e (by simp) f hf) V)

theorem above_only {e : Entry} {q : List Str} (a : Above e q) : ¬ Puts e q ∧ ¬ Removes e q := by
  refine ⟨fun hp => a.2 hp.2, ?_⟩
  obtain ⟨a1, a2⟩ := a
  rintro (⟨d, hd, h1, h2⟩ | ⟨d, y, hd, hy, h1⟩ | ⟨-, -, h1, h2⟩)
  · rw [hd] at a1 a2
    rcases List.prefix_concat_iff.mp a1 with h3 | h3
    · exact a2 h3
    · exact h2 (List.IsPrefix.eq_of_length h3 (by have := h1.length_le; have := h3.length_le; omega))
  · rw [hd] at a1 a2
    rcases List.prefix_concat_iff.mp a1 with h3 | h3
    · exact a2 h3
    · have := (h1.trans h3).length_le
      rw [List.length_append, List.length_singleton] at this
      omega
  · exact h2 (List.IsPrefix.eq_of_length a1 (by have := h1.length_le; have := a1.length_le; omega))

/-- what a layer does to what is at a path: it says what is there, or makes it a directory, or leaves it -/
theorem folds (q : List Str) : ∀ es : List Entry,
    (∀ V W : View, es.foldl apply V q = es.foldl apply W q) ∨
    ((∃ e ∈ es, Above e q) ∧ (∀ e ∈ es, ¬ Puts e q ∧ ¬ Removes e q) ∧ ∀ V : View, es.foldl apply V q = some (asDir (V q))) ∨
    ((∀ e ∈ es, ¬ Above e q ∧ ¬ Puts e q ∧ ¬ Removes e q) ∧ ∀ V : View, es.foldl apply V q = V q) := by
  intro es
  induction es with
  | nil => exact Or.inr (Or.inr ⟨by simp, fun V => rfl⟩)
  | cons e es ih =>
    rcases ih with h | ⟨hx, hn, h⟩ | ⟨hn, h⟩
    · left
      intro V W
      exact h _ _
    · rcases acts e q with ⟨a, ha⟩ | ⟨a, ha⟩ | ⟨a, ha⟩ | ⟨na, np, nr, ha⟩
      · right; left
        refine ⟨⟨e, by simp, a⟩, ?_, fun V => by rw [List.foldl_cons, h, ha, asDir_twice]⟩
        intro x hx'
        rcases List.mem_cons.mp hx' with rfl | hx'
        · exact above_only a
        · exact hn x hx'
      · left; intro V W; rw [List.foldl_cons, List.foldl_cons, h, h, ha, ha]
      · left; intro V W; rw [List.foldl_cons, List.foldl_cons, h, h, ha, ha]
      · right; left
        obtain ⟨y, hy, hy'⟩ := hx
        refine ⟨⟨y, by simp [hy], hy'⟩, ?_, fun V => by rw [List.foldl_cons, h, ha]⟩
        intro x hx
        rcases List.mem_cons.mp hx with rfl | hx
        · exact ⟨np, nr⟩
        · exact hn x hx
    · rcases acts e q with ⟨a, ha⟩ | ⟨a, ha⟩ | ⟨a, ha⟩ | ⟨na, np, nr, ha⟩
      · right; left
        refine ⟨⟨e, by simp, a⟩, ?_, fun V => by rw [List.foldl_cons, h, ha]⟩
        intro x hx'
        rcases List.mem_cons.mp hx' with rfl | hx'
        · exact above_only a
        · exact (hn x hx').2
      · left; intro V W; rw [List.foldl_cons, List.foldl_cons, h, h, ha, ha]
      · left; intro V W; rw [List.foldl_cons, List.foldl_cons, h, h, ha, ha]
      · right; right
        refine ⟨?_, fun V => by rw [List.foldl_cons, h, ha]⟩
        intro x hx
        rcases List.mem_cons.mp hx with rfl | hx
        · exact ⟨na, np, nr⟩
        · exact hn x hx

theorem foldl_twice (q : List Str) (es : List Entry) (V : View) : es.foldl apply (es.foldl apply V) q = es.foldl apply V q := by
  rcases folds q es with h | ⟨-, -, h⟩ | ⟨-, h⟩
  · exact h _ _
  · rw [h, h, asDir_twice]
  · rw [h]

theorem marker_iff_of_path {e f : Entry} (h : pathOf f = pathOf e) : isMarkerEntry f ↔ isMarkerEntry e := by
  unfold isMarkerEntry; rw [h]

theorem foldl_shadow {q : List Str} {fs : List Entry} : ∀ (es : List Entry) (_ : Shadows fs es) (V : View),
    fs.foldl apply (es.foldl apply V) q = fs.foldl apply V q := by
  have one : ∀ (e : Entry), (∃ f ∈ fs, pathOf f = pathOf e ∧ (isFile (nodeOf e) → isFile (nodeOf f))) → ∀ V : View,
      fs.foldl apply (apply V e) q = fs.foldl apply V q := by
    rintro e ⟨f, hf, hp, hd⟩ V
    have hab : Above e q → Above f q := fun h => by unfold Above; rw [hp]; exact h
    have hpu : Puts e q → Puts f q := fun h => ⟨fun hm => h.1 ((marker_iff_of_path hp).mp hm), by rw [hp]; exact h.2⟩
    have hre : Removes e q → Removes f q := by
      rintro (⟨d, h⟩ | ⟨d, x, h⟩ | ⟨h1, h2, h3⟩)
      · exact Or.inl ⟨d, by rw [hp]; exact h⟩
      · exact Or.inr (Or.inl ⟨d, x, by rw [hp]; exact h⟩)
      · exact Or.inr (Or.inr ⟨fun hm => h1 ((marker_iff_of_path hp).mp hm), hd h2, by rw [hp]; exact h3⟩)
    rcases folds q fs with h | ⟨-, hn, h⟩ | ⟨hn, h⟩
    · exact h _ _
    · rw [h, h]
      rcases acts e q with ⟨a, ha⟩ | ⟨a, ha⟩ | ⟨a, ha⟩ | ⟨-, -, -, ha⟩
      · rw [ha, asDir_twice]
      · exact absurd (hpu a) (hn f hf).1
      · exact absurd (hre a) (hn f hf).2
      · rw [ha]
    · rw [h, h]
      rcases acts e q with ⟨a, ha⟩ | ⟨a, ha⟩ | ⟨a, ha⟩ | ⟨-, -, -, ha⟩
      · exact absurd (hab a) (hn f hf).1
      · exact absurd (hpu a) (hn f hf).2.1
      · exact absurd (hre a) (hn f hf).2.2
      · rw [ha]
  intro es
  induction es with
  | nil => intro _ V; rfl
  | cons e es ih =>
    intro h V
    rw [List.foldl_cons, ih (fun x hx => h x (List.mem_cons_of_mem _ hx))]
    exact one e (h e (by simp)) V

theorem getAlong_inOrder {a b : List Entry} (h : GetAlong a b) : GetAlong (inOrder a) (inOrder b) :=
  fun e he f hf => h e (mem_inOrder.mp he) f (mem_inOrder.mp hf)

theorem shadows_inOrder {a b : List Entry} (h : Shadows b a) : Shadows (inOrder b) (inOrder a) := by
  intro e he
  obtain ⟨f, hf, h1⟩ := h e (mem_inOrder.mp he)
  exact ⟨f, mem_inOrder.mpr hf, h1⟩

/-- two stacks whose middle parts do the same to every image -/
theorem view_of_middle {below above mid mid' : List (List Entry)}
    (h : ∀ (V : View) (q : List Str), mid.foldl applyLayer V q = mid'.foldl applyLayer V q) (q : List Str) :
    applyLayers (below ++ mid ++ above) q = applyLayers (below ++ mid' ++ above) q := by
  unfold applyLayers
  rw [List.foldl_append, List.foldl_append, List.foldl_append, List.foldl_append]
  rw [foldl_layers above, foldl_layers above]
  exact foldl_at_congr _ _ _ (h _ q)

theorem load_same {A B : List (List Entry)} (hA : ∀ l ∈ A, ∀ e ∈ l, ¬ Outside e.header.name) (hnA : NoThrough A)
    (hsub : ∀ l ∈ B, l ∈ A) (h : ∀ q, applyLayers A q = applyLayers B q) {n : Nat} (hn : 3 ≤ n) :
    ∃ S T, loadLayers n A false = some (.ok S) ∧ loadLayers n B false = some (.ok T) ∧ ∀ q, Visible q → S.get? q = T.get? q := by
  obtain ⟨S, h1, h2⟩ := (C66_view A hA hnA n hn).1
  obtain ⟨T, h3, h4⟩ := (C66_view B (fun l hl => hA l (hsub l hl)) (noThrough_of_mem hnA hsub) n hn).1
  exact ⟨S, T, h1, h3, fun q hq => by rw [h2 q hq, h4 q hq, h q]⟩

theorem squash_same {A B : List (List Entry)} (hA : ∀ l ∈ A, ∀ e ∈ l, ¬ Outside e.header.name) (hnA : NoThrough A)
    (hr : ∀ l ∈ A, NoRootLink l) (hsub : ∀ l ∈ B, l ∈ A) (h : ∀ q, applyLayers A q = applyLayers B q) {n : Nat} (hn : 3 ≤ n)
    {srt : (Str → Str → Bool) → List Str → List Str} (hs : SortSlice srt) {order : Path → List Str → List Str}
    (ho : PermOrder order) :
    ∃ x y, squash n srt order A = some (.ok x) ∧ squash n srt order B = some (.ok y) ∧
      x.filter (fun e => Visible (comps e.header.name)) = y.filter (fun e => Visible (comps e.header.name)) := by
  obtain ⟨S, T, h1, h2, h3⟩ := load_same hA hnA hsub h hn
  refine ⟨_, _, by unfold squash; rw [h1, bind_some_ok], by unfold squash; rw [h2, bind_some_ok], ?_⟩
  exact same_entries hs ho (load_inv (fun _ => hr) h1) (load_inv (fun _ l hl => hr l (hsub l hl)) h2) h3

theorem two_layers (a b : List Entry) (V : View) : [a, b].foldl applyLayer V = (inOrder a ++ inOrder b).foldl apply V := by
  rw [List.foldl_append]; rfl

/-- C138: two neighbouring layers that get along can change places: the files of the loaded image are the same. -/
theorem C138_order_load (below above : List (List Entry)) (a b : List Entry)
    (hin : ∀ l ∈ below ++ [a, b] ++ above, ∀ e ∈ l, ¬ Outside e.header.name) (hnt : NoThrough (below ++ [a, b] ++ above))
    (h : GetAlong a b) (n : Nat) (hn : 3 ≤ n) :
    ∃ S T, loadLayers n (below ++ [a, b] ++ above) false = some (.ok S) ∧
      loadLayers n (below ++ [b, a] ++ above) false = some (.ok T) ∧ ∀ q, Visible q → S.get? q = T.get? q := by
  refine load_same hin hnt (by intro l; grind) (view_of_middle fun V q => ?_) hn
  rw [two_layers, two_layers]
  exact foldl_swap _ _ (getAlong_inOrder h) V

/-- C138: two neighbouring layers that get along can change places: squashing gives the same entries, in the same order, apart from markers
(if no symlink leads to "/", as for C64). -/
theorem C138_order_squash (below above : List (List Entry)) (a b : List Entry)
    (hin : ∀ l ∈ below ++ [a, b] ++ above, ∀ e ∈ l, ¬ Outside e.header.name) (hnt : NoThrough (below ++ [a, b] ++ above))
    (hr : ∀ l ∈ below ++ [a, b] ++ above, NoRootLink l) (h : GetAlong a b) (n : Nat) (hn : 3 ≤ n)
    (srt : (Str → Str → Bool) → List Str → List Str) (hs : SortSlice srt) (order : Path → List Str → List Str)
    (ho : PermOrder order) :
    ∃ x y, squash n srt order (below ++ [a, b] ++ above) = some (.ok x) ∧
      squash n srt order (below ++ [b, a] ++ above) = some (.ok y) ∧
      x.filter (fun e => Visible (comps e.header.name)) = y.filter (fun e => Visible (comps e.header.name)) := by
  refine squash_same hin hnt hr (by intro l; grind) (view_of_middle fun V q => ?_) hn hs ho
  rw [two_layers, two_layers]
  exact foldl_swap _ _ (getAlong_inOrder h) V

/-- C138: a layer that is put on twice, also with other layers in between that get along with it, has the effect of one. -/
theorem C138_repeated (below between above : List (List Entry)) (a : List Entry)
    (hin : ∀ l ∈ below ++ ([a] ++ between ++ [a]) ++ above, ∀ e ∈ l, ¬ Outside e.header.name)
    (hnt : NoThrough (below ++ ([a] ++ between ++ [a]) ++ above))
    (h : ∀ b ∈ between, GetAlong a b) (n : Nat) (hn : 3 ≤ n) :
    ∃ S T, loadLayers n (below ++ ([a] ++ between ++ [a]) ++ above) false = some (.ok S) ∧
      loadLayers n (below ++ ([a] ++ between) ++ above) false = some (.ok T) ∧ ∀ q, Visible q → S.get? q = T.get? q := by
  refine load_same hin hnt (by intro l; grind) (view_of_middle fun V q => ?_) hn
  rw [foldl_layers, foldl_layers]
  rw [show ([a] ++ between ++ [a]).flatMap inOrder = inOrder a ++ (between.flatMap inOrder ++ inOrder a) by simp,
    show ([a] ++ between).flatMap inOrder = inOrder a ++ between.flatMap inOrder by simp]
  have hg : GetAlong (inOrder a) (between.flatMap inOrder) := by
    intro e he f hf
    obtain ⟨b, hb, hfb⟩ := List.mem_flatMap.mp hf
    exact h b hb e (mem_inOrder.mp he) f (mem_inOrder.mp hfb)
  rw [List.foldl_append, foldl_at_congr _ _ _ (Eq.refl (((inOrder a).foldl apply V) q)), ← foldl_swap _ _ hg, List.foldl_append,
    List.foldl_append]
  exact foldl_at_congr _ _ _ (foldl_twice q _ V)

/-- C138: a layer all of whose entries the next one has again can be left out. -/
theorem C138_shadowed (below above : List (List Entry)) (a b : List Entry)
    (hin : ∀ l ∈ below ++ [a, b] ++ above, ∀ e ∈ l, ¬ Outside e.header.name) (hnt : NoThrough (below ++ [a, b] ++ above))
    (h : Shadows b a) (n : Nat) (hn : 3 ≤ n) :
    ∃ S T, loadLayers n (below ++ [a, b] ++ above) false = some (.ok S) ∧
      loadLayers n (below ++ [b] ++ above) false = some (.ok T) ∧ ∀ q, Visible q → S.get? q = T.get? q := by
  refine load_same hin hnt (by intro l; grind) (view_of_middle fun V q => ?_) hn
  rw [two_layers, List.foldl_append]
  exact foldl_shadow _ (shadows_inOrder h) V

/-- C138: for layers without markers (as all commands but `layer squash` make them), to get along means: what both have is the same in both,
and where one has a file or link the other one has nothing below. -/
theorem C138_files (a b : List Entry) (ha : ∀ e ∈ a, ¬ isMarkerEntry e) (hb : ∀ f ∈ b, ¬ isMarkerEntry f) :
    GetAlong a b ↔ ∀ e ∈ a, ∀ f ∈ b, (pathOf e = pathOf f → nodeOf e = nodeOf f) ∧
      (isFile (nodeOf e) → pathOf e <+: pathOf f → pathOf e = pathOf f) ∧
      (isFile (nodeOf f) → pathOf f <+: pathOf e → pathOf e = pathOf f) := by
  have hrem : ∀ e : Entry, ¬ isMarkerEntry e → ∀ q, Removes e q → isFile (nodeOf e) ∧ pathOf e <+: q ∧ q ≠ pathOf e := by
    rintro e hm q (⟨d, hd, -⟩ | ⟨d, x, hd, -⟩ | ⟨-, h⟩)
    · exact absurd ⟨_, by rw [hd, List.getLast?_concat], by decide⟩ hm
    · exact absurd ⟨_, by rw [hd, List.getLast?_concat], List.prefix_append _ _⟩ hm
    · exact h
  have half : ∀ e f : Entry, ¬ isMarkerEntry e → ¬ isMarkerEntry f → (pathOf e = pathOf f → nodeOf e = nodeOf f) →
      (isFile (nodeOf e) → pathOf e <+: pathOf f → pathOf e = pathOf f) →
      (isFile (nodeOf f) → pathOf f <+: pathOf e → pathOf e = pathOf f) → Spares e f := by
    intro e f he hf h1 h2 h3 q
    refine ⟨fun p1 p2 => h1 (p1.2.symm.trans p2.2), ?_, ?_, ?_⟩
    · intro p1 r
      obtain ⟨r1, r2, r3⟩ := hrem f hf q r
      rw [p1.2] at r2 r3
      exact r3 (h3 r1 r2)
    · intro p1 ab hfile
      obtain ⟨a1, a2⟩ := ab
      rw [p1.2] at a1 a2
      exact a2 (h2 hfile a1)
    · intro r ab
      obtain ⟨r1, r2, r3⟩ := hrem e he q r
      have := h2 r1 (r2.trans ab.1)
      rw [this] at r2
      exact ab.2 (List.IsPrefix.eq_of_length ab.1 (by have := r2.length_le; have := ab.1.length_le; omega))
  constructor
  · intro h e he f hf
    obtain ⟨h1, h2⟩ := h e he f hf
    refine ⟨fun hp => (h1 (pathOf e)).1 ⟨ha e he, rfl⟩ ⟨hb f hf, hp⟩, ?_, ?_⟩
    · intro hfile hp
      rcases Classical.em (pathOf e = pathOf f) with h | hne
      · exact h
      · exact absurd hfile ((h1 (pathOf e)).2.2.1 ⟨ha e he, rfl⟩ ⟨hp, hne⟩)
    · intro hfile hp
      rcases Classical.em (pathOf e = pathOf f) with h | hne
      · exact h
      · exact absurd hfile ((h2 (pathOf f)).2.2.1 ⟨hb f hf, rfl⟩ ⟨hp, fun h => hne h.symm⟩)
  · intro h e he f hf
    obtain ⟨h1, h2, h3⟩ := h e he f hf
    exact ⟨half e f (ha e he) (hb f hf) h1 h2 h3, half f e (hb f hf) (ha e he) (fun hp => (h1 hp.symm).symm)
      (fun a b => (h3 a b).symm) (fun a b => (h2 a b).symm)⟩

/-- two layers with a directory in common, on a third one -/
def exLow : List Entry := [exDir "usr/", exFile "usr/old" [9]]
def exOne : List Entry := [exDir "usr/", exDir "usr/lib/", exFile "usr/lib/a" [1]]
def exTwo : List Entry := [exDir "usr/", exDir "usr/lib/", exFile "usr/lib/b" [2]]
def exTwoAgain : List Entry := [exDir "usr/", exDir "usr/lib/", exFile "usr/lib/b" [3], exFile "usr/lib/c" [4]]

/-- the hypotheses of `C138_order_load`, `C138_order_squash` and `C138_repeated` are met -/
example : GetAlong exOne exTwo ∧ (∀ l ∈ [exLow] ++ ([exOne] ++ [exTwo] ++ [exOne]) ++ [], ∀ e ∈ l, ¬ Outside e.header.name) ∧
    NoThrough ([exLow] ++ ([exOne] ++ [exTwo] ++ [exOne]) ++ []) ∧ (∀ l ∈ [exLow] ++ [exOne, exTwo] ++ [], NoRootLink l) := by
  refine ⟨(C138_files exOne exTwo (by decide +kernel) (by decide +kernel)).mpr (by decide +kernel), ?_, by decide +kernel, ?_⟩
  · have : ∀ l ∈ [exLow] ++ ([exOne] ++ [exTwo] ++ [exOne]) ++ [], ∀ e ∈ l, outside (clean e.header.name) = false := by decide +kernel
    intro l hl e he
    rw [← outside_iff, this l hl e he]; simp
  · have : ∀ l ∈ [exLow] ++ [exOne, exTwo] ++ [], ∀ e ∈ l, e.header.typeflag ≠ '2' := by decide +kernel
    intro l hl e he h
    exact absurd h (this l hl e he)

/-- a layer that is shadowed -/
example : Shadows exTwoAgain exTwo ∧ ¬ Shadows exTwo exTwoAgain := by
  unfold Shadows; decide +kernel

/-- layers that do not get along: their order matters -/
example : ¬ GetAlong exTwo exTwoAgain ∧
    applyLayers [exTwo, exTwoAgain] ["usr".toList, "lib".toList, "b".toList] ≠
      applyLayers [exTwoAgain, exTwo] ["usr".toList, "lib".toList, "b".toList] := by
  refine ⟨fun h => ?_, by decide +kernel⟩
  have := (C138_files exTwo exTwoAgain (by decide +kernel) (by decide +kernel)).mp h
  revert this
  decide +kernel

/-- a whiteout gets along with a file elsewhere, and not with the file it removes -/
example : GetAlong [exFile "usr/.wh.old" []] [exFile "usr/new" [1]] ∧ ¬ GetAlong [exFile "usr/.wh.old" []] [exFile "usr/old" [1]] := by
  have p1 : pathOf (exFile "usr/.wh.old" []) = ["usr".toList] ++ [".wh.".toList ++ "old".toList] := by decide +kernel
  have p2 : pathOf (exFile "usr/new" [1]) = ["usr".toList, "new".toList] := by decide +kernel
  have p3 : pathOf (exFile "usr/old" [1]) = ["usr".toList, "old".toList] := by decide +kernel
  have m1 : isMarkerEntry (exFile "usr/.wh.old" []) := by decide +kernel
  have m2 : ¬ isMarkerEntry (exFile "usr/new" [1]) := by decide +kernel
  have m3 : ¬ isMarkerEntry (exFile "usr/old" [1]) := by decide +kernel
  have r1 : ∀ q, Removes (exFile "usr/.wh.old" []) q → ["usr".toList] ++ ["old".toList] <+: q := by
    rintro q (⟨d, hd, -⟩ | ⟨d, x, hd, -, h⟩ | ⟨h, -⟩)
    · rw [p1] at hd
      exact absurd (List.append_inj' hd rfl).2 (by decide)
    · rw [p1] at hd
      have e1 := (List.append_inj' hd rfl).1
      have e2 := (List.append_inj' hd rfl).2
      injection e2 with e2
      have e3 := List.append_cancel_left e2
      rw [e1, e3]; exact h
    · exact absurd m1 h
  have r2 : ∀ q, Removes (exFile "usr/new" [1]) q → ["usr".toList, "new".toList] <+: q ∧ q ≠ ["usr".toList, "new".toList] := by
    rintro q (⟨d, hd, -⟩ | ⟨d, x, hd, -, h⟩ | ⟨-, -, h⟩)
    · exact absurd ⟨_, by rw [hd, List.getLast?_concat], by decide⟩ m2
    · exact absurd ⟨_, by rw [hd, List.getLast?_concat], List.prefix_append _ _⟩ m2
    · rw [p2] at h; exact h
  constructor
  · intro e he f hf
    rw [List.mem_singleton] at he hf
    subst he hf
    refine ⟨fun q => ⟨fun h => absurd m1 h.1, fun h => absurd m1 h.1, fun h => absurd m1 h.1, ?_⟩,
      fun q => ⟨fun _ h => absurd m1 h.1, ?_, ?_, ?_⟩⟩
    · intro h ab
      obtain ⟨a1, -⟩ := ab
      have := (r1 q h).trans a1
      rw [p2] at this
      revert this; decide +kernel
    · intro h hr
      have := r1 q hr
      rw [h.2, p2] at this
      revert this; decide +kernel
    · intro h ab
      have := ab.1
      rw [h.2, p1, p2] at this
      revert this; decide +kernel
    · intro h ab
      have := (r2 q h).1.trans ab.1
      rw [p1] at this
      revert this; decide +kernel
  · intro h
    have := ((h _ (List.mem_singleton.mpr rfl) _ (List.mem_singleton.mpr rfl)).2 ["usr".toList, "old".toList]).2.1 ⟨m3, p3.symm⟩
    exact this (Or.inr (Or.inl ⟨["usr".toList], "old".toList, p1, by decide, List.prefix_refl _⟩))

end Squash
