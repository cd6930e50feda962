import Verif.Squash.PropsView
/-! What a layer that describes a tree of files does to the files below it. -/
namespace Squash
open Go Spec

/-- a layer that describes a tree of files: names inside the root, no whiteout markers, no path twice, nothing below anything but
directories -/
structure Spec.TreeLayer (l : List Entry) : Prop where
  inside : ∀ e ∈ l, ¬ Outside e.header.name
  visible : ∀ e ∈ l, Visible (pathOf e)
  once : l.Pairwise (fun a b => pathOf a ≠ pathOf b)
  tree : ∀ a ∈ l, ∀ b ∈ l, pathOf a <+: pathOf b → pathOf a ≠ pathOf b → a.header.typeflag = '5'

/-- `W` is `V` with the files of `l` put in: they are there; what leads to them is a directory; nothing is below those that are not
directories; all else is as in `V` -/
structure Spec.PutIn (V W : View) (l : List Entry) : Prop where
  file : ∀ e ∈ l, W (pathOf e) = some (nodeOf e)
  above : ∀ e ∈ l, ∀ q, q <+: pathOf e → (∀ e' ∈ l, pathOf e' ≠ q) → W q = some (asDir (V q))
  below : ∀ e ∈ l, e.header.typeflag ≠ '5' → ∀ q, pathOf e <+: q → q ≠ pathOf e → W q = none
  other : ∀ q, (∀ e ∈ l, ¬ q <+: pathOf e ∧ (e.header.typeflag ≠ '5' → ¬ pathOf e <+: q)) → W q = V q

theorem isFile_nodeOf {e : Entry} : isFile (nodeOf e) ↔ e.header.typeflag ≠ '5' := by
  constructor
  · rintro ⟨h, h1, h2⟩
    simp only [nodeOf, Option.some.injEq] at h1
    rw [← h1] at h2
    exact h2
  · intro h
    exact ⟨_, rfl, h⟩

theorem asDir_twice (x : Option Node) : asDir (some (asDir x)) = asDir x := by
  have h : ∀ nd, ¬ isFile nd → asDir (some nd) = nd := fun nd hn => by unfold asDir; exact if_neg hn
  apply h
  unfold asDir
  split
  · split
    · rintro ⟨h, h1, _⟩; cases h1
    · assumption
  · rintro ⟨h, h1, _⟩; cases h1

theorem not_marker_of_visible {e : Entry} (h : Visible (pathOf e)) : ¬ isMarkerEntry e := by
  rintro ⟨c, h1, h2⟩
  exact h c (List.mem_of_getLast? h1) h2

/-- an entry that is no marker, at the paths that are not on the way to it -/
theorem apply_apart {V : View} {e : Entry} {q : Path} (hv : Visible (pathOf e)) (hq : ¬ q <+: pathOf e) :
    apply V e q = if pathOf e <+: q ∧ e.header.typeflag ≠ '5' then none else V q := by
  unfold apply applyAt
  rw [if_neg (fun h => hq h.1)]
  have hne : q ≠ pathOf e := fun h => hq (h ▸ List.prefix_refl _)
  cases h : (pathOf e).getLast? with
  | none => simp only [if_neg hne, isFile_nodeOf]
  | some c =>
    have hc : ¬ isMarker c := hv c (List.mem_of_getLast? h)
    have ho : c ≠ ".wh..wh..opq".toList := fun h3 => hc (by rw [h3]; decide)
    simp only [if_neg ho, if_neg hc, if_neg hne, isFile_nodeOf]

theorem apply_on_way {V : View} {e : Entry} {q : Path} (hq : q <+: pathOf e) (hne : q ≠ pathOf e) :
    apply V e q = some (asDir (V q)) := by
  unfold apply applyAt
  rw [if_pos ⟨hq, hne⟩]

theorem foldl_other {q : Path} : ∀ (es : List Entry) (V : View), (∀ e ∈ es, Visible (pathOf e)) →
    (∀ e ∈ es, ¬ q <+: pathOf e ∧ (e.header.typeflag ≠ '5' → ¬ pathOf e <+: q)) → es.foldl apply V q = V q := by
  intro es
  induction es with
  | nil => intro V _ _; rfl
  | cons e es ih =>
    intro V hv h
    rw [List.foldl_cons, ih _ (fun x hx => hv x (by simp [hx])) (fun x hx => h x (by simp [hx])), apply_apart (hv e (by simp)) (h e (by simp)).1,
      if_neg (fun h' => (h e (by simp)).2 h'.2 h'.1)]

theorem foldl_above {q : Path} : ∀ (es : List Entry) (V : View), (∀ e ∈ es, Visible (pathOf e)) → (∀ e ∈ es, pathOf e ≠ q) →
    (∀ e ∈ es, e.header.typeflag ≠ '5' → ¬ pathOf e <+: q) →
    es.foldl apply V q = if ∃ e ∈ es, q <+: pathOf e then some (asDir (V q)) else V q := by
  intro es
  induction es with
  | nil => intro V _ _ _; simp
  | cons e es ih =>
    intro V hv hne h
    rw [List.foldl_cons, ih _ (fun x hx => hv x (by simp [hx])) (fun x hx => hne x (by simp [hx])) (fun x hx => h x (by simp [hx]))]
    by_cases hq : q <+: pathOf e
    · rw [apply_on_way hq (fun h => hne e (by simp) h.symm), if_pos (show ∃ e' ∈ e :: es, q <+: pathOf e' from ⟨e, by simp, hq⟩), asDir_twice]
      split <;> rfl
    · rw [apply_apart (hv e (by simp)) hq, if_neg (show ¬ (pathOf e <+: q ∧ e.header.typeflag ≠ '5') from fun h' => h e (by simp) h'.2 h'.1)]
      have : (∃ e' ∈ e :: es, q <+: pathOf e') ↔ ∃ e' ∈ es, q <+: pathOf e' := by simp [hq]
      simp only [this]

theorem foldl_gone {q : Path} : ∀ (es : List Entry) (V : View), (∀ e ∈ es, Visible (pathOf e)) → (∀ e ∈ es, ¬ q <+: pathOf e) →
    V q = none → es.foldl apply V q = none := by
  intro es
  induction es with
  | nil => intro V _ _ h; exact h
  | cons e es ih =>
    intro V hv h hn
    rw [List.foldl_cons]
    refine ih _ (fun x hx => hv x (by simp [hx])) (fun x hx => h x (by simp [hx])) ?_
    rw [apply_apart (hv e (by simp)) (h e (by simp)), hn]
    split <;> rfl

theorem inOrder_visible {l : List Entry} (h : ∀ e ∈ l, Visible (pathOf e)) : inOrder l = l := by
  unfold inOrder
  have h1 : l.filter (fun e => isMarkerEntry e) = [] := by
    rw [List.filter_eq_nil_iff]
    intro e he
    simpa using not_marker_of_visible (h e he)
  have h2 : l.filter (fun e => ¬ isMarkerEntry e) = l := by
    rw [List.filter_eq_self]
    intro e he
    simpa using not_marker_of_visible (h e he)
  rw [h1, h2]
  rfl

/-- putting a tree into a view -/
theorem applyLayer_putIn {l : List Entry} (h : TreeLayer l) (V : View) : PutIn V (applyLayer V l) l := by
  unfold applyLayer
  rw [inOrder_visible h.visible]
  refine ⟨?_, ?_, ?_, fun q hq => foldl_other l V h.visible hq⟩
  · intro e he
    obtain ⟨pre, post, rfl⟩ := List.append_of_mem he
    rw [List.foldl_append, List.foldl_cons]
    refine foldl_leaves _ _ ?_ (apply_self (not_marker_of_visible (h.visible e he)))
    intro e' he'
    have hm : e' ∈ pre ++ e :: post := by simp [he']
    have hne : pathOf e ≠ pathOf e' := (List.pairwise_cons.mp (List.pairwise_append.mp h.once).2.1).1 e' he'
    refine ⟨fun x => hne x.symm, ?_, ?_, ?_, ?_⟩
    · intro hf hp
      exact isFile_nodeOf.mp hf (h.tree e he e' hm hp hne)
    · intro hf _ hp
      exact isFile_nodeOf.mp hf (h.tree e' hm e he hp (fun x => hne x.symm))
    · intro d hd _
      exact absurd (h.visible e' hm ".wh..wh..opq".toList (by rw [hd]; simp)) (by decide)
    · intro d x hd _
      refine h.visible e' hm (".wh.".toList ++ x) (by rw [hd]; simp) ?_
      exact List.prefix_append _ _
  · intro e he q hq hne
    rw [foldl_above l V h.visible hne, if_pos ⟨e, he, hq⟩]
    intro e' he' ht hp
    have hpp := List.IsPrefix.trans hp hq
    by_cases hx : pathOf e' = pathOf e
    · rw [hx] at hp
      exact hne e he (hp.eq_of_length_le hq.length_le)
    · exact ht (h.tree e' he' e he hpp hx)
  · intro e he ht q hp hne
    obtain ⟨pre, post, rfl⟩ := List.append_of_mem he
    rw [List.foldl_append, List.foldl_cons]
    have hnq : ¬ q <+: pathOf e := fun x => hne (x.eq_of_length_le hp.length_le)
    refine foldl_gone _ _ (fun x hx => h.visible x (by simp [hx])) ?_ ?_
    · intro e' he' hq'
      refine ht (h.tree e he e' (by simp [he']) (hp.trans hq') ?_)
      intro x
      rw [← x] at hq'
      exact hnq hq'
    · rw [apply_apart (h.visible e he) hnq, if_pos ⟨hp, ht⟩]

/-- loading an image with such a layer on top -/
theorem load_putIn {base : List (List Entry)} {l : List Entry} (hin : ∀ l ∈ base, ∀ e ∈ l, ¬ Outside e.header.name) (h : TreeLayer l)
    (hl : NoThrough (base ++ [l])) {n : Nat} (hn : 3 ≤ n) :
    ∃ S T, loadLayers n base false = some (.ok S) ∧ loadLayers n (base ++ [l]) false = some (.ok T) ∧
      ∃ V W, PutIn V W l ∧ (∀ q, Visible q → S.get? q = V q) ∧ ∀ q, Visible q → T.get? q = W q := by
  obtain ⟨⟨S, s1, s2⟩, _⟩ := C66_view base hin (fun a ha b hb t c hc d hd => hl a (by simp [ha]) b hb t c (by simp [hc]) d hd) n hn
  obtain ⟨⟨T, t1, t2⟩, _⟩ := C66_view (base ++ [l]) (by
    intro a ha b hb
    rcases List.mem_append.mp ha with ha | ha
    · exact hin a ha b hb
    · rw [List.mem_singleton] at ha
      subst ha
      exact h.inside b hb) hl n hn
  refine ⟨S, T, s1, t1, applyLayers base, applyLayers (base ++ [l]), ?_, s2, t2⟩
  unfold applyLayers
  rw [List.foldl_append]
  exact applyLayer_putIn h _

end Squash
