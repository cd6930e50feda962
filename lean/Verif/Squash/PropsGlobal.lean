import Verif.Squash.PropsSteps
/-! C135: PAX global headers, which describe no file (entries of type 'g', written for example by `git archive`). -/
namespace Squash
open Go Spec

/-- the entry is a PAX global header: metadata for the entries after it, no file -/
def Spec.isGlobal (e : Entry) : Prop := e.header.typeflag = 'g'

instance (e : Entry) : Decidable (isGlobal e) := inferInstanceAs (Decidable (_ = _))

/-- the layers without their global headers -/
def Spec.withoutGlobals (layers : List (List Entry)) : List (List Entry) := layers.map (·.filter (fun e => ¬ isGlobal e))

theorem inOrder_filter (l : List Entry) (P : Entry → Bool) : inOrder (l.filter P) = (inOrder l).filter P := by
  unfold inOrder
  rw [List.filter_append, List.filter_filter, List.filter_filter, List.filter_filter, List.filter_filter]
  congr 1 <;> exact List.filter_congr (by intro x _; exact Bool.and_comm _ _)

theorem flat_withoutGlobals (layers : List (List Entry)) :
    (withoutGlobals layers).flatMap inOrder = (layers.flatMap inOrder).filter (fun e => ¬ isGlobal e) := by
  unfold withoutGlobals
  induction layers with
  | nil => rfl
  | cons l ls ih => rw [List.map_cons, List.flatMap_cons, List.flatMap_cons, List.filter_append, ih, inOrder_filter]

theorem foldl_withoutGlobals {q : Path} (hq : q ≠ []) : ∀ (es : List Entry) (V W : View), V q = W q →
    (∀ e ∈ es, isGlobal e → (pathOf e).length ≤ 1 ∧ ¬ isMarkerEntry e ∧ ¬ pathOf e <+: q) →
    es.foldl apply V q = (es.filter (fun e => ¬ isGlobal e)).foldl apply W q := by
  intro es
  induction es with
  | nil => intro V W h _; exact h
  | cons e es ih =>
    intro V W h hg
    rw [List.foldl_cons, List.filter_cons]
    by_cases hge : isGlobal e
    · rw [if_neg (by simpa using hge)]
      obtain ⟨h1, h2, h3⟩ := hg e (by simp) hge
      refine ih _ _ ?_ (fun x hx => hg x (by simp [hx]))
      rw [apply_ord h2, if_neg, if_neg (show ¬ q = pathOf e from fun x => h3 (by rw [x]; exact List.prefix_refl _)), if_neg (fun x => h3 x.1), h]
      rintro ⟨h4, h5⟩
      have hl := h4.length_le
      have : q.length ≠ (pathOf e).length := fun x => h5 (h4.eq_of_length x)
      have := List.length_pos_iff.mpr hq
      omega
    · rw [if_pos (by simpa using hge), List.foldl_cons]
      exact ih _ _ (apply_at_congr (q := q) (W := W) h e) (fun x hx => hg x (by simp [hx]))

/-- C135: layers with global headers, named without "/" as archivers do ("pax_global_header").  Loading them gives at every path,
other than the names of the global headers and what is below them, what loading the layers without them gives. -/
theorem C135_others_partial (layers : List (List Entry)) (hin : ∀ l ∈ layers, ∀ e ∈ l, ¬ Outside e.header.name)
    (hb : NoThrough layers)
    (hg : ∀ l ∈ layers, ∀ e ∈ l, isGlobal e → (pathOf e).length ≤ 1 ∧ ¬ isMarkerEntry e) (n : Nat) (hn : 3 ≤ n) :
    ∃ S T, loadLayers n layers false = some (.ok S) ∧ loadLayers n (withoutGlobals layers) false = some (.ok T) ∧
      ∀ q, q ≠ [] → Visible q → (∀ l ∈ layers, ∀ e ∈ l, isGlobal e → ¬ pathOf e <+: q) → S.get? q = T.get? q := by
  have hsub : ∀ l ∈ withoutGlobals layers, ∃ l' ∈ layers, ∀ e ∈ l, e ∈ l' := by
    intro l hl
    obtain ⟨l', h1, rfl⟩ := List.mem_map.mp hl
    exact ⟨l', h1, fun e he => (List.mem_filter.mp he).1⟩
  obtain ⟨S, s1, s2⟩ := load_sim (oc := false) hin hb hn
  obtain ⟨T, t1, t2⟩ := load_sim (oc := false) (layers := withoutGlobals layers) (by
    intro l hl e he
    obtain ⟨l', h1, h2⟩ := hsub l hl
    exact hin l' h1 e (h2 e he)) (by
    intro l hl e he ht l' hl' e' he' hp
    obtain ⟨k, h1, h2⟩ := hsub l hl
    obtain ⟨k', h1', h2'⟩ := hsub l' hl'
    exact hb k h1 e (h2 e he) ht k' h1' e' (h2' e' he') hp) hn
  rw [keep_bodies] at s2 t2
  refine ⟨S, T, s1, t1, ?_⟩
  intro q hq hv hne
  rw [s2.view q hv, t2.view q hv]
  unfold applyLayers
  rw [foldl_layers, foldl_layers, flat_withoutGlobals]
  refine foldl_withoutGlobals hq _ _ _ rfl ?_
  intro e he hge
  obtain ⟨l, h1, h2⟩ := mem_flat.mp he
  exact ⟨(hg l h1 e h2 hge).1, (hg l h1 e h2 hge).2, hne l h1 e h2 hge⟩

/-- The code violates C135, for every image: a global header in the last layer, unless the same layer has more entries for its name,
is a file of the loaded image, whatever the other layers are. -/
theorem C135_violated (layers : List (List Entry)) (l : List Entry) (g : Entry) (hin : ∀ m ∈ layers ++ [l ++ [g]], ∀ e ∈ m, ¬ Outside e.header.name)
    (hb : NoThrough (layers ++ [l ++ [g]])) (_hg : isGlobal g) (hv : Visible (pathOf g)) (n : Nat) (hn : 3 ≤ n) :
    ∃ S, loadLayers n (layers ++ [l ++ [g]]) false = some (.ok S) ∧
      S.get? (pathOf g) = some ⟨some { g.header with name := clean g.header.name }, g.body⟩ := by
  obtain ⟨S, s1, s2⟩ := load_sim (oc := false) hin hb hn
  rw [keep_bodies] at s2
  refine ⟨S, s1, ?_⟩
  have hm : ¬ isMarkerEntry g := by
    rintro ⟨c, h1, h2⟩
    exact hv c (List.mem_of_getLast? h1) h2
  rw [s2.view _ hv]
  unfold applyLayers
  rw [foldl_layers, List.flatMap_append, List.flatMap_cons, List.flatMap_nil, List.append_nil]
  have : inOrder (l ++ [g]) = inOrder l ++ [g] := by
    unfold inOrder
    rw [List.filter_append, List.filter_append, List.filter_cons_of_neg (by simpa using hm), List.filter_nil,
      List.filter_cons_of_pos (by simpa using hm), List.filter_nil, List.append_nil, List.append_assoc]
  rw [this, ← List.append_assoc, List.foldl_append, List.foldl_cons, List.foldl_nil, apply_ord hm, if_neg (by simp), if_pos rfl]
  rfl

/-! ### cases -/

/-- the global header of `git archive` -/
def exGlobal : Entry :=
  ⟨{ name := "pax_global_header".toList, typeflag := 'g', linkname := [], size := 0, mode := 0, other := [] }, []⟩

def exGlobals : List (List Entry) := [[exDir "d/", exFile "d/f" [1]], [exGlobal, exFile "d/g" [2], exFile "z" [3]]]

example : (∀ l ∈ exGlobals, ∀ e ∈ l, outside (clean e.header.name) = false) ∧ NoThrough exGlobals ∧
    (∀ l ∈ exGlobals, ∀ e ∈ l, isGlobal e → (pathOf e).length ≤ 1 ∧ ¬ isMarkerEntry e) := by decide +kernel

/-- squashed, it stands between other entries -/
example : (squash 9 insertionSort (fun _ l => l) exGlobals).map (fun r => r.toOption.map (·.map (fun e => (e.header.name, e.header.typeflag)))) =
    some (some [("d/".toList, '5'), ("d/f".toList, '0'), ("d/g".toList, '0'), ("pax_global_header".toList, 'g'), ("z".toList, '0')]) := by
  decide +kernel

example : isGlobal exGlobal ∧ Visible (pathOf exGlobal) ∧ NoThrough ([[exDir "d/"]] ++ [[exFile "d/g" [2]] ++ [exGlobal]]) := by decide +kernel

end Squash
