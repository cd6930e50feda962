import Verif.Squash.Exact
import Verif.Squash.ViewSpec
/-! Loading layers computes the view of the specification. -/
namespace Squash
open Go Spec

theorem isFile_iff (nd : Node) : isFile nd ↔ nd.nonDir = true := by
  unfold isFile Node.nonDir
  cases nd.header with
  | none => simp
  | some h =>
    simp only [Option.some.injEq, exists_eq_left', typeDir, ne_eq]
    exact (decide_eq_true_iff).symm

theorem asDir_eq (x : Option Node) : asDir x = dirOr x := by
  unfold asDir dirOr
  cases x with
  | none => rfl
  | some nd =>
    simp only
    by_cases h : isFile nd
    · rw [if_pos h, if_pos ((isFile_iff nd).mp h)]
    · rw [if_neg h, if_neg (fun h2 => h ((isFile_iff nd).mpr h2))]

theorem isMarker_iff (c : Str) : isMarker c ↔ hasPrefix c whPrefix = true := by
  unfold isMarker hasPrefix whPrefix
  rw [List.isPrefixOf_iff_prefix]

theorem trim_eq {c : Str} (h : isMarker c) : trimPrefix c whPrefix = c.drop 4 := by
  unfold trimPrefix
  rw [if_pos ((isMarker_iff c).mp h)]; rfl

theorem isMarker_opq : isMarker opqName := by decide

theorem visible_not_opq {q : Path} (h : Visible q) : opqName ∉ q := fun hm => h _ hm isMarker_opq

theorem visible_walked {S : FS} {cs q : Path} (hq : Visible q) :
    walked S [] cs q = if q <+: cs ∧ q ≠ cs then some (dirOr (S.get? q))
      else if q = cs then some ((S.get? q).getD ⟨none, []⟩) else S.get? q := by
  unfold walked
  have x : ¬ (q.getLast? = some opqName ∧ q.dropLast <+: cs ∧ q.dropLast ≠ cs ∧ S.nonDir ([] ++ q.dropLast) = true) := by
    rintro ⟨h, _⟩
    exact visible_not_opq hq (List.mem_of_getLast? h)
  rw [if_neg x]; rfl

/-- a non-directory node's subtree is empty, so the cases of the specification agree with the code -/
theorem stepped_visible {S : FS} {V : View} {cs : Path} {nd : Node}
    (hv : ∀ q, Visible q → S.get? q = V q) (q : Path) (hq : Visible q) : stepped S cs nd q = applyAt V cs nd q := by
  have hw := visible_walked (S := S) (cs := cs) hq
  rw [hv q hq] at hw
  have hno : ¬ q = cs ++ [opqName] := fun h => visible_not_opq hq (by rw [h]; simp)
  have hpl : placed (walked S [] cs) cs nd q = if q <+: cs ∧ q ≠ cs then some (dirOr (V q)) else if q = cs then some nd
      else if cs <+: q ∧ isFile nd then none else V q := by
    unfold placed
    by_cases q1 : q = cs
    · have x : ¬ (q <+: cs ∧ q ≠ cs) := fun h => h.2 q1
      rw [if_pos q1, if_neg x, if_pos q1]
    · rw [if_neg q1]
      rw [hw, if_neg q1]
      have x1 : ∀ P : Prop, ¬ (q = cs ++ [opqName] ∧ P) := fun P h => hno h.1
      simp only [x1, if_false]
      by_cases q2 : q <+: cs ∧ q ≠ cs
      · rw [if_pos q2, if_pos q2]
        have : ¬ cs <+: q := fun h => q1 (q2.1.eq_of_length_le h.length_le)
        rw [if_neg this]
      · rw [if_neg q2, if_neg q2, if_neg q1]
        by_cases q3 : cs <+: q
        · rw [if_pos q3]
          by_cases q4 : isFile nd
          · have y : cs <+: q ∧ isFile nd := ⟨q3, q4⟩
            rw [if_pos y, if_pos ((isFile_iff nd).mp q4)]
          · have y : ¬ (cs <+: q ∧ isFile nd) := fun h => q4 h.2
            rw [if_neg y, if_neg (fun h => q4 ((isFile_iff nd).mpr h))]
        · have y : ¬ (cs <+: q ∧ isFile nd) := fun h => q3 h.1
          rw [if_neg q3, if_neg y]
  unfold stepped unm applyAt
  rw [hpl, asDir_eq]
  rcases snoc_cases cs with rfl | ⟨p, c, rfl⟩
  · have x1 : ¬ [whPrefix ++ ['.']] <+: q := by
      intro h
      exact hq _ (h.subset (List.mem_singleton.mpr rfl)) (by decide)
    simp only [List.getLast?_nil]
    rw [if_neg x1]
  · have e1 : (p ++ [c]).getLast? = some c := by simp
    rw [e1]
    simp only [List.dropLast_concat]
    by_cases hm : isMarker c
    · rw [if_pos ((isMarker_iff c).mp hm)]
      have hnp : ¬ (p ++ [c]) <+: q := fun h => hq c (h.subset (by simp)) hm
      have hne : q ≠ p ++ [c] := fun h => hnp (by rw [h]; exact List.prefix_refl _)
      have y : ¬ (p ++ [c] <+: q ∧ isFile nd) := fun h => hnp h.1
      rw [if_neg y, if_neg hne]
      by_cases ho : c = opqName
      · rw [if_pos ho, if_pos (show c = ".wh..wh..opq".toList from ho)]
        by_cases h1 : q <+: p ++ [c] ∧ q ≠ p ++ [c]
        · rw [if_pos h1, if_pos h1]
          have x : ¬ (p <+: q ∧ q ≠ p ∧ ¬ p ++ [c] <+: q) := by
            rintro ⟨a, b, _⟩
            have l1 := h1.1.length_le
            have l2 := a.length_le
            have l3 : q.length ≠ (p ++ [c]).length := fun h => h1.2 (h1.1.eq_of_length h)
            have l4 : q.length ≠ p.length := fun h => b (a.eq_of_length h.symm).symm
            simp at l1 l3; omega
          rw [if_neg x]
        · rw [if_neg h1, if_neg h1]
          by_cases h2 : p <+: q
          · rw [if_pos h2]
            have x : p <+: q ∧ q ≠ p ∧ ¬ p ++ [c] <+: q :=
              ⟨h2, fun h => h1 (by rw [h]; exact ⟨List.prefix_append _ _, by simp⟩), hnp⟩
            rw [if_pos x]
          · have x : ¬ (p <+: q ∧ q ≠ p ∧ ¬ p ++ [c] <+: q) := fun h => h2 h.1
            rw [if_neg h2, if_neg x]
      · rw [if_neg ho, if_neg (show ¬ c = ".wh..wh..opq".toList from ho), if_pos hm, trim_eq hm]
        by_cases h1 : q <+: p ++ [c] ∧ q ≠ p ++ [c]
        · rw [if_pos h1, if_pos h1]
          have x : ¬ (p ++ [c.drop 4] <+: q) := by
            intro a
            have l1 := h1.1.length_le
            have l2 := a.length_le
            have l3 : q.length ≠ (p ++ [c]).length := fun h => h1.2 (h1.1.eq_of_length h)
            simp at l1 l2 l3; omega
          rw [if_neg x]
        · rw [if_neg h1, if_neg h1]
    · rw [if_neg (fun h => hm ((isMarker_iff c).mpr h))]
      have ho : ¬ c = ".wh..wh..opq".toList := fun h => hm (by rw [h]; decide)
      have x1 : ¬ (p ++ [whPrefix ++ c]) <+: q := by
        intro h
        refine hq (whPrefix ++ c) (h.subset (by simp)) ?_
        exact List.prefix_append _ _
      rw [if_neg ho, if_neg hm, if_neg x1]

theorem applyAt_congr {V W : View} (h : ∀ q, Visible q → V q = W q) (p : Path) (nd : Node) (q : Path) (hq : Visible q) :
    applyAt V p nd q = applyAt W p nd q := by
  unfold applyAt; rw [h q hq]

/-- what loading keeps: the invariant, the view, and links only where there was a symlink entry -/
structure Sim (L : Path → Prop) (S : FS) (V : View) : Prop where
  inv : Inv false S
  view : ∀ q, Visible q → S.get? q = V q
  link : ∀ p l, S.link p = some l → L p

/-- an entry as `parseLayer` produces it -/
def cleaned (oc : Bool) (e : Entry) : Entry := ⟨{ e.header with name := clean e.header.name }, if oc then [] else e.body⟩

def dropBody (oc : Bool) (e : Entry) : Entry := if oc then strip e else e

theorem addEntry_sim {L : Path → Prop} {n : Nat} {oc : Bool} {S : FS} {V : View} {e : Entry} (h : Sim L S V)
    (ho : outside (clean e.header.name) = false) (hl : e.header.typeflag = '2' → L (pathOf e))
    (hL : ∀ p, L p → p <+: pathOf e → p = pathOf e) :
    ∃ S', addEntry (n + 3) S (cleaned oc e) = some (.ok S') ∧ Sim L S' (apply V (dropBody oc e)) := by
  have hpo : Spec.comps (cleaned oc e).header.name = pathOf e := rfl
  have hok : ParsedOK false (cleaned oc e) := ⟨⟨e.header.name, rfl, ho⟩, by simp⟩
  obtain ⟨_, _, S', h1, h2, h3, h4⟩ := addEntry_exact (n := n) h.inv hok (by
    intro t a b
    rw [hpo] at a b
    cases hh : S.link t with
    | none => rfl
    | some l => exact absurd (hL t (h.link t l hh) a) b)
  rw [hpo] at h3 h4
  refine ⟨S', h1, h2, ?_, ?_⟩
  · intro q hq
    rw [h4 q (.inr (visible_not_opq hq)), stepped_visible h.view q hq]
    unfold apply
    have e1 : pathOf (dropBody oc e) = pathOf e := by unfold dropBody; cases oc <;> rfl
    have e2 : nodeOf (dropBody oc e) = ⟨some (cleaned oc e).header, (cleaned oc e).body⟩ := by
      unfold dropBody cleaned; cases oc <;> rfl
    rw [e1, e2]
  · intro p l hh
    rcases h3 p l hh with a | ⟨a, b⟩
    · exact h.link p l a
    · rw [a]
      apply hl
      simp only [Node.link] at b
      split at b
      · rename_i ht; exact ht
      · simp at b

theorem addEntries_sim {L : Path → Prop} {n : Nat} {oc : Bool} : ∀ (es : List Entry) (S : FS) (V : View), Sim L S V →
    (∀ e ∈ es, outside (clean e.header.name) = false) → (∀ e ∈ es, e.header.typeflag = '2' → L (pathOf e)) →
    (∀ e ∈ es, ∀ p, L p → p <+: pathOf e → p = pathOf e) →
    ∃ S', addEntries (n + 3) S (es.map (cleaned oc)) = some (.ok S') ∧ Sim L S' ((es.map (dropBody oc)).foldl apply V) := by
  intro es
  induction es with
  | nil => intro S V h _ _ _; exact ⟨S, rfl, h⟩
  | cons e es ih =>
    intro S V h h1 h2 h3
    obtain ⟨S1, e1, s1⟩ := addEntry_sim (n := n) (oc := oc) h (h1 e (by simp)) (h2 e (by simp)) (h3 e (by simp))
    obtain ⟨S2, e2, s2⟩ := ih S1 _ s1 (fun x hx => h1 x (by simp [hx])) (fun x hx => h2 x (by simp [hx]))
      (fun x hx => h3 x (by simp [hx]))
    refine ⟨S2, ?_, s2⟩
    rw [List.map_cons, addEntries, e1, bind_some_ok, e2]

theorem marker_entry_iff {e : Entry} (ho : outside (clean e.header.name) = false) :
    hasPrefix (pathBase (clean e.header.name)) whPrefix = true ↔ isMarkerEntry e := by
  obtain ⟨cs, hcs, hr, ec, _⟩ := inside_elems ho
  have e1 : pathOf e = cs := by unfold pathOf; rw [ec, comps_render hcs]
  unfold isMarkerEntry
  rw [e1, ec]
  rcases snoc_cases cs with rfl | ⟨p, c, rfl⟩
  · simp only [List.getLast?_nil]
    constructor
    · intro h; exact absurd h (by decide +kernel)
    · rintro ⟨c, h, _⟩; simp at h
  · rw [pathBase_render (hcs c (by simp)), ← isMarker_iff]
    simp

theorem parseLayer_eq {oc : Bool} : ∀ (l : List Entry), (∀ e ∈ l, outside (clean e.header.name) = false) →
    parseLayer oc l = .ok ((l.filter (fun e => isMarkerEntry e)).map (cleaned oc), (l.filter (fun e => ¬ isMarkerEntry e)).map (cleaned oc)) := by
  intro l
  induction l with
  | nil => intro _; rfl
  | cons e l ih =>
    intro h
    have h0 := h e (by simp)
    rw [parseLayer]
    simp only
    rw [h0, if_neg (by simp), ih (fun x hx => h x (by simp [hx]))]
    simp only
    by_cases hm : isMarkerEntry e
    · rw [if_pos ((marker_entry_iff h0).mpr hm)]
      simp [hm, cleaned]
    · rw [if_neg (fun h => hm ((marker_entry_iff h0).mp h))]
      simp [hm, cleaned]

theorem dropBody_marker (oc : Bool) (e : Entry) : isMarkerEntry (dropBody oc e) ↔ isMarkerEntry e := by
  unfold dropBody; cases oc <;> rfl

theorem inOrder_dropBody (oc : Bool) (l : List Entry) : inOrder (l.map (dropBody oc)) = (inOrder l).map (dropBody oc) := by
  unfold inOrder
  rw [List.map_append, List.filter_map, List.filter_map]
  congr 2
  · congr 1; funext e; simp [dropBody_marker]
  · congr 1; funext e; simp [dropBody_marker]

theorem loadFrom_sim {L : Path → Prop} {n : Nat} {oc : Bool} : ∀ (ls : List (List Entry)) (S : FS) (V : View), Sim L S V →
    (∀ l ∈ ls, ∀ e ∈ l, outside (clean e.header.name) = false) → (∀ l ∈ ls, ∀ e ∈ l, e.header.typeflag = '2' → L (pathOf e)) →
    (∀ l ∈ ls, ∀ e ∈ l, ∀ p, L p → p <+: pathOf e → p = pathOf e) →
    ∃ S', loadFrom (n + 3) oc S ls = some (.ok S') ∧ Sim L S' ((ls.map (·.map (dropBody oc))).foldl applyLayer V) := by
  intro ls
  induction ls with
  | nil => intro S V h _ _ _; exact ⟨S, rfl, h⟩
  | cons l ls ih =>
    intro S V h h1 h2 h3
    have hmem : ∀ (P : Entry → Bool) e, e ∈ l.filter P → e ∈ l := fun P e he => (List.mem_filter.mp he).1
    obtain ⟨S1, e1, s1⟩ := addEntries_sim (n := n) (oc := oc) (l.filter (fun e => isMarkerEntry e)) S V h
      (fun e he => h1 l (by simp) e (hmem _ e he)) (fun e he => h2 l (by simp) e (hmem _ e he))
      (fun e he => h3 l (by simp) e (hmem _ e he))
    obtain ⟨S2, e2, s2⟩ := addEntries_sim (n := n) (oc := oc) (l.filter (fun e => ¬ isMarkerEntry e)) S1 _ s1
      (fun e he => h1 l (by simp) e (hmem _ e he)) (fun e he => h2 l (by simp) e (hmem _ e he))
      (fun e he => h3 l (by simp) e (hmem _ e he))
    obtain ⟨S3, e3, s3⟩ := ih S2 _ s2 (fun x hx => h1 x (by simp [hx])) (fun x hx => h2 x (by simp [hx]))
      (fun x hx => h3 x (by simp [hx]))
    refine ⟨S3, ?_, ?_⟩
    · rw [loadFrom, parseLayer_eq l (h1 l (by simp))]
      simp only
      rw [e1, bind_some_ok, e2, bind_some_ok, e3]
    · rw [List.map_cons, List.foldl_cons]
      have : applyLayer V (l.map (dropBody oc)) = List.foldl apply (List.foldl apply V
          ((l.filter (fun e => isMarkerEntry e)).map (dropBody oc))) ((l.filter (fun e => ¬ isMarkerEntry e)).map (dropBody oc)) := by
        unfold applyLayer
        rw [inOrder_dropBody]
        unfold inOrder
        rw [List.map_append, List.foldl_append]
      rw [this]; exact s3

theorem get?_emptyFS (q : Path) : emptyFS.get? q = emptyView q := by
  unfold emptyView emptyFS FS.get?
  by_cases h : q = []
  · subst h; rfl
  · rw [if_neg h]
    simp [List.find?, show ¬ ([] = q) from fun h2 => h h2.symm]

theorem sim_empty (L : Path → Prop) : Sim L emptyFS emptyView := by
  refine ⟨inv_empty false, fun q _ => get?_emptyFS q, ?_⟩
  intro p l h
  unfold FS.link at h
  rw [get?_emptyFS] at h
  unfold emptyView at h
  split at h
  · rename_i nd e
    split at e
    · injection e with e; rw [← e] at h; simp [Node.link] at h
    · simp at e
  · simp at h

end Squash
