import Verif.Image.PropsWheel
import Verif.Squash.PropsThrough
import Verif.Squash.PropsWhole
/-! Lemmas for C104 and C105 on images with symlinks: layers in which all parents of an entry come before it. -/
namespace Squash
open Go Spec

theorem asDir_no_link (x : Option Node) (t : Str) : ¬ LinkTo (asDir x) t := by
  intro h
  have h1 : ¬ isFile (asDir x) := by
    unfold asDir
    split
    · split
      · rintro ⟨h, h1, _⟩; cases h1
      · assumption
    · rintro ⟨h, h1, _⟩; cases h1
  obtain ⟨hd, e1, e2, _⟩ := h
  exact h1 ⟨hd, e1, by rw [e2]; decide⟩

/-- every directory above an entry, but the root, has an entry before it -/
def ParentsBefore (l : List Entry) : Prop :=
  ∀ pre e post, l = pre ++ e :: post → pathOf e ≠ [] ∧ ∀ q, q <+: pathOf e → q ≠ pathOf e → q ≠ [] → ∃ e' ∈ pre, pathOf e' = q

theorem TreeLayer_prefix {pre post : List Entry} (h : TreeLayer (pre ++ post)) : TreeLayer pre :=
  ⟨fun e he => h.inside e (by simp [he]), fun e he => h.visible e (by simp [he]), (List.pairwise_append.mp h.once).1,
    fun a ha b hb => h.tree a (by simp [ha]) b (by simp [hb])⟩

/-- such a layer goes where its names say -/
theorem complete_loads {l : List Entry} (h : TreeLayer l) (hp : ParentsBefore l) (V : View) :
    LoadsTo V (inOrder l) (applyLayer V l) := by
  rw [show applyLayer V l = l.foldl apply V by unfold applyLayer; rw [inOrder_visible h.visible], inOrder_visible h.visible]
  have key : ∀ (post pre : List Entry), l = pre ++ post → LoadsTo (pre.foldl apply V) post (l.foldl apply V) := by
    intro post
    induction post with
    | nil => intro pre e; rw [e, List.append_nil]; exact .nil
    | cons e post ih =>
      intro pre hl
      have hpre : TreeLayer pre := TreeLayer_prefix (hl ▸ h)
      have hput := applyLayer_putIn hpre V
      rw [show applyLayer V pre = pre.foldl apply V by unfold applyLayer; rw [inOrder_visible hpre.visible]] at hput
      obtain ⟨hne, hpar⟩ := hp pre e post hl
      have hdots : "..".toList ∉ pathOf e := by
        obtain ⟨cs, hcs, _, ec, _⟩ := inside_elems (inside_false (h.inside e (by rw [hl]; simp)))
        have ecs : pathOf e = cs := by unfold pathOf; rw [ec, comps_render hcs]
        rw [ecs]
        exact fun hm => (hcs _ hm).2.2.1 rfl
      refine .cons (p := pathOf e) (goes_straight hne hdots ?_) ?_
      · intro t ht ht' h0 nd hnd tgt hlk
        obtain ⟨e', he', rfl⟩ := hpar t ht ht' h0
        have := hput.file e' he'
        rw [hnd] at this
        cases this
        have hty := h.tree e' (by rw [hl]; simp [he']) e (by rw [hl]; simp) ht ht'
        obtain ⟨hd, e1, e2, _⟩ := hlk
        simp only [nodeOf, Option.some.injEq] at e1
        rw [← e1] at e2
        simp only at e2
        rw [hty] at e2
        revert e2; decide
      · have := ih (pre ++ [e]) (by rw [hl]; simp)
        rwa [List.foldl_append] at this
  exact key l [] rfl

end Squash
