import Verif.Image.Complete
/-! Lemmas for C142: squashing layers that together are a tree of files. -/
namespace Squash
open Go Spec

/-- layers whose entries, taken together, describe a tree: only directories have entries below them, entries for the same path are
of the same type, and each directory above an entry has an entry -/
structure TreeStack (ls : List (List Entry)) : Prop where
  inside : ∀ l ∈ ls, ∀ e ∈ l, ¬ Outside e.header.name
  visible : ∀ l ∈ ls, ∀ e ∈ l, Visible (pathOf e)
  proper : ∀ l ∈ ls, ∀ e ∈ l, pathOf e ≠ []
  tree : ∀ l ∈ ls, ∀ a ∈ l, ∀ l' ∈ ls, ∀ b ∈ l', pathOf a <+: pathOf b → pathOf a ≠ pathOf b → a.header.typeflag = '5'
  same : ∀ l ∈ ls, ∀ a ∈ l, ∀ l' ∈ ls, ∀ b ∈ l', pathOf a = pathOf b → (a.header.typeflag = '5' ↔ b.header.typeflag = '5')
  parents : ∀ l ∈ ls, ∀ e ∈ l, ∀ q, q <+: pathOf e → q ≠ pathOf e → q ≠ [] → ∃ e' ∈ l, pathOf e' = q
  links : ∀ l ∈ ls, ∀ e ∈ l, e.header.typeflag = '2' → StraightTarget e.header.linkname ∧ Visible (comps e.header.linkname)

theorem treeStack_tame {ls : List (List Entry)} (h : TreeStack ls) : Tame ls := by
  refine ⟨h.inside, ?_, ?_, ?_, ?_⟩
  · intro l hl s hs ht l' hl' e he hpre
    refine Classical.byContradiction fun hne => ?_
    have := h.tree l hl s hs l' hl' e he hpre (fun e0 => hne (by rw [e0]))
    rw [ht] at this
    revert this; decide
  · intro l hl e he
    have hv := h.visible l hl e he
    refine ⟨fun c hc => hv c (List.dropLast_subset _ hc), fun h0 => absurd h0 (h.proper l hl e he), fun hm => absurd hm (not_marker_of_visible hv), ?_⟩
    intro d x hd hx
    exact absurd ⟨x, rfl⟩ (hv (".wh.".toList ++ x) (by rw [hd]; simp))
  · unfold NoRevival
    refine (show (ls.flatMap inOrder).Pairwise (fun _ _ => True) from List.pairwise_iff_getElem.mpr (fun _ _ _ _ _ => trivial)).imp_of_mem ?_
    intro a b ha _ _ d x hd _
    obtain ⟨l, hl, ha⟩ := mem_flat.mp ha
    exact absurd ⟨x, rfl⟩ (h.visible l hl a ha (".wh.".toList ++ x) (by rw [hd]; simp))
  · intro A e B hA a hpre hne nd hnd hf
    have he : e ∈ ls.flatMap inOrder := by rw [hA]; simp
    obtain ⟨l, hl, he⟩ := mem_flat.mp he
    have hv : Visible a := fun c hc => h.visible l hl e he c (hpre.subset hc)
    rcases file_origin hv A emptyView nd hnd hf with h1 | ⟨e', he', h1, _, h2⟩
    · unfold emptyView at h1
      split at h1
      · cases h1; obtain ⟨_, h3, _⟩ := hf; cases h3
      · cases h1
    · have he2 : e' ∈ ls.flatMap inOrder := by rw [hA]; simp [he']
      obtain ⟨l', hl', he2⟩ := mem_flat.mp he2
      rw [← h2, isFile_nodeOf] at hf
      exact hf (h.tree l' hl' e' he2 l hl e he (by rw [h1]; exact hpre) (by rw [h1]; exact hne))

/-- the path of an entry holds one of the entries in the end -/
theorem treeStack_view {es : List Entry} (hv : ∀ e ∈ es, Visible (pathOf e))
    (htree : ∀ a ∈ es, ∀ b ∈ es, pathOf a <+: pathOf b → pathOf a ≠ pathOf b → a.header.typeflag = '5') (V : View) :
    ∀ e ∈ es, ∃ e' ∈ es, es.foldl apply V (pathOf e) = some (nodeOf e') := by
  have key : ∀ (post pre : List Entry), es = pre ++ post → ∀ e ∈ es, (∃ e' ∈ es, pathOf e' = pathOf e ∧ pre.foldl apply V (pathOf e) = some (nodeOf e')) ∨
      (∃ e' ∈ post, pathOf e' = pathOf e) → ∃ e' ∈ es, es.foldl apply V (pathOf e) = some (nodeOf e') := by
    intro post
    induction post with
    | nil =>
      intro pre hes e he h
      rcases h with ⟨e', h1, _, h2⟩ | ⟨e', h1, _⟩
      · rw [List.append_nil] at hes; rw [← hes] at h2; exact ⟨e', h1, h2⟩
      · cases h1
    | cons x post ih =>
      intro pre hes e he h
      have hx : x ∈ es := by rw [hes]; simp
      refine ih (pre ++ [x]) (by rw [hes]; simp) e he ?_
      rw [List.foldl_append, List.foldl_cons, List.foldl_nil]
      by_cases hxe : pathOf x = pathOf e
      · left
        refine ⟨x, hx, hxe, ?_⟩
        rw [← hxe]
        exact apply_self (not_marker_of_visible (hv x hx))
      · rcases h with ⟨e', h1, h2, h3⟩ | ⟨e', h1, h2⟩
        · left
          refine ⟨e', h1, h2, ?_⟩
          by_cases hpre : pathOf e <+: pathOf x
          · rw [apply_on_way hpre (fun h => hxe h.symm), h3]
            have := htree e' h1 x hx (by rw [h2]; exact hpre) (by rw [h2]; exact fun h => hxe h.symm)
            unfold asDir
            simp only
            rw [if_neg (by rw [isFile_nodeOf]; simpa using this)]
          · rw [apply_apart (hv x hx) hpre, if_neg ?_, h3]
            rintro ⟨h4, h5⟩
            exact h5 (htree x hx e he h4 hxe)
        · right
          rcases List.mem_cons.mp h1 with rfl | h1
          · exact absurd h2 hxe
          · exact ⟨e', h1, h2⟩
  intro e he
  exact key es [] rfl e he (Or.inr ⟨e, he, rfl⟩)

/-- the squashed layer is itself a tree with entries for all directories -/
theorem treeStack_squash {ls : List (List Entry)} (h : TreeStack ls) {n : Nat} (hn : 3 ≤ n)
    {srt : (Str → Str → Bool) → List Str → List Str} (hs : SortSlice srt) {order : Path → List Str → List Str} (ho : PermOrder order) :
    ∃ out, squash n srt order ls = some (.ok out) ∧ TreeLayer out ∧ ParentsBefore out ∧ (∀ e ∈ out, LinksFine e) ∧
      (∀ e ∈ out, ∃ l ∈ ls, ∃ e0 ∈ l, nodeOf e = nodeOf e0) ∧
      ∀ V : View, RootDir V → ∀ q, Proper q → applyLayer V out q = ls.foldl applyLayer V q := by
  have ht := treeStack_tame h
  obtain ⟨S, _, hb, hsq⟩ := tame_squash ht hn srt order
  obtain ⟨out', ho', hview⟩ := C62_squash_partial ls ht n hn srt hs order ho
  rw [hsq] at ho'
  cases ho'
  have hrep : ∀ d, ¬ Replaced (ls.flatMap inOrder) d := by
    rintro d ⟨A, a, B, b, C, c1, c2, c3, c4, c5⟩
    obtain ⟨l, hl, ha⟩ := mem_flat.mp (show a ∈ ls.flatMap inOrder by rw [c1]; simp)
    obtain ⟨l', hl', hb'⟩ := mem_flat.mp (show b ∈ ls.flatMap inOrder by rw [c1]; simp)
    exact c4 ((h.same l hl a ha l' hl' b hb' (by rw [c2, c3])).mpr c5)
  have horig : ∀ e ∈ writeTo srt order S (depth S) [], ∃ l ∈ ls, ∃ e0 ∈ l, pathOf e0 = pathOf e ∧ nodeOf e = nodeOf e0 := by
    intro e he
    obtain ⟨_, _, hne, _⟩ := out_origin hb he
    obtain ⟨_, _, nd, hd, h3, h4, _, h6⟩ := out_entry hb.wf hne
    rcases hb.origin _ nd hd h3 h4 with ⟨e0, a, b, c⟩ | ⟨d, _, _, c⟩
    · obtain ⟨l, hl, he0⟩ := mem_flat.mp a
      refine ⟨l, hl, e0, he0, b, ?_⟩
      rw [h6 (by rw [← b]; exact h.visible l hl e0 he0), c]
    · exact absurd c (hrep d)
  have htf : ∀ {e e0 : Entry}, nodeOf e = nodeOf e0 → e.header.typeflag = e0.header.typeflag ∧ e.header.linkname = e0.header.linkname := by
    intro e e0 h
    unfold nodeOf at h
    simp only [Node.mk.injEq, Option.some.injEq] at h
    have h1 := congrArg Header.typeflag h.1
    have h2 := congrArg Header.linkname h.1
    exact ⟨h1, h2⟩
  have hcomps : ∀ e ∈ writeTo srt order S (depth S) [], comps e.header.name = pathOf e := by
    intro e he
    obtain ⟨_, _, hne, _⟩ := out_origin hb he
    rw [comps_nodeEntry hb.wf.inv hne, List.filter_eq_self]
    intro c hc
    simpa using (hb.wf.plain _ (has_of_nodeEntry hne) c hc).1
  have hpw := writeTo_pairwise hs ho hb.wf.inv (fun q hq c hc => (hb.wf.plain q hq c hc).1) (depth S) []
  have htl : TreeLayer (writeTo srt order S (depth S) []) := by
    refine ⟨fun e he => (out_origin hb he).1, ?_, ?_, ?_⟩
    · intro e he
      obtain ⟨l, hl, e0, he0, h1, _⟩ := horig e he
      rw [← h1]; exact h.visible l hl e0 he0
    · refine hpw.imp_of_mem ?_
      intro a b ha hb' hab e
      rw [hcomps a ha, hcomps b hb', e] at hab
      exact before_irrefl _ hab
    · intro a ha b hb' h1 h2
      obtain ⟨l, hl, a0, ha0, p1, p2⟩ := horig a ha
      obtain ⟨l', hl', b0, hb0, q1, _⟩ := horig b hb'
      rw [(htf p2).1]
      exact h.tree l hl a0 ha0 l' hl' b0 hb0 (by rw [p1, q1]; exact h1) (by rw [p1, q1]; exact h2)
  refine ⟨_, hsq, htl, ?_, ?_, ?_, hview⟩
  · intro pre e post hout
    have he : e ∈ writeTo srt order S (depth S) [] := by rw [hout]; simp
    obtain ⟨l, hl, e0, he0, h1, _⟩ := horig e he
    refine ⟨by rw [← h1]; exact h.proper l hl e0 he0, ?_⟩
    intro q hq hq' h0
    obtain ⟨e1, he1, hp1⟩ := h.parents l hl e0 he0 q (by rw [h1]; exact hq) (by rw [h1]; exact hq') h0
    -- the loaded tree has a node with a header there
    have hvq : Visible q := by rw [← hp1]; exact h.visible l hl e1 he1
    obtain ⟨e2, _, h2⟩ := treeStack_view (es := ls.flatMap inOrder)
      (fun e he => by obtain ⟨l, hl, he⟩ := mem_flat.mp he; exact h.visible l hl e he)
      (fun a ha b hb' => by
        obtain ⟨l, hl, ha⟩ := mem_flat.mp ha
        obtain ⟨l', hl', hb'⟩ := mem_flat.mp hb'
        exact h.tree l hl a ha l' hl' b hb') emptyView e1 (mem_flat.mpr ⟨l, hl, he1⟩)
    rw [hp1, ← hb.sim.view q hvq] at h2
    obtain ⟨x, hx⟩ : ∃ x, x ∈ nodeEntry S q := by
      exact ⟨_, mem_nodeEntry.mpr ⟨_, _, h2, rfl⟩⟩
    have hxo : x ∈ writeTo srt order S (depth S) [] :=
      mem_writeTo_of hs ho hb.wf.inv q [] (depth S) (lt_depth (has_of h2)) (by simpa using hx) (by simpa using has_of h2)
    have hxp : pathOf x = q := (out_entry hb.wf hx).1
    refine ⟨x, ?_, hxp⟩
    rw [hout] at hxo
    rcases List.mem_append.mp hxo with h3 | h3
    · exact h3
    · exfalso
      rcases List.mem_cons.mp h3 with rfl | h3
      · exact hq' hxp.symm
      · have h4 := hpw
        rw [hout] at h4
        have h5 := (List.pairwise_cons.mp (List.pairwise_append.mp h4).2.1).1 x h3
        rw [hcomps e he, hcomps x (by rw [hout]; simp [h3]), hxp] at h5
        exact (before_prefix hq hq').2 h5
  · intro e he
    obtain ⟨l, hl, e0, he0, h1, h2⟩ := horig e he
    refine ⟨fun c hc => htl.visible e he c (List.dropLast_subset _ hc), fun _ => by rw [← h1]; exact h.proper l hl e0 he0, ?_⟩
    intro ht
    rw [(htf h2).1] at ht
    rw [(htf h2).2]
    exact h.links l hl e0 he0 ht
  · intro e he
    obtain ⟨l, hl, e0, he0, _, h2⟩ := horig e he
    exact ⟨l, hl, e0, he0, h2⟩

end Squash
