import Verif.Image.PropsWheels
import Verif.Image.Squashed
/-! C142: layers that share nothing but directories, squashed into one and then put on top of an image. -/
namespace Onto
open Go Fsutil Bdist
open Squash (Entry Node FS loadLayers openFile squash PermOrder)
open Squash.Spec (isMarker Visible asDir Outside isFile LoadsTo LinksFine emptyView inOrder StraightTarget RootDir Proper)

theorem apart_of {ls : List (List (Hdr × Bytes))} (hap : ls.Pairwise Spec.Apart) : ∀ l ∈ ls, ∀ l' ∈ ls, l ≠ l' → Spec.Apart l l' := by
  induction ls with
  | nil => intro l hl; cases hl
  | cons x xs ih =>
    obtain ⟨h1, h2⟩ := List.pairwise_cons.mp hap
    intro l hl l' hl' hne
    rcases List.mem_cons.mp hl with rfl | m1
    · rcases List.mem_cons.mp hl' with rfl | m2
      · exact absurd rfl hne
      · exact h1 l' m2
    · rcases List.mem_cons.mp hl' with rfl | m2
      · exact (h1 l m1).symm
      · exact ih h2 l m1 l' m2 hne

theorem built_stack {rest : Hdr → Str} {ls : List (List (Hdr × Bytes))} (hb : ∀ l ∈ ls, Spec.Built l) (hap : ls.Pairwise Spec.Apart) :
    Squash.TreeStack (ls.map (·.map (Spec.entry rest))) := by
  have hmem : ∀ x ∈ ls.map (·.map (Spec.entry rest)), ∀ e ∈ x, ∃ l ∈ ls, x = l.map (Spec.entry rest) ∧ ∃ e0 ∈ l, e = Spec.entry rest e0 := by
    intro x hx e he
    obtain ⟨l, hl, rfl⟩ := List.mem_map.mp hx
    obtain ⟨e0, he0, rfl⟩ := List.mem_map.mp he
    exact ⟨l, hl, rfl, e0, he0, rfl⟩
  refine ⟨?_, ?_, ?_, ?_, ?_, ?_, ?_⟩
  · intro x hx e he
    obtain ⟨l, hl, rfl, _⟩ := hmem x hx e he
    exact (tree_layer (hb l hl).tree).inside e he
  · intro x hx e he
    obtain ⟨l, hl, rfl, _⟩ := hmem x hx e he
    exact (tree_layer (hb l hl).tree).visible e he
  · intro x hx e he
    obtain ⟨l, hl, rfl, e0, he0, rfl⟩ := hmem x hx e he
    obtain ⟨ps, hp⟩ := (hb l hl).tree.named e0 he0
    rw [named_path hp]
    exact hp.1
  · intro x hx a ha y hy b hb' hpre hne
    obtain ⟨l, hl, rfl, a0, ha0, rfl⟩ := hmem x hx a ha
    obtain ⟨l', hl', rfl, b0, hb0, rfl⟩ := hmem y hy b hb'
    obtain ⟨ps, hp⟩ := (hb l hl).tree.named a0 ha0
    obtain ⟨qs, hq⟩ := (hb l' hl').tree.named b0 hb0
    rw [named_path hp, named_path hq] at hpre hne
    have hbel := prefix_below hp hq hpre hne
    show a0.1.typeflag = typeDir
    by_cases e0 : l = l'
    · subst e0; exact (hb l hl).tree.tree a0 ha0 b0 hb0 hbel
    · exact (apart_of hap l hl l' hl' e0).left a0 ha0 b0 hb0 hbel
  · intro x hx a ha y hy b hb' heq
    obtain ⟨l, hl, rfl, a0, ha0, rfl⟩ := hmem x hx a ha
    obtain ⟨l', hl', rfl, b0, hb0, rfl⟩ := hmem y hy b hb'
    obtain ⟨ps, hp⟩ := (hb l hl).tree.named a0 ha0
    obtain ⟨qs, hq⟩ := (hb l' hl').tree.named b0 hb0
    have hps := heq
    rw [named_path hp, named_path hq] at hps
    subst hps
    by_cases e0 : l = l'
    · subst e0
      have : Spec.entry rest a0 = Spec.entry rest b0 := by
        refine Classical.byContradiction fun hne => ?_
        have honce := (tree_layer (rest := rest) (hb l hl).tree).once
        obtain ⟨i, hi, e1⟩ := List.getElem_of_mem ha
        obtain ⟨j, hj, e2⟩ := List.getElem_of_mem hb'
        rcases Nat.lt_trichotomy i j with h | h | h
        · have := List.pairwise_iff_getElem.mp honce i j hi hj h
          rw [e1, e2] at this
          exact this heq
        · subst h; exact hne (e1.symm.trans e2)
        · have := List.pairwise_iff_getElem.mp honce j i hj hi h
          rw [e1, e2] at this
          exact this heq.symm
      rw [this]
    · have := (apart_of hap l hl l' hl' e0).same a0 ha0 b0 hb0 (named_name hp hq)
      exact ⟨fun _ => this.2, fun _ => this.1⟩
  · intro x hx e he q h1 h2 h3
    obtain ⟨l, hl, rfl, _⟩ := hmem x hx e he
    obtain ⟨p1, p2, e1⟩ := List.append_of_mem he
    obtain ⟨e', he', h4⟩ := (parents_before (rest := rest) (hb l hl).tree (hb l hl).first p1 e p2 e1).2 q h1 h2 h3
    exact ⟨e', by rw [e1]; simp [he'], h4⟩
  · intro x hx e he ht
    obtain ⟨l, hl, rfl, e0, he0, rfl⟩ := hmem x hx e he
    exact (hb l hl).links e0 he0 ht

/-! ### loading views -/

theorem dropBody_false (es : List Entry) : es.map (Squash.dropBody false) = es := by
  have : Squash.dropBody false = id := by funext e; rfl
  rw [this]; simp

theorem kept_empty : Squash.Kept False Squash.emptyFS emptyView :=
  ⟨False.elim, Squash.inv_empty false, fun q _ => Squash.get?_emptyFS q, by
    intro p l h
    exact (Squash.sim_empty (fun _ => False)).link p l h |>.elim⟩

theorem load_kept {ls : List (List Entry)} (hin : ∀ l ∈ ls, ∀ e ∈ l, ¬ Outside e.header.name) (hf : ∀ l ∈ ls, ∀ e ∈ l, LinksFine e)
    {V : Squash.Spec.View} (hw : LoadsTo emptyView (ls.flatMap inOrder) V) :
    ∃ n0 S, (∀ n, n0 ≤ n → loadLayers n ls false = some (.ok S)) ∧ Squash.Kept False S V :=
  Squash.loadFrom_kept (oc := false) ls Squash.emptyFS emptyView V kept_empty
    (fun l h1 e h2 => Squash.inside_false (hin l h1 e h2)) hf False.elim (by rw [dropBody_false]; exact hw)

/-- a layer that goes where its names say, whatever is below it -/
structure Goes (l : List Entry) : Prop where
  inside : ∀ e ∈ l, ¬ Outside e.header.name
  fine : ∀ e ∈ l, LinksFine e
  loads : ∀ V, LoadsTo V (inOrder l) (Squash.Spec.applyLayer V l)

theorem built_goes {rest : Hdr → Str} {l : List (Hdr × Bytes)} (h : Spec.Built l) : Goes (l.map (Spec.entry rest)) :=
  ⟨(tree_layer h.tree).inside, built_links h, fun V => Squash.complete_loads (tree_layer h.tree) (parents_before h.tree h.first) V⟩

theorem goes_loads {V0 : Squash.Spec.View} {xs : List Entry} : ∀ (ls : List (List Entry)) (V : Squash.Spec.View), (∀ l ∈ ls, Goes l) → LoadsTo V0 xs V →
    LoadsTo V0 (xs ++ ls.flatMap inOrder) (ls.foldl Squash.Spec.applyLayer V) := by
  intro ls
  induction ls generalizing xs with
  | nil => intro V _ h; simpa using h
  | cons l ls ih =>
    intro V hg h
    have := ih (xs := xs ++ inOrder l) _ (fun x hx => hg x (List.mem_cons_of_mem _ hx)) (Squash.loadsTo_append h ((hg l (by simp)).loads V))
    rw [List.flatMap_cons, ← List.append_assoc, List.foldl_cons]
    exact this

theorem goes_load {base ls : List (List Entry)} (hin : ∀ l ∈ base, ∀ e ∈ l, ¬ Outside e.header.name) (hf : ∀ l ∈ base, ∀ e ∈ l, LinksFine e)
    {V : Squash.Spec.View} (hw : LoadsTo emptyView (base.flatMap inOrder) V) (hg : ∀ l ∈ ls, Goes l) :
    ∃ n0 S, (∀ n, n0 ≤ n → loadLayers n (base ++ ls) false = some (.ok S)) ∧ Squash.Kept False S (ls.foldl Squash.Spec.applyLayer V) := by
  refine load_kept ?_ ?_ ?_
  · intro l hl
    rcases List.mem_append.mp hl with h | h
    · exact hin l h
    · exact (hg l h).inside
  · intro l hl
    rcases List.mem_append.mp hl with h | h
    · exact hf l h
    · exact (hg l h).fine
  · rw [List.flatMap_append]
    exact goes_loads ls V hg hw

theorem foldl_layers_at {q : List Str} : ∀ (ls : List (List Entry)) (V W : Squash.Spec.View), V q = W q →
    ls.foldl Squash.Spec.applyLayer V q = ls.foldl Squash.Spec.applyLayer W q := by
  intro ls V W h
  rw [Squash.foldl_layers, Squash.foldl_layers]
  exact Squash.foldl_at_congr _ V W h

/-- **C142** Some of the layers of an image share nothing but directories.  Squashed into one layer, and that one put in their place, they give
the same image: at every path without markers there is the same header and the same content.  Below them there may be any image whose root is a
directory, with symlinks to follow; above them any layers this repository makes, also such as change their files. -/
theorem C142_squash {rest : Hdr → Str} {ls above : List (List (Hdr × Bytes))} (hb : ∀ l ∈ ls, Spec.Built l) (hap : ls.Pairwise Spec.Apart)
    (ha : ∀ l ∈ above, Spec.Built l)
    {base : List (List Entry)} (hin : ∀ l ∈ base, ∀ e ∈ l, ¬ Outside e.header.name) (hf : ∀ l ∈ base, ∀ e ∈ l, LinksFine e)
    {V : Squash.Spec.View} (hw : LoadsTo emptyView (base.flatMap inOrder) V) (hV : RootDir V)
    (srt : (Str → Str → Bool) → List Str → List Str) (hs : SortSlice srt) (order : List Str → List Str → List Str) (ho : PermOrder order) :
    ∃ n0 out T T', (∀ n, n0 ≤ n → squash n srt order (ls.map (·.map (Spec.entry rest))) = some (.ok out) ∧
      loadLayers n (base ++ ls.map (·.map (Spec.entry rest)) ++ above.map (·.map (Spec.entry rest))) false = some (.ok T) ∧
      loadLayers n (base ++ [out] ++ above.map (·.map (Spec.entry rest))) false = some (.ok T')) ∧
      ∀ q, Visible q → T'.get? q = T.get? q := by
  have hst := built_stack (rest := rest) hb hap
  obtain ⟨out, h1, htl, hpb, hfine, _, hview⟩ := Squash.treeStack_squash hst (n := 3) (by omega) hs ho
  have hgo : Goes out := ⟨htl.inside, hfine, fun V => Squash.complete_loads htl hpb V⟩
  have hga : ∀ l ∈ above.map (·.map (Spec.entry rest)), Goes l := by
    intro l hl
    obtain ⟨x, hx, rfl⟩ := List.mem_map.mp hl
    exact built_goes (ha x hx)
  obtain ⟨n1, T, t1, kT⟩ := goes_load (ls := ls.map (·.map (Spec.entry rest)) ++ above.map (·.map (Spec.entry rest))) hin hf hw (by
    intro l hl
    rcases List.mem_append.mp hl with h | h
    · obtain ⟨x, hx, rfl⟩ := List.mem_map.mp h
      exact built_goes (hb x hx)
    · exact hga l h)
  obtain ⟨n2, T', t2, kT'⟩ := goes_load (ls := [out] ++ above.map (·.map (Spec.entry rest))) hin hf hw (by
    intro l hl
    rcases List.mem_append.mp hl with h | h
    · rw [List.mem_singleton.mp h]; exact hgo
    · exact hga l h)
  refine ⟨3 + n1 + n2, out, T, T', fun n hn => ⟨Squash.squash_mono (by omega) h1, ?_, ?_⟩, ?_⟩
  · rw [List.append_assoc]; exact t1 n (by omega)
  · rw [List.append_assoc]; exact t2 n (by omega)
  · intro q hq
    by_cases hd : ".".toList ∈ q
    · have key : ∀ {U : FS}, Squash.Inv false U → U.get? q = none := by
        intro U hU
        refine Squash.not_has.mp fun hh => ?_
        exact (hU.keys q hh _ hd).1.2.1 rfl
      rw [key kT.inv, key kT'.inv]
    · rw [kT'.view q hq, kT.view q hq, List.foldl_append, List.foldl_append]
      refine foldl_layers_at _ _ _ ?_
      exact hview V hV q ⟨hq, hd⟩

/-- the same files are in an image that agrees with this one -/
theorem allAdded_congr {rest : Hdr → Str} {n : Nat} {S T T' : FS} {ls : List (List (Hdr × Bytes))} (h : Spec.AllAdded rest n S T ls)
    (hi : Squash.Inv false T') (he : ∀ q, Visible q → T'.get? q = T.get? q) (hn : 2 ≤ n) : Spec.AllAdded rest n S T' ls := by
  have hdirs : ∀ l ∈ ls, ∀ e ∈ l, ∀ ps, Spec.Named e.1.name ps → ∀ q, q <+: ps → q ≠ ps ∨ e.1.typeflag = typeDir →
      ∃ nd, T'.get? q = some nd ∧ ¬ isFile nd := by
    intro l hl e hel ps hp q hq hd
    rw [he q (fun c hc => named_visible hp c (hq.subset hc))]
    exact h.dirs l hl e hel ps hp q hq hd
  refine ⟨?_, ?_, hdirs, ?_, ?_⟩
  · intro l hl e hel hd ps hp
    rw [he ps (named_visible hp)]
    exact h.there l hl e hel hd ps hp
  · intro l hl e hel hd ht ps hp
    obtain ⟨k, rfl⟩ : ∃ k, n = k + 2 := ⟨n - 2, by omega⟩
    have hg := h.there l hl e hel hd ps hp
    rw [← he ps (named_visible hp), ← named_comps hp] at hg
    rw [← named_comps hp]
    refine (Squash.open_exact hi (named_valid hp) ?_).1 _ hg ?_
    · intro t h3 h4
      rw [named_comps hp] at h3 h4
      obtain ⟨nd, h5, h6⟩ := hdirs l hl e hel ps hp t h3 (Or.inl h4)
      rw [Squash.link_of_get h5]
      cases hk : nd.link with
      | none => rfl
      | some x =>
        exfalso
        apply h6
        unfold Node.link at hk
        split at hk
        · rename_i hdr hh
          split at hk
          · rename_i hs
            exact ⟨hdr, hh, by rw [hs]; decide⟩
          · cases hk
        · cases hk
    · simp only [Squash.Node.link, Spec.node, Spec.entry]
      exact if_neg ht
  · intro l hl e hel hd ps hp q hv hq hne
    rw [he q hv]
    exact h.below l hl e hel hd ps hp q hv hq hne
  · intro q hv hq
    rw [he q hv]
    exact h.other q hv hq

/-- **C142** (the files) So the image with the squashed layer has every file of every layer, as its layer has it; each can be opened; and nothing
else of the image changes. -/
theorem C142_files {rest : Hdr → Str} {ls : List (List (Hdr × Bytes))} (hb : ∀ l ∈ ls, Spec.Built l) (hap : ls.Pairwise Spec.Apart)
    {base : List (List Entry)} (hin : ∀ l ∈ base, ∀ e ∈ l, ¬ Outside e.header.name) (hf : ∀ l ∈ base, ∀ e ∈ l, LinksFine e)
    {V : Squash.Spec.View} (hw : LoadsTo emptyView (base.flatMap inOrder) V) (hV : RootDir V)
    (srt : (Str → Str → Bool) → List Str → List Str) (hs : SortSlice srt) (order : List Str → List Str → List Str) (ho : PermOrder order) :
    ∃ n0 out S T, (∀ q, Visible q → S.get? q = V q) ∧
      ∀ n, n0 ≤ n → squash n srt order (ls.map (·.map (Spec.entry rest))) = some (.ok out) ∧ loadLayers n base false = some (.ok S) ∧
        loadLayers n (base ++ [out]) false = some (.ok T) ∧ Spec.AllAdded rest n S T ls := by
  obtain ⟨n0, S, T, hS, h⟩ := C140_layers (rest := rest) hb hap hin hf hw
  obtain ⟨n1, out, T1, T', h1, h2⟩ := C142_squash (rest := rest) (above := []) hb hap (fun _ h => nomatch h) hin hf hw hV srt hs order ho
  have e1 : T1 = T := by
    have a := (h1 (n0 + n1) (by omega)).2.1
    have b := (h (n0 + n1) (by omega)).2.1
    rw [List.map_nil, List.append_nil] at a
    rw [a] at b
    cases b
    rfl
  subst e1
  have hl : ∀ n, n0 + n1 + 2 ≤ n → loadLayers n (base ++ [out]) false = some (.ok T') := by
    intro n hn
    have := (h1 n (by omega)).2.2
    rwa [List.map_nil, List.append_nil] at this
  refine ⟨n0 + n1 + 2, out, S, T', hS, fun n hn => ⟨(h1 n (by omega)).1, (h n (by omega)).1, hl n hn, ?_⟩⟩
  exact allAdded_congr (h n (by omega)).2.2 (Squash.load_inv (fun h => nomatch h) (hl n hn)) h2 (by omega)

/-- two wheels that share directories, installed at different times, on top of an image in which "l" is a symlink, and the first wheel once more
above, meet the conditions of `C142_squash` and `C142_files` -/
example : ∃ a b, Spec.Built a ∧ Spec.Built b ∧ [a, b].Pairwise Spec.Apart ∧ (∃ e ∈ a, ∃ e' ∈ b, e.1.name = e'.1.name) ∧ (∃ e ∈ a, e.1.typeflag ≠ typeDir) ∧
    (∀ l ∈ exLinked, ∀ e ∈ l, ¬ Outside e.header.name) ∧ (∀ l ∈ exLinked, ∀ e ∈ l, LinksFine e) ∧
    LoadsTo emptyView (exLinked.flatMap inOrder) exLinkedView ∧ RootDir exLinkedView := by
  have hchk : (match exRun cmdWorld cmdZip, exRun otherWorld otherZip with
    | .ok a, .ok b =>
      (decide (∀ e ∈ a, ∀ c ∈ split '/' e.1.name, ¬ isMarker c) && decide (∀ e ∈ a, e.1.name ≠ ".".toList) && exAbove a a) &&
      (decide (∀ e ∈ b, ∀ c ∈ split '/' e.1.name, ¬ isMarker c) && decide (∀ e ∈ b, e.1.name ≠ ".".toList) && exAbove b b) &&
      (exAbove a b && exAbove b a &&
      decide (∀ x ∈ a, ∀ y ∈ b, x.1.name = y.1.name → x.1.typeflag = typeDir ∧ y.1.typeflag = typeDir) && decide (∃ e ∈ a, ∃ e' ∈ b, e.1.name = e'.1.name) &&
      decide (∃ e ∈ a, e.1.typeflag ≠ typeDir))
    | _, _ => false) = true := by decide +kernel
  split at hchk
  · rename_i a b ha hb
    simp only [Bool.and_eq_true] at hchk
    obtain ⟨⟨⟨⟨a1, a2⟩, a3⟩, ⟨b1, b2⟩, b3⟩, ⟨⟨⟨c1, c2⟩, c3⟩, c4⟩, c5⟩ := hchk
    refine ⟨a, b, wheel_built sortSlice_exists sortSlice_exists (exLayer cmd_ordinary ha a1 a2 a3),
      wheel_built sortSlice_exists sortSlice_exists (exLayer other_ordinary hb b1 b2 b3), ?_, of_decide_eq_true c4, of_decide_eq_true c5,
      exLinked_inside, exLinked_fine, exLinked_loads, ?_⟩
    · simp only [List.pairwise_cons, List.mem_singleton, forall_eq, List.not_mem_nil, false_implies, implies_true, List.Pairwise.nil, and_true]
      exact ⟨of_decide_eq_true c3, exAbove_spec c1, fun x hx y hy => exAbove_spec c2 y hy x hx⟩
    · refine Squash.root_view _ _ Squash.rootDir_empty ?_
      decide +kernel
  · cases hchk

end Onto
