import Verif.Squash.PropsSource
import Verif.Squash.PropsWhole
/-! C133: some of an image's layers replaced by their squashed layer. -/
namespace Squash
open Go Spec

theorem noThrough_of_mem {A B : List (List Entry)} (h : NoThrough A) (hs : ∀ l ∈ B, l ∈ A) : NoThrough B :=
  fun l h1 e h2 h3 l' h4 e' h5 h6 => h l (hs l h1) e h2 h3 l' (hs l' h4) e' h5 h6

theorem keep_bodies (ls : List (List Entry)) : ls.map (·.map (dropBody false)) = ls := by
  have e : dropBody false = id := by funext e; rfl
  rw [e]; simp

/-- C133 for tame layers: in an image, a run of layers replaced by the squashed layer.  Loading either image gives the same
header and content at every path without markers. -/
theorem C133_load_partial (below layers above : List (List Entry)) (h : Tame layers)
    (hin : ∀ l ∈ below ++ above, ∀ e ∈ l, ¬ Outside e.header.name)
    (hroot : ∀ l ∈ below, ∀ e ∈ l, pathOf e = [] → e.header.typeflag = '5')
    (hb : NoThrough (below ++ layers ++ above)) (hl : LinksStay (below ++ above) layers) (n : Nat) (hn : 3 ≤ n)
    (srt : (Str → Str → Bool) → List Str → List Str) (hs : SortSlice srt) (order : Path → List Str → List Str)
    (ho : PermOrder order) :
    ∃ out S T, squash n srt order layers = some (.ok out) ∧ loadLayers n (below ++ layers ++ above) false = some (.ok S) ∧
      loadLayers n (below ++ [out] ++ above) false = some (.ok T) ∧ ∀ q, Visible q → S.get? q = T.get? q := by
  obtain ⟨R, _, h2, h3⟩ := tame_squash h hn srt order
  have hnt := out_noThrough (srt := srt) (order := order) (base := below ++ above)
    (noThrough_of_mem hb (by intro l; grind)) hl h2
  have hout : ∀ e ∈ writeTo srt order R (depth R) [], ¬ Outside e.header.name := fun e he => (out_origin h2 he).1
  generalize hg : writeTo srt order R (depth R) [] = out at *
  have hnt' : NoThrough (below ++ [out] ++ above) :=
    noThrough_of_mem hnt (by intro l; grind)
  obtain ⟨S, s1, s2⟩ := load_sim (oc := false) (layers := below ++ layers ++ above) (by
    intro l hl e he
    rcases List.mem_append.mp hl with h' | h'
    · rcases List.mem_append.mp h' with h' | h'
      · exact hin l (by simp [h']) e he
      · exact h.inside l h' e he
    · exact hin l (by simp [h']) e he) hb hn
  obtain ⟨T, t1, t2⟩ := load_sim (oc := false) (layers := below ++ [out] ++ above) (by
    intro l hl e he
    rcases List.mem_append.mp hl with h' | h'
    · rcases List.mem_append.mp h' with h' | h'
      · exact hin l (by simp [h']) e he
      · rw [List.mem_singleton.mp h'] at he; exact hout e he
    · exact hin l (by simp [h']) e he) hnt' hn
  rw [keep_bodies] at s2 t2
  refine ⟨out, S, T, h3, s1, t1, ?_⟩
  intro q hq
  by_cases hd : ".".toList ∈ q
  · have key : ∀ {U : FS} , Inv false U → U.get? q = none := by
      intro U hU
      refine not_has.mp fun hh => ?_
      exact (hU.keys q hh _ hd).1.2.1 rfl
    rw [key s2.inv, key t2.inv]
  · rw [s2.view q hq, t2.view q hq]
    unfold applyLayers
    rw [List.foldl_append, List.foldl_append, List.foldl_append, List.foldl_append, List.foldl_cons, List.foldl_nil]
    have hV : RootDir (below.foldl applyLayer emptyView) := by
      rw [foldl_layers]
      refine root_view _ _ rootDir_empty ?_
      intro e he
      obtain ⟨l, h4, h5⟩ := mem_flat.mp he
      exact hroot l h4 e h5
    obtain ⟨out', o1, o2⟩ := C62_squash_partial layers h n hn srt hs order ho
    rw [h3] at o1
    injection o1 with o1; injection o1 with o1
    rw [o1, foldl_layers above, foldl_layers above]
    exact foldl_at_congr _ _ _ (o2 _ hV q ⟨hq, hd⟩).symm

/-- two trees with the same files at the paths without markers are written with the same entries there -/
theorem same_entries {srt : (Str → Str → Bool) → List Str → List Str} (hs : SortSlice srt)
    {order : Path → List Str → List Str} (ho : PermOrder order) {U W : FS} (hU : Inv true U) (hW : Inv true W)
    (hUW : ∀ q, Visible q → U.get? q = W.get? q) :
    (writeTo srt order U (depth U) []).filter (fun e => Visible (comps e.header.name)) =
      (writeTo srt order W (depth W) []).filter (fun e => Visible (comps e.header.name)) := by
  have hpair : ∀ {U : FS}, Inv true U → ((writeTo srt order U (depth U) []).filter (fun e => Visible (comps e.header.name))).Pairwise
      (fun a b => before (comps a.header.name) (comps b.header.name)) := by
    intro U hU
    exact (writeTo_pairwise hs ho hU (fun q hq c hc => (hU.keys q hq c hc).2 rfl) _ _).filter _
  have hsub : ∀ {U W : FS}, Inv true U → Inv true W → (∀ q, Visible q → U.get? q = W.get? q) → ∀ a,
      a ∈ (writeTo srt order U (depth U) []).filter (fun e => Visible (comps e.header.name)) →
      a ∈ (writeTo srt order W (depth W) []).filter (fun e => Visible (comps e.header.name)) := by
    intro U W hU hW hUW a ha
    rw [List.mem_filter] at ha ⊢
    refine ⟨?_, ha.2⟩
    obtain ⟨p, hp⟩ := (mem_out hs ho hU).mp ha.1
    have hv := ha.2
    rw [decide_eq_true_eq, comps_nodeEntry hU hp, List.filter_eq_self.mpr ?_] at hv
    · refine (mem_out hs ho hW).mpr ⟨p, ?_⟩
      unfold nodeEntry at hp ⊢
      rw [← hUW p hv]; exact hp
    · intro c hc
      simpa using (hU.keys p (has_of_nodeEntry hp) c hc).2 rfl
  refine eq_of_sorted (R := fun a b => before (comps a.header.name) (comps b.header.name)) (fun a => before_irrefl _)
    (fun a b => before_asymm _ _) _ _ (hpair hU) (hpair hW) ?_
  intro a
  exact ⟨hsub hU hW hUW a, hsub hW hU (fun q hq => (hUW q hq).symm) a⟩

/-- C133 for tame layers and no symlink to "/": squashing the image in which a run of layers was squashed before gives, in
the same order, the entries that squashing all its layers at once gives, apart from markers. -/
theorem C133_squash_partial (below layers above : List (List Entry)) (h : Tame layers)
    (hin : ∀ l ∈ below ++ above, ∀ e ∈ l, ¬ Outside e.header.name)
    (hroot : ∀ l ∈ below, ∀ e ∈ l, pathOf e = [] → e.header.typeflag = '5')
    (hb : NoThrough (below ++ layers ++ above)) (hl : LinksStay (below ++ above) layers)
    (hr : ∀ l ∈ below ++ layers ++ above, NoRootLink l) (n : Nat) (hn : 3 ≤ n)
    (srt : (Str → Str → Bool) → List Str → List Str) (hs : SortSlice srt) (order : Path → List Str → List Str)
    (ho : PermOrder order) :
    ∃ out once twice, squash n srt order layers = some (.ok out) ∧
      squash n srt order (below ++ layers ++ above) = some (.ok once) ∧
      squash n srt order (below ++ [out] ++ above) = some (.ok twice) ∧
      twice.filter (fun e => Visible (comps e.header.name)) = once.filter (fun e => Visible (comps e.header.name)) := by
  obtain ⟨out, S, T, h1, h2, h3, h4⟩ := C133_load_partial below layers above h hin hroot hb hl n hn srt hs order ho
  refine ⟨out, _, _, h1, by unfold squash; rw [h2, bind_some_ok], by unfold squash; rw [h3, bind_some_ok], ?_⟩
  refine same_entries hs ho (load_inv (fun _ => ?_) h3) (load_inv (fun _ => hr) h2) (fun q hq => (h4 q hq).symm)
  intro l hl
  rcases List.mem_append.mp hl with h' | h'
  · rcases List.mem_append.mp h' with h' | h'
    · exact hr l (by simp [h'])
    · rw [List.mem_singleton.mp h']
      intro e he ht
      rcases C131_squash n srt order layers out h1 e he with ⟨l0, a1, e0, a2, a3, _⟩ | ⟨_, a, _⟩
      · rw [a3.2.1]; exact hr l0 (by simp [a1]) e0 a2 (by rw [← a3.1]; exact ht)
      · rw [ht] at a; exact absurd a (by decide)
  · exact hr l (by simp [h'])

theorem inOrder_flat_append (A B : List (List Entry)) : (A ++ B).flatMap inOrder = A.flatMap inOrder ++ B.flatMap inOrder := by
  simp

theorem outOrigin_mem {L : Path → Prop} {es : List Entry} {srt : (Str → Str → Bool) → List Str → List Str}
    {order : Path → List Str → List Str} {S : FS} (hb : Built L es S) {e : Entry}
    (he : e ∈ writeTo srt order S (depth S) []) {d : Path} {x : Str} (hp : pathOf e = d ++ [".wh.".toList ++ x]) :
    (∃ e0 ∈ es, pathOf e0 = pathOf e) ∨ isMarker x := by
  rcases (out_origin hb he).2.2.2 with ⟨e0, a, b, _⟩ | ⟨d', a, _⟩
  · exact .inl ⟨e0, a, b⟩
  · right
    rw [a] at hp
    have := (List.append_inj' hp rfl).2
    simp only [List.cons.injEq, and_true] at this
    have h7 : whPrefix ++ x = whPrefix ++ ".wh..opq".toList := this.symm
    rw [List.append_cancel_left h7]; decide

/-- the path of an entry inside the tree has no ".", ".." and empty elements -/
theorem plain_pathOf {e : Entry} (h : ¬ Outside e.header.name) : ∀ c ∈ pathOf e, Plain c := by
  have hok : ParsedOK false (cleaned false e) := ⟨⟨e.header.name, rfl, inside_false h⟩, by simp⟩
  refine (addEntry_exact (n := 0) (inv_empty false) hok ?_).1
  intro t _ _
  unfold FS.link
  rw [get?_emptyFS]
  unfold emptyView
  by_cases ht : t = []
  · rw [if_pos ht]; rfl
  · rw [if_neg ht]

/-- the squashed layer with further layers on top is tame if all the layers are -/
theorem steps_tame {layers above : List (List Entry)} (h : Tame (layers ++ above)) (h1 : Tame layers)
    (hl : LinksStay above layers) {n : Nat} (hn : 3 ≤ n)
    {srt : (Str → Str → Bool) → List Str → List Str} (hs : SortSlice srt) {order : Path → List Str → List Str}
    (ho : PermOrder order) {S : FS}
    (hB : Built (linksOf layers) (layers.flatMap inOrder) S)
    (h3 : squash n srt order layers = some (.ok (writeTo srt order S (depth S) []))) :
    Tame ([writeTo srt order S (depth S) []] ++ above) := by
  have hnt := out_noThrough (srt := srt) (order := order) (base := above)
    (noThrough_of_mem h.noThrough (by intro l; grind)) hl hB
  have ht := out_tame (srt := srt) (order := order) h1 (fun l hl' => hl l (by simp at hl'; simp [hl'])) hB
  have horig := fun e => out_origin (srt := srt) (order := order) hB (e := e)
  have hmark := fun e he d x => outOrigin_mem (srt := srt) (order := order) hB (e := e) he (d := d) (x := x)
  generalize writeTo srt order S (depth S) [] = out at *
  have hreg : ∀ l ∈ above, ∀ e ∈ l, Regular e := fun l hl e he => h.regular l (by simp [hl]) e he
  refine ⟨?_, noThrough_of_mem hnt (by intro l; grind), ?_, ?_, ?_⟩
  · intro l hl e he
    rcases List.mem_append.mp hl with h' | h'
    · exact ht.inside l h' e he
    · exact h.inside l (by simp [h']) e he
  · intro l hl e he
    rcases List.mem_append.mp hl with h' | h'
    · exact ht.regular l h' e he
    · exact hreg l h' e he
  · have hn1 := h.noRevival
    have hn2 := ht.noRevival
    unfold NoRevival at hn1 hn2 ⊢
    rw [inOrder_flat_append, List.pairwise_append] at hn1 ⊢
    refine ⟨hn2, hn1.2.1, ?_⟩
    intro a ha b hb d x h5 h6
    simp only [List.flatMap_cons, List.flatMap_nil, List.append_nil] at ha
    rcases hmark a (mem_inOrder.mp ha) d x h5 with ⟨e0, a1, a2⟩ | a1
    · exact hn1.2.2 e0 a1 b hb d x (by rw [a2]; exact h5) h6
    · exact .inl a1
  · have hg1 := h.grounded
    have hg2 := ht.grounded
    rw [inOrder_flat_append] at hg1 ⊢
    generalize hX : [out].flatMap inOrder = X at *
    generalize hY : above.flatMap inOrder = Y at *
    have key : ∀ A' e B, Y = A' ++ e :: B → ∀ a, a <+: pathOf e → a ≠ pathOf e → ∀ nd, (X ++ A').foldl apply emptyView a = some nd →
        ¬ isFile nd := by
      intro A' e B c2 a h5 h6 nd h7
      have he : e ∈ Y := by rw [c2]; simp
      obtain ⟨l, l1, l2⟩ : ∃ l ∈ above, e ∈ l := by rw [← hY] at he; exact mem_flat.mp he
      have hva : Proper a := by
        refine ⟨?_, fun hd => (plain_pathOf (h.inside l (by simp [l1]) e l2) _ (h5.subset hd)).2.1 rfl⟩
        rcases snoc_cases (pathOf e) with h8 | ⟨p, c, h8⟩
        · rw [h8] at h5 h6; exact absurd (List.prefix_nil.mp h5) h6
        · have := (hreg l l1 e l2).inner
          rw [h8, List.dropLast_concat] at this
          rw [h8] at h5 h6
          exact visible_prefix (Added.strict_prefix_snoc h5 h6) this
      obtain ⟨out', o1, o2⟩ := C62_squash_partial layers h1 n hn srt hs order ho
      rw [h3] at o1
      injection o1 with o1; injection o1 with o1
      subst o1
      have h8 := o2 emptyView rootDir_empty a hva
      rw [foldl_layers] at h8
      have h9 : X.foldl apply emptyView a = (layers.flatMap inOrder).foldl apply emptyView a := by
        rw [← h8, ← hX, ← foldl_layers]; rfl
      refine hg1 (layers.flatMap inOrder ++ A') e B (by rw [c2]; simp) a h5 h6 nd ?_
      rw [List.foldl_append, ← h7, List.foldl_append]
      exact foldl_at_congr _ _ _ h9.symm
    intro A e B hA a h5 h6 nd h7
    rcases List.append_eq_append_iff.mp hA with ⟨A', c1, c2⟩ | ⟨B', c1, c2⟩
    · exact key A' e B c2 a h5 h6 nd (by rw [← c1]; exact h7)
    · cases B' with
      | nil => exact key [] e B c2.symm a h5 h6 nd (by rw [c1] ; simpa using h7)
      | cons b B' =>
        rw [List.cons_append] at c2
        injection c2 with c2 c3
        subst c2
        exact hg2 A e B' c1 a h5 h6 nd h7

theorem tame_prefix {A B : List (List Entry)} (h : Tame (A ++ B)) : Tame A := by
  refine ⟨fun l hl => h.inside l (by simp [hl]), noThrough_of_mem h.noThrough (by intro l; grind), fun l hl => h.regular l (by simp [hl]), ?_, ?_⟩
  · have := h.noRevival
    unfold NoRevival at this ⊢
    rw [inOrder_flat_append, List.pairwise_append] at this
    exact this.1
  · have := h.grounded
    rw [inOrder_flat_append] at this
    intro C e D hC
    exact this C e (D ++ B.flatMap inOrder) (by rw [hC]; simp)

/-- C133 for tame layers: the lower layers squashed first, then the result squashed with the upper ones.  On every file
system underneath this acts as the layers squashed at once do, and as the layers themselves. -/
theorem C133_lower_partial (layers above : List (List Entry)) (h : Tame (layers ++ above)) (hl : LinksStay above layers)
    (n : Nat) (hn : 3 ≤ n)
    (srt : (Str → Str → Bool) → List Str → List Str) (hs : SortSlice srt) (order : Path → List Str → List Str)
    (ho : PermOrder order) :
    ∃ out once twice, squash n srt order layers = some (.ok out) ∧
      squash n srt order (layers ++ above) = some (.ok once) ∧ squash n srt order ([out] ++ above) = some (.ok twice) ∧
      ∀ V : View, RootDir V → ∀ q, Proper q →
        applyLayer V twice q = applyLayer V once q ∧ applyLayer V twice q = (layers ++ above).foldl applyLayer V q := by
  have h1 := tame_prefix h
  obtain ⟨S, _, hS, h3⟩ := tame_squash h1 hn srt order
  have ht := steps_tame h h1 hl hn hs ho hS h3
  obtain ⟨out, o1, o2⟩ := C62_squash_partial layers h1 n hn srt hs order ho
  rw [h3] at o1
  injection o1 with o1; injection o1 with o1
  rw [o1] at ht h3
  obtain ⟨once, a1, a2⟩ := C62_squash_partial _ h n hn srt hs order ho
  obtain ⟨twice, b1, b2⟩ := C62_squash_partial _ ht n hn srt hs order ho
  refine ⟨out, once, twice, h3, a1, b1, ?_⟩
  intro V hV q hq
  have key : applyLayer V twice q = (layers ++ above).foldl applyLayer V q := by
    rw [b2 V hV q hq, List.foldl_append, List.foldl_append, List.foldl_cons, List.foldl_nil, foldl_layers above, foldl_layers above]
    exact foldl_at_congr _ _ _ (o2 V hV q hq)
  exact ⟨by rw [key, a2 V hV q hq], key⟩

/-! ### cases -/

/-- layers on top of `exTame`: they remove what it holds and add to it -/
def exAbove : List (List Entry) := [[exFile "d/.wh.k" [], exFile "h/j" [1], exLink "t2" "o"], [exFile "d/k" [2], exFile "e" [4]]]

theorem tame_dec {ls : List (List Entry)} (h0 : ∀ l ∈ ls, ∀ e ∈ l, outside (clean e.header.name) = false) (h1 : NoThrough ls)
    (h2 : ∀ l ∈ ls, ∀ e ∈ l, regularB e = true) (h3 : (ls.flatMap inOrder).Pairwise (fun a b => revivesB a b = false))
    (h4 : ∀ i, i < (ls.flatMap inOrder).length → ((ls.flatMap inOrder)[i]?).all (fun e => (List.range (pathOf e).length).all
        (fun k => (((ls.flatMap inOrder).take i).foldl apply emptyView ((pathOf e).take k)).any (fun nd => nd.nonDir) == false)) = true) :
    Tame ls := by
  refine ⟨?_, h1, fun l hl e he => regular_dec (h2 l hl e he), noRevival_of h3, grounded_of ?_⟩
  · intro l hl e he
    rw [← outside_iff, h0 l hl e he]; simp
  · intro i hi e he k hk
    have := h4 i hi
    rw [he] at this
    simp only [Option.all_some, List.all_eq_true, List.mem_range, beq_iff_eq] at this
    exact this k hk

theorem exAbove_tame : Tame (exTame ++ exAbove) :=
  tame_dec (by decide +kernel) (by decide +kernel) (by decide +kernel) (by decide +kernel) (by decide +kernel)

theorem exAbove_linksStay : LinksStay (exBase ++ exAbove) exTame := by
  have : ∀ l ∈ exBase ++ exAbove ++ exTame, ∀ s ∈ l, s.header.typeflag = '2' →
      (exTame.flatMap inOrder).Pairwise (fun a b => (decide (pathOf a = pathOf s) && decide (pathOf b = pathOf s) &&
        decide (a.header.typeflag ≠ '5') && decide (b.header.typeflag = '5')) = false) := by
    decide +kernel
  intro l hl s hs ht
  exact noReplaced_of (this l hl s hs ht)

theorem exAbove_linksStay' : LinksStay exAbove exTame :=
  fun l hl => exAbove_linksStay l (by simp at hl ⊢; grind)

theorem exSteps_inside : ∀ l ∈ exBase ++ exAbove, ∀ e ∈ l, ¬ Outside e.header.name := by
  intro l hl e he
  have : ∀ l ∈ exBase ++ exAbove, ∀ e ∈ l, outside (clean e.header.name) = false := by decide +kernel
  rw [← outside_iff, this l hl e he]; simp

example := C133_load_partial exBase exTame exAbove exTame_tame exSteps_inside (by decide +kernel) (by decide +kernel)
  exAbove_linksStay 9 (by decide) insertionSort sortSlice_exists (fun _ l => l) (fun _ _ => List.Perm.refl _)

example := C133_squash_partial exBase exTame exAbove exTame_tame exSteps_inside (by decide +kernel) (by decide +kernel)
  exAbove_linksStay (by unfold NoRootLink; decide +kernel) 9 (by decide) insertionSort sortSlice_exists (fun _ l => l) (fun _ _ => List.Perm.refl _)

example := C133_lower_partial exTame exAbove exAbove_tame exAbove_linksStay' 9 (by decide) insertionSort sortSlice_exists
  (fun _ l => l) (fun _ _ => List.Perm.refl _)

/-- The code violates C133.  A directory with a file, then layers that remove and create it again, then one more: with the
two middle layers squashed first, the file that they remove is in the result. -/
theorem C133_violated (n : Nat) (hn : 9 ≤ n) (srt : (Str → Str → Bool) → List Str → List Str) (hs : SortSlice srt)
    (order : Path → List Str → List Str) (ho : PermOrder order) :
    ∃ below layers above out once twice,
      (∀ l ∈ below ++ layers ++ above, ∀ e ∈ l, ¬ Outside e.header.name ∧ e.header.typeflag ≠ '2') ∧
      squash n srt order layers = some (.ok out) ∧ squash n srt order (below ++ layers ++ above) = some (.ok once) ∧
      squash n srt order (below ++ [out] ++ above) = some (.ok twice) ∧
      exFile "foo/a" [1] ∈ twice ∧ ∀ e ∈ once, e.header.name ≠ "foo/a".toList := by
  refine ⟨[[exDir "foo/", exFile "foo/a" [1]]], [[exFile ".wh.foo" []], [exDir "foo/", exFile "foo/b" [2]]], [[exFile "c" [3]]],
    [exDir "foo/", exFile "foo/b" [2]], [exFile "c" [3], exDir "foo/", exFile "foo/b" [2]],
    [exFile "c" [3], exDir "foo/", exFile "foo/a" [1], exFile "foo/b" [2]], ?_, squash_all (by decide +kernel) n hn srt hs order ho,
    squash_all (by decide +kernel) n hn srt hs order ho, squash_all (by decide +kernel) n hn srt hs order ho, by decide +kernel, by decide +kernel⟩
  intro l hl e he
  have : ∀ l ∈ [[exDir "foo/", exFile "foo/a" [1]]] ++ [[exFile ".wh.foo" []], [exDir "foo/", exFile "foo/b" [2]]] ++ [[exFile "c" [3]]],
      ∀ e ∈ l, outside (clean e.header.name) = false ∧ e.header.typeflag ≠ '2' := by decide +kernel
  refine ⟨?_, (this l hl e he).2⟩
  rw [← outside_iff, (this l hl e he).1]; simp

end Squash
