import Verif.Squash.OutAct
/-! C62 and C69: a squashed layer does what the layers do one after the other; squashing it again changes nothing. -/
namespace Squash
open Go Spec

/-- the layers for which squashing is faithful.  Each condition excludes a case in which the code is not (see
`C62_violated`), except `noThrough`, which limits symlinks. -/
structure Spec.Tame (layers : List (List Entry)) : Prop where
  inside : ∀ l ∈ layers, ∀ e ∈ l, ¬ Outside e.header.name
  noThrough : NoThrough layers
  regular : ∀ l ∈ layers, ∀ e ∈ l, Regular e
  noRevival : NoRevival (layers.flatMap inOrder)
  grounded : Grounded (layers.flatMap inOrder)

/-- a path a file can have: no whiteout markers, no "." -/
def Spec.Proper (q : List Str) : Prop := Visible q ∧ ".".toList ∉ q

/-- the root of the view is a directory -/
def Spec.RootDir (V : View) : Prop := ∃ nd, V [] = some nd ∧ ¬ isFile nd

abbrev linksOf (layers : List (List Entry)) (p : Path) : Prop := ∃ l ∈ layers, ∃ e ∈ l, e.header.typeflag = '2' ∧ pathOf e = p

theorem inside_false {e : Entry} (h : ¬ Outside e.header.name) : outside (clean e.header.name) = false := by
  rw [← outside_iff] at h; simpa using h

theorem mem_flat {layers : List (List Entry)} {e : Entry} : e ∈ layers.flatMap inOrder ↔ ∃ l ∈ layers, e ∈ l := by
  rw [List.mem_flatMap]
  constructor
  · rintro ⟨l, h1, h2⟩; exact ⟨l, h1, mem_inOrder.mp h2⟩
  · rintro ⟨l, h1, h2⟩; exact ⟨l, h1, mem_inOrder.mpr h2⟩

theorem tame_built {layers : List (List Entry)} (h : Tame layers) {n : Nat} (hn : 3 ≤ n) :
    ∃ S, loadLayers n layers false = some (.ok S) ∧ Built (linksOf layers) (layers.flatMap inOrder) S := by
  obtain ⟨k, rfl⟩ : ∃ k, n = k + 3 := ⟨n - 3, by omega⟩
  have hin : ∀ l ∈ layers, ∀ e ∈ l, outside (clean e.header.name) = false := fun l hl e he => inside_false (h.inside l hl e he)
  unfold loadLayers
  rw [loadFrom_eq _ _ _ _ hin]
  have := built_all (n := k) (layers.flatMap inOrder) [] emptyFS (built_empty (linksOf layers)) ?_ ?_ ?_ ?_ ?_ ?_
  · simpa using this
  · intro e he
    obtain ⟨l, h1, h2⟩ := mem_flat.mp he
    exact hin l h1 e h2
  · intro e he ht
    obtain ⟨l, h1, h2⟩ := mem_flat.mp he
    exact ⟨l, h1, e, h2, ht, rfl⟩
  · rintro e he p ⟨l', h1', e', h2', h3, rfl⟩ h4
    obtain ⟨l, h1, h2⟩ := mem_flat.mp he
    exact h.noThrough l' h1' e' h2' h3 l h1 e h2 h4
  · intro e he
    obtain ⟨l, h1, h2⟩ := mem_flat.mp he
    exact h.regular l h1 e h2
  · simpa using h.noRevival
  · simpa using h.grounded

theorem foldl_layers (layers : List (List Entry)) (V : View) :
    layers.foldl applyLayer V = (layers.flatMap inOrder).foldl apply V := by
  induction layers generalizing V with
  | nil => rfl
  | cons l ls ih => rw [List.foldl_cons, ih, List.flatMap_cons, List.foldl_append]; rfl

theorem tame_squash {layers : List (List Entry)} (h : Tame layers) {n : Nat} (hn : 3 ≤ n)
    (srt : (Str → Str → Bool) → List Str → List Str) (order : Path → List Str → List Str) :
    ∃ S, loadLayers n layers false = some (.ok S) ∧ Built (linksOf layers) (layers.flatMap inOrder) S ∧
      squash n srt order layers = some (.ok (writeTo srt order S (depth S) [])) := by
  obtain ⟨S, h1, h2⟩ := tame_built h hn
  refine ⟨S, h1, h2, ?_⟩
  unfold squash
  rw [h1, bind_some_ok]

theorem rootDir_x {V : View} (hV : RootDir V) {q : Path} (h : q = []) : ∃ nd, V q = some nd ∧ nd.nonDir = false := by
  obtain ⟨nd, h1, h2⟩ := hV
  rw [isFile_iff] at h2
  exact ⟨nd, by rw [h]; exact h1, by simpa using h2⟩

/-- C62 for tame layers, in terms of the specification: for every file system `V` underneath, applying the squashed layer
gives at every path what applying the layers one after the other gives. -/
theorem C62_squash_partial (layers : List (List Entry)) (h : Tame layers) (n : Nat) (hn : 3 ≤ n)
    (srt : (Str → Str → Bool) → List Str → List Str) (hs : SortSlice srt) (order : Path → List Str → List Str)
    (ho : PermOrder order) :
    ∃ out, squash n srt order layers = some (.ok out) ∧
      ∀ V : View, RootDir V → ∀ q, Proper q → applyLayer V out q = layers.foldl applyLayer V q := by
  obtain ⟨S, _, h2, h3⟩ := tame_squash h hn srt order
  refine ⟨_, h3, ?_⟩
  intro V hV q hq
  rw [foldl_layers]
  have hx := fun e => rootDir_x hV (q := q) e
  rw [foldl_at_congr _ V (fun _ => V q) rfl, ← h2.act q (V q) hq.1 hq.2 hx, ← out_act hs ho h2.wf hq.1 (V q) hx]
  exact foldl_at_congr _ V (fun _ => V q) rfl

/-- a symlink's path is never, within the squashed layers, first a file and then a directory -/
def Spec.LinksStay (base layers : List (List Entry)) : Prop :=
  ∀ l ∈ base ++ layers, ∀ s ∈ l, s.header.typeflag = '2' → ¬ Replaced (layers.flatMap inOrder) (pathOf s)

theorem root_view : ∀ (es : List Entry) (V : View), RootDir V → (∀ e ∈ es, pathOf e = [] → e.header.typeflag = '5') →
    RootDir (es.foldl apply V) := by
  intro es
  induction es with
  | nil => intro V h _; exact h
  | cons e es ih =>
    intro V h he
    refine ih _ ?_ (fun x hx => he x (by simp [hx]))
    unfold RootDir apply applyAt
    by_cases hp : pathOf e = []
    · rw [hp]
      simp only [List.nil_prefix, ne_eq, not_true_eq_false, and_false, if_false, List.getLast?_nil, if_true]
      refine ⟨_, rfl, ?_⟩
      rw [isFile_iff, nodeOf_nonDir]
      simpa using he e (by simp) hp
    · have x : [] <+: pathOf e ∧ [] ≠ pathOf e := ⟨List.nil_prefix, Ne.symm hp⟩
      rw [if_pos x]
      refine ⟨_, rfl, ?_⟩
      rw [asDir_eq, isFile_iff, dirOr_nonDir]; simp

theorem rootDir_empty : RootDir emptyView := ⟨⟨none, []⟩, by unfold emptyView; simp, by rintro ⟨h, h1, _⟩; simp at h1⟩

/-- the origin of the entries of the squashed layer -/
theorem out_origin {L : Path → Prop} {es : List Entry} {srt : (Str → Str → Bool) → List Str → List Str} 
    {order : Path → List Str → List Str} {S : FS} (hb : Built L es S) {e : Entry}
    (he : e ∈ writeTo srt order S (depth S) []) :
    ¬ Outside e.header.name ∧ S.has (pathOf e) ∧ e ∈ nodeEntry S (pathOf e) ∧
      ((∃ e0 ∈ es, pathOf e0 = pathOf e ∧ e0.header.typeflag = e.header.typeflag) ∨
        ∃ d, pathOf e = d ++ [opqName] ∧ e.header.typeflag = '0' ∧ Replaced es d) := by
  obtain ⟨p, hp⟩ := mem_writeTo _ _ he
  rw [List.nil_append] at hp
  obtain ⟨h1, h2, nd, hd, h3, h4, h5, h6⟩ := out_entry hb.wf hp
  have hpl := hb.wf.plain p (has_of h3)
  refine ⟨?_, by rw [h1]; exact has_of h3, by rw [h1]; exact hp, ?_⟩
  · have hroot := isRooted_render_plain hpl
    have hsplit := split_render (rooted := false) (fun c hc => (hpl c hc).2.2.2)
    unfold Outside
    rw [h2]
    rintro (⟨t, ht⟩ | ht | ⟨t, ht⟩)
    · rw [← ht] at hroot; simp [isRooted] at hroot
    · have h7 : clean ("..".toList) = "..".toList := by decide +kernel
      rw [ht] at hsplit
      simp only [Bool.false_eq_true, if_false] at hsplit
      by_cases h8 : p = []
      · rw [if_pos h8] at hsplit; exact absurd hsplit (by decide)
      · rw [if_neg h8] at hsplit
        exact (hpl "..".toList (by rw [← hsplit]; decide)).2.2.1 rfl
    · rw [← ht] at hsplit
      simp only [Bool.false_eq_true, if_false] at hsplit
      have h9 : split '/' ("../".toList ++ t) = "..".toList :: split '/' t := by
        have : "../".toList ++ t = "..".toList ++ '/' :: t := rfl
        rw [this, split_append]; rfl
      rw [h9] at hsplit
      by_cases h8 : p = []
      · rw [if_pos h8] at hsplit
        injection hsplit with h10 _
        exact absurd h10 (by decide)
      · rw [if_neg h8] at hsplit
        exact (hpl "..".toList (by rw [← hsplit]; simp)).2.2.1 rfl
  · rw [h1]
    rcases hb.origin p nd hd h3 h4 with ⟨e0, a, b, c⟩ | ⟨d, a, b, c⟩
    · left
      refine ⟨e0, a, b, ?_⟩
      rw [h5]
      rw [c] at h4
      unfold nodeOf at h4
      simp only [Option.some.injEq] at h4
      rw [← h4]
    · right
      refine ⟨d, a, ?_, c⟩
      rw [b] at h4
      simp only [Option.some.injEq] at h4
      rw [h5, ← h4]; rfl

theorem out_noThrough {base layers : List (List Entry)} (hb : NoThrough (base ++ layers)) (hl : LinksStay base layers)
    {srt : (Str → Str → Bool) → List Str → List Str} {order : Path → List Str → List Str} {L : Path → Prop} {S : FS}
    (hB : Built L (layers.flatMap inOrder) S) : NoThrough (base ++ [writeTo srt order S (depth S) []]) := by
  generalize hout : writeTo srt order S (depth S) [] = out
  have horig : ∀ l ∈ base ++ [out], ∀ e ∈ l, (∃ l0 ∈ base ++ layers, ∃ e0 ∈ l0, pathOf e0 = pathOf e ∧ e0.header.typeflag = e.header.typeflag) ∨
      ∃ d, pathOf e = d ++ [opqName] ∧ e.header.typeflag = '0' ∧ Replaced (layers.flatMap inOrder) d := by
    intro l hl e he
    rcases List.mem_append.mp hl with h | h
    · exact .inl ⟨l, by simp [h], e, he, rfl, rfl⟩
    · rw [List.mem_singleton.mp h, ← hout] at he
      rcases (out_origin hB he).2.2.2 with ⟨e0, h1, h2⟩ | h1
      · obtain ⟨l0, h3, h4⟩ := mem_flat.mp h1
        exact .inl ⟨l0, by simp [h3], e0, h4, h2⟩
      · exact .inr h1
  intro l h1 s h2 h3 l' h4 e h5 h6
  rcases horig l h1 s h2 with ⟨l0, a1, s0, a2, a3, a4⟩ | ⟨d, _, a, _⟩
  · rcases horig l' h4 e h5 with ⟨l1, b1, e1, b2, b3, b4⟩ | ⟨d, b1, b2, b3⟩
    · rw [← a3, ← b3] at h6 ⊢
      exact hb l0 a1 s0 a2 (by rw [a4]; exact h3) l1 b1 e1 b2 h6
    · rw [b1] at h6 ⊢
      refine Classical.byContradiction fun hne => ?_
      have h7 := Added.strict_prefix_snoc h6 hne
      have h8 := hl l0 a1 s0 a2 (by rw [a4]; exact h3)
      obtain ⟨A, x, B, y, C, c1, c2, c3, _⟩ := b3
      have hx : x ∈ layers.flatMap inOrder := by rw [c1]; simp
      obtain ⟨l1, d1, d2⟩ := mem_flat.mp hx
      have := hb l0 a1 s0 a2 (by rw [a4]; exact h3) l1 (by simp [d1]) x d2 (by rw [a3, c2]; exact h7)
      rw [c2] at this
      apply h8
      rw [this]
      exact ⟨A, x, B, y, C, c1, c2, c3, by assumption⟩
  · rw [h3] at a; exact absurd a (by decide)

/-- C62 for tame layers, in terms of `Load`: loading a base with the squashed layer on top gives, at every path without
markers, the same header and content as loading the base with all the layers on top. -/
theorem C62_load_partial (base layers : List (List Entry)) (h : Tame layers) 
    (hin : ∀ l ∈ base, ∀ e ∈ l, ¬ Outside e.header.name) (hroot : ∀ l ∈ base, ∀ e ∈ l, pathOf e = [] → e.header.typeflag = '5')
    (hb : NoThrough (base ++ layers)) (hl : LinksStay base layers) (n : Nat) (hn : 3 ≤ n)
    (srt : (Str → Str → Bool) → List Str → List Str) (hs : SortSlice srt) (order : Path → List Str → List Str)
    (ho : PermOrder order) :
    ∃ out S T, squash n srt order layers = some (.ok out) ∧ loadLayers n (base ++ layers) false = some (.ok S) ∧
      loadLayers n (base ++ [out]) false = some (.ok T) ∧ ∀ q, Visible q → S.get? q = T.get? q := by
  obtain ⟨R, _, h2, h3⟩ := tame_squash h hn srt order
  have hnt := out_noThrough (srt := srt) (order := order) hb hl h2
  have hout : ∀ e ∈ writeTo srt order R (depth R) [], ¬ Outside e.header.name := fun e he => (out_origin h2 he).1
  generalize hg : writeTo srt order R (depth R) [] = out at *
  obtain ⟨S, s1, s2⟩ := load_sim (oc := false) (layers := base ++ layers) (by
    intro l hl e he
    rcases List.mem_append.mp hl with h' | h'
    · exact hin l h' e he
    · exact h.inside l h' e he) hb hn
  obtain ⟨T, t1, t2⟩ := load_sim (oc := false) (layers := base ++ [out]) (by
    intro l hl e he
    rcases List.mem_append.mp hl with h' | h'
    · exact hin l h' e he
    · rw [List.mem_singleton.mp h'] at he; exact hout e he) hnt hn
  have e0 : ∀ ls : List (List Entry), ls.map (·.map (dropBody false)) = ls := by
    intro ls
    have e : dropBody false = id := by funext e; rfl
    rw [e]; simp
  rw [e0] at s2 t2
  refine ⟨out, S, T, h3, s1, t1, ?_⟩
  intro q hq
  by_cases hd : ".".toList ∈ q
  · have key : ∀ {U : FS} , Inv false U → U.get? q = none := by
      intro U hU
      refine not_has.mp fun hh => ?_
      exact (hU.keys q hh _ hd).1.2.1 rfl
    rw [key s2.inv, key t2.inv]
  · rw [s2.view q hq, t2.view q hq]
    unfold applyLayers
    rw [List.foldl_append, List.foldl_append, List.foldl_cons, List.foldl_nil]
    have hV : RootDir (base.foldl applyLayer emptyView) := by
      rw [foldl_layers]
      refine root_view _ _ rootDir_empty ?_
      intro e he
      obtain ⟨l, h4, h5⟩ := mem_flat.mp he
      exact hroot l h4 e h5
    have := C62_squash_partial layers h n hn srt hs order ho
    obtain ⟨out', o1, o2⟩ := this
    rw [h3] at o1
    injection o1 with o1; injection o1 with o1
    rw [o1]
    exact (o2 _ hV q ⟨hq, hd⟩).symm

/-! ### C69 -/

/-- a file in the view comes from an entry for that path -/
theorem file_origin {q : Path} (hq : Visible q) : ∀ (es : List Entry) (V : View) (nd : Node), es.foldl apply V q = some nd → isFile nd →
    V q = some nd ∨ ∃ e ∈ es, pathOf e = q ∧ ¬ isMarkerEntry e ∧ nodeOf e = nd := by
  intro es
  induction es with
  | nil => intro V nd h _; exact .inl h
  | cons e es ih =>
    intro V nd h hf
    rcases ih _ nd h hf with h1 | ⟨e', h1, h2⟩
    · by_cases hm : isMarkerEntry e
      · obtain ⟨p, k, h3, h4⟩ := marker_path hm
        rw [apply_cov h3 h4 hq] at h1
        by_cases h5 : q <+: p
        · rw [if_pos h5] at h1
          injection h1 with h1
          rw [isFile_iff, ← h1, dirOr_nonDir] at hf; simp at hf
        · rw [if_neg h5] at h1
          split at h1
          · simp at h1
          · exact .inl h1
      · rw [apply_ord hm] at h1
        by_cases h5 : q <+: pathOf e ∧ q ≠ pathOf e
        · rw [if_pos h5] at h1
          injection h1 with h1
          rw [isFile_iff, ← h1, dirOr_nonDir] at hf; simp at hf
        · rw [if_neg h5] at h1
          by_cases h6 : q = pathOf e
          · rw [if_pos h6] at h1
            injection h1 with h1
            exact .inr ⟨e, by simp, h6.symm, hm, h1⟩
          · rw [if_neg h6] at h1
            split at h1
            · simp at h1
            · exact .inl h1
    · exact .inr ⟨e', by simp [h1], h2⟩

theorem out_tame {layers : List (List Entry)} (h : Tame layers) (hst : LinksStay [] layers)
    {srt : (Str → Str → Bool) → List Str → List Str} {order : Path → List Str → List Str} {L : Path → Prop} {S : FS}
    (hB : Built L (layers.flatMap inOrder) S) : Tame [writeTo srt order S (depth S) []] := by
  have hnt := out_noThrough (base := []) (srt := srt) (order := order) h.noThrough hst hB
  have horig := fun e => out_origin (srt := srt) (order := order) hB (e := e)
  generalize writeTo srt order S (depth S) [] = out at *
  have hnode : ∀ e ∈ out, ∃ nd hd, S.get? (pathOf e) = some nd ∧ nd.header = some hd ∧ e.header.typeflag = hd.typeflag := by
    intro e he
    obtain ⟨_, _, h1, _⟩ := horig e he
    obtain ⟨_, _, nd, hd, h2, h3, h4, _⟩ := out_entry hB.wf h1
    exact ⟨nd, hd, h2, h3, h4⟩
  refine ⟨?_, hnt, ?_, ?_, ?_⟩
  · intro l hl e he
    rw [List.mem_singleton.mp hl] at he
    exact (horig e he).1
  · intro l hl e he
    rw [List.mem_singleton.mp hl] at he
    obtain ⟨nd, hd, h2, h3, h4⟩ := hnode e he
    refine ⟨?_, ?_, ?_, ?_⟩
    · rcases snoc_cases (pathOf e) with h5 | ⟨p, c, h5⟩
      · rw [h5]; intro c hc; simp at hc
      · rw [h5, List.dropLast_concat]; rw [h5] at h2; exact hB.wf.inner p c (has_of h2)
    · intro h5
      rw [h4]
      have := hB.wf.root
      rw [h5] at h2
      unfold FS.nonDir at this
      rw [h2] at this
      simp only at this
      unfold Node.nonDir at this
      rw [h3] at this
      simp only [typeDir] at this
      simpa using of_decide_eq_false this
    · intro hm
      obtain ⟨p, k, h5, h6⟩ := marker_path hm
      rw [h5] at h2
      have := hB.wf.mark p k nd h2 h6
      unfold Node.nonDir at this
      rw [h3] at this
      rw [h4]
      exact of_decide_eq_true this
    · intro d x h5 hx
      rcases (horig e he).2.2.2 with ⟨e0, a, b, _⟩ | ⟨d', a, _⟩
      · obtain ⟨l0, c1, c2⟩ := mem_flat.mp a
        have := (h.regular l0 c1 e0 c2).deep d x (by rw [b]; exact h5) hx
        rw [← b]; exact this
      · rw [a] at h5 ⊢
        have := List.append_inj' h5 rfl
        rw [this.1]; rfl
  · simp only [List.flatMap_cons, List.flatMap_nil, List.append_nil]
    unfold NoRevival
    rw [List.pairwise_iff_forall_sublist]
    intro a b hab d x h5 h6
    have ha := mem_inOrder.mp (hab.subset (show a ∈ [a, b] by simp))
    have hb := mem_inOrder.mp (hab.subset (show b ∈ [a, b] by simp))
    obtain ⟨nd, hd, h2, h3, h4⟩ := hnode b hb
    obtain ⟨nd', _, h2', _⟩ := hnode a ha
    rw [h6] at h2
    rw [h5] at h2'
    exact .inl (hB.nowh d x nd hd (has_of h2') h2 h3)
  · simp only [List.flatMap_cons, List.flatMap_nil, List.append_nil]
    intro A e B hA a h5 h6 nd h7 hf
    have he : e ∈ out := mem_inOrder.mp (by rw [hA]; simp)
    obtain ⟨ndr, hdr, h8, h9, h10⟩ := hnode e he
    have hva : Visible a := by
      rcases snoc_cases (pathOf e) with h7 | ⟨p, c, h7⟩
      · rw [h7] at h5 h6; exact absurd (List.prefix_nil.mp h5) h6
      · rw [h7] at h5 h6 h8
        exact visible_prefix (Added.strict_prefix_snoc h5 h6) (hB.wf.inner p c (has_of h8))
    rcases file_origin hva A emptyView nd h7 hf with h11 | ⟨e', h11, h12, hm, h13⟩
    · unfold emptyView at h11
      split at h11
      · injection h11 with h11
        rw [← h11] at hf
        obtain ⟨_, h, _⟩ := hf
        simp at h
      · simp at h11
    · have he' : e' ∈ out := mem_inOrder.mp (by rw [hA]; simp [h11])
      obtain ⟨nd', hd', a1, a2, a3⟩ := hnode e' he'
      have hnd : S.nonDir a = true := by
        unfold FS.nonDir
        rw [← h12, a1]
        rw [← h13, isFile_iff, nodeOf_nonDir, a3] at hf
        simp only
        unfold Node.nonDir
        rw [a2]
        exact decide_eq_true hf
      have := hB.wf.inv.noDesc (hB.wf.inv.leaf a hnd) h5 (Ne.symm h6)
      rw [h8] at this; simp at this

/-- lists in a strict order with the same members are equal -/
theorem eq_of_sorted {α : Type} {R : α → α → Prop} (hirr : ∀ a, ¬ R a a) (hasym : ∀ a b, R a b → ¬ R b a) :
    ∀ (l m : List α), l.Pairwise R → m.Pairwise R → (∀ a, a ∈ l ↔ a ∈ m) → l = m := by
  intro l
  induction l with
  | nil =>
    intro m _ _ h
    cases m with
    | nil => rfl
    | cons b m => exact absurd ((h b).mpr (by simp)) (by simp)
  | cons a l ih =>
    intro m hl hm h
    cases m with
    | nil => exact absurd ((h a).mp (by simp)) (by simp)
    | cons b m =>
      rw [List.pairwise_cons] at hl hm
      have hab : a = b := by
        refine Classical.byContradiction fun hne => ?_
        have h1 : b ∈ l := by
          rcases List.mem_cons.mp ((h b).mpr (by simp)) with h1 | h1
          · exact absurd h1.symm hne
          · exact h1
        have h2 : a ∈ m := by
          rcases List.mem_cons.mp ((h a).mp (by simp)) with h1 | h1
          · exact absurd h1 hne
          · exact h1
        exact hasym a b (hl.1 b h1) (hm.1 a h2)
      subst hab
      rw [ih m hl.2 hm.2]
      intro x
      constructor
      · intro hx
        rcases List.mem_cons.mp ((h x).mp (by simp [hx])) with h1 | h1
        · rw [h1] at hx; exact absurd (hl.1 a hx) (hirr a)
        · exact h1
      · intro hx
        rcases List.mem_cons.mp ((h x).mpr (by simp [hx])) with h1 | h1
        · rw [h1] at hx; exact absurd (hm.1 a hx) (hirr a)
        · exact h1

theorem before_asymm : ∀ (p q : List Str), before p q → ¬ before q p := by
  intro p
  induction p with
  | nil => intro q h; cases q <;> simp_all [before]
  | cons c p ih =>
    intro q h h2
    cases q with
    | nil => simp [before] at h
    | cons d q =>
      rw [before] at h h2
      have hs : ∀ {c d}, sibBefore c d → ¬ sibBefore d c ∧ c ≠ d := by
        intro c d h3
        rw [← childLess_iff] at h3
        have hst := childLess_strict [c, d]
        have hcc := hst.irrefl c (by simp)
        constructor
        · intro h4
          rw [← childLess_iff] at h4
          have := hst.trans c d c (by simp) (by simp) (by simp) h3 h4
          rw [hcc] at this; simp at this
        · intro e
          rw [← e, hcc] at h3; simp at h3
      rcases h with h | ⟨rfl, h⟩
      · rcases h2 with h2 | ⟨e, _⟩
        · exact (hs h).1 h2
        · exact (hs h).2 e.symm
      · rcases h2 with h2 | ⟨_, h2⟩
        · exact (hs h2).2 rfl
        · exact ih q h h2

/-- C69 for tame layers: squashing the squashed layer gives the same entries, in the same order, except perhaps for
whiteout and opaque markers (see `C69_violated`), and a file system loaded from either is the same. -/
theorem C69_idempotent_partial (layers : List (List Entry)) (h : Tame layers) (hl : LinksStay [] layers) (n : Nat) (hn : 3 ≤ n)
    (srt : (Str → Str → Bool) → List Str → List Str) (hs : SortSlice srt) (order : Path → List Str → List Str)
    (ho : PermOrder order) :
    ∃ out out', squash n srt order layers = some (.ok out) ∧ squash n srt order [out] = some (.ok out') ∧
      out'.filter (fun e => ¬ isMarkerEntry e) = out.filter (fun e => ¬ isMarkerEntry e) ∧
      ∀ V : View, RootDir V → ∀ q, Proper q → applyLayer V out' q = applyLayer V out q := by
  obtain ⟨S, s1, hS, h3⟩ := tame_squash h hn srt order
  have ht := out_tame (srt := srt) (order := order) h hl hS
  obtain ⟨T, t1, hT, h4⟩ := tame_squash ht hn srt order
  refine ⟨_, _, h3, h4, ?_, ?_⟩
  · have hview : ∀ q, Visible q → S.get? q = T.get? q := by
      obtain ⟨out, S', T', a1, a2, a3, a4⟩ := C62_load_partial [] layers h (by simp) (by simp) h.noThrough hl n hn srt hs order ho
      rw [h3] at a1
      injection a1 with a1; injection a1 with a1
      rw [List.nil_append, s1] at a2
      injection a2 with a2; injection a2 with a2
      rw [List.nil_append, ← a1, t1] at a3
      injection a3 with a3; injection a3 with a3
      rw [a2, a3]; exact a4
    have hpair : ∀ {U : FS}, WFS U → ((writeTo srt order U (depth U) []).filter (fun e => ¬ isMarkerEntry e)).Pairwise
        (fun a b => before (comps a.header.name) (comps b.header.name)) := by
      intro U hU
      exact (writeTo_pairwise hs ho hU.inv (fun q hq c hc => (hU.plain q hq c hc).1) _ _).filter _
    refine eq_of_sorted (R := fun a b => before (comps a.header.name) (comps b.header.name)) (fun a => before_irrefl _) (fun a b => before_asymm _ _) _ _ (hpair hT.wf) (hpair hS.wf) ?_
    have hsub : ∀ {U W : FS}, WFS U → WFS W → (∀ q, Visible q → U.get? q = W.get? q) → ∀ a,
        a ∈ (writeTo srt order U (depth U) []).filter (fun e => ¬ isMarkerEntry e) →
        a ∈ (writeTo srt order W (depth W) []).filter (fun e => ¬ isMarkerEntry e) := by
      intro U W hU hW hUW a ha
      rw [List.mem_filter] at ha ⊢
      refine ⟨?_, ha.2⟩
      obtain ⟨p, hp⟩ := (mem_out hs ho hU.inv).mp ha.1
      obtain ⟨hpo, _, nd, hd, h5, h6, _⟩ := out_entry hU hp
      have hv : Visible p := by
        rcases snoc_cases p with h7 | ⟨d, c, h7⟩
        · rw [h7]; intro c hc; simp at hc
        · rw [h7, visible_snoc]
          refine ⟨hU.inner d c (by rw [← h7]; exact has_of h5), fun hm => ?_⟩
          have := ha.2
          simp only [decide_eq_true_eq] at this
          exact this (marker_last (hpo.trans h7) hm)
      refine (mem_out hs ho hW.inv).mpr ⟨p, ?_⟩
      unfold nodeEntry at hp ⊢
      rw [← hUW p hv]; exact hp
    intro a
    exact ⟨hsub hT.wf hS.wf (fun q hq => (hview q hq).symm) a, hsub hS.wf hT.wf hview a⟩
  · intro V hV q hq
    obtain ⟨out', o1, o2⟩ := C62_squash_partial _ ht n hn srt hs order ho
    rw [h4] at o1
    injection o1 with o1; injection o1 with o1
    have := o2 V hV q hq
    rw [List.foldl_cons, List.foldl_nil] at this
    rw [o1]; exact this

/-! ### cases -/

theorem regular_of {e : Entry} (h1 : Visible (pathOf e).dropLast) (h2 : pathOf e ≠ [])
    (h3 : ∀ c, (pathOf e).getLast? = some c → isMarker c → e.header.typeflag ≠ '5' ∧ (isMarker (c.drop 4) → c = ".wh..wh..opq".toList)) :
    Regular e := by
  refine ⟨h1, fun h => absurd h h2, ?_, ?_⟩
  · rintro ⟨c, a, b⟩; exact (h3 c a b).1
  · intro d x a b
    have := (h3 (".wh.".toList ++ x) (by rw [a]; simp) (wh_marker x)).2 b
    rw [a, this]

theorem grounded_of {es : List Entry}
    (h : ∀ i, i < es.length → ∀ e, es[i]? = some e → ∀ k, k < (pathOf e).length →
      ((es.take i).foldl apply emptyView ((pathOf e).take k)).any (fun nd => nd.nonDir) = false) : Grounded es := by
  intro A e B hA a h1 h2 nd h3 hf
  have hk : a.length < (pathOf e).length := by
    have := h1.length_le
    rcases Nat.lt_or_eq_of_le this with h4 | h4
    · exact h4
    · exact absurd (h1.eq_of_length h4) h2
  have := h A.length (by rw [hA]; simp) e (by rw [hA]; simp) a.length hk
  rw [← List.prefix_iff_eq_take.mp h1, hA, List.take_left, h3] at this
  rw [isFile_iff] at hf
  simp [hf] at this

/-- a stack with whiteouts, an opaque marker, a file that replaces a directory and a directory that replaces a file -/
def exTame : List (List Entry) :=
  [[exDir "d/", exFile "d/f" [1], exDir "e/", exFile "e/g" [2], exFile "h" [3], exFile "o/p" [7], exLink "s" "d"],
   [exFile "d/.wh.f" [], exFile "d/k" [4], exFile "o/.wh..wh..opq" [], exFile "o/q" [8], exFile "e" [5], exDir "h/", exFile "h/i" [6]]]

def Spec.regularB (e : Entry) : Bool :=
  decide (Visible (pathOf e).dropLast) && decide (pathOf e ≠ []) &&
    (pathOf e).getLast?.all (fun c => !decide (isMarker c) || (decide (e.header.typeflag ≠ '5') && (!decide (isMarker (c.drop 4)) || decide (c = ".wh..wh..opq".toList))))

theorem regular_dec {e : Entry} (h : regularB e = true) : Regular e := by
  unfold regularB at h
  simp only [Bool.and_eq_true, decide_eq_true_eq] at h
  refine regular_of h.1.1 h.1.2 ?_
  intro c h1 h2
  have := h.2
  rw [h1] at this
  simp only [Option.all_some, Bool.or_eq_true, Bool.not_eq_true', decide_eq_false_iff_not, Bool.and_eq_true, decide_eq_true_eq] at this
  rcases this with h3 | ⟨h3, h4⟩
  · exact absurd h2 h3
  · refine ⟨h3, fun h5 => ?_⟩
    rcases h4 with h4 | h4
    · exact absurd h5 h4
    · exact h4

def Spec.revivesB (a b : Entry) : Bool :=
  match (pathOf a).getLast? with
  | some c => decide (isMarker c) && decide (pathOf b = (pathOf a).dropLast ++ [c.drop 4]) && decide (b.header.typeflag = '5')
  | none => false

theorem noRevival_of {es : List Entry} (h : es.Pairwise (fun a b => revivesB a b = false)) : NoRevival es := by
  refine h.imp ?_
  intro a b hab d x h1 h2
  right
  intro h3
  unfold revivesB at hab
  rw [h1] at hab
  simp only [List.getLast?_append, List.getLast?_singleton, Option.some_or, List.dropLast_concat, Bool.and_eq_false_iff,
    decide_eq_false_iff_not] at hab
  rcases hab with (hab | hab) | hab
  · exact hab (wh_marker x)
  · exact hab (by rw [h2]; rfl)
  · exact hab h3

theorem exTame_tame : Tame exTame := by
  refine ⟨?_, by decide +kernel, ?_, noRevival_of (by decide +kernel), grounded_of ?_⟩
  · intro l hl e he
    rw [← outside_iff]
    have : ∀ l ∈ exTame, ∀ e ∈ l, outside (clean e.header.name) = false := by decide +kernel
    rw [this l hl e he]; simp
  · intro l hl e he
    have : ∀ l ∈ exTame, ∀ e ∈ l, regularB e = true := by decide +kernel
    exact regular_dec (this l hl e he)
  · have : ∀ i, i < (exTame.flatMap inOrder).length → ((exTame.flatMap inOrder)[i]?).all (fun e => (List.range (pathOf e).length).all
        (fun k => (((exTame.flatMap inOrder).take i).foldl apply emptyView ((pathOf e).take k)).any (fun nd => nd.nonDir) == false)) = true := by
      decide +kernel
    intro i hi e he k hk
    have := this i hi
    rw [he] at this
    simp only [Option.all_some, List.all_eq_true, List.mem_range, beq_iff_eq] at this
    exact this k hk

example : (squash 9 insertionSort (fun _ l => l) exTame).map (fun r => r.toOption.map (·.map (fun e => (e.header.name, e.body)))) =
    some (some [("d/".toList, []), ("d/.wh.f".toList, []), ("d/k".toList, [4]), ("e".toList, [5]), ("h/".toList, []),
      ("h/.wh..wh..opq".toList, []), ("h/i".toList, [6]), ("o/.wh..wh..opq".toList, []), ("o/q".toList, [8]), ("s".toList, [])]) := by
  decide +kernel

/-- a base for that stack -/
def exBase : List (List Entry) := [[exDir "./", exDir "d/", exFile "d/f" [9], exDir "h/", exFile "h/z" [9], exFile "o/z" [9], exLink "t" "h"]]

example : NoThrough (exBase ++ exTame) ∧ (∀ l ∈ exBase, ∀ e ∈ l, pathOf e = [] → e.header.typeflag = '5') := by decide +kernel

theorem noReplaced_of {es : List Entry} {p : Path}
    (h : es.Pairwise (fun a b => (decide (pathOf a = p) && decide (pathOf b = p) && decide (a.header.typeflag ≠ '5') &&
      decide (b.header.typeflag = '5')) = false)) : ¬ Replaced es p := by
  rintro ⟨A, a, B, b, C, h1, h2, h3, h4, h5⟩
  rw [h1, List.pairwise_append, List.pairwise_cons] at h
  have := h.2.1.1 b (by simp)
  simp [h2, h3, h4, h5] at this

theorem exTame_linksStay : LinksStay exBase exTame := by
  have : ∀ l ∈ exBase ++ exTame, ∀ s ∈ l, s.header.typeflag = '2' →
      (exTame.flatMap inOrder).Pairwise (fun a b => (decide (pathOf a = pathOf s) && decide (pathOf b = pathOf s) &&
        decide (a.header.typeflag ≠ '5') && decide (b.header.typeflag = '5')) = false) := by
    decide +kernel
  intro l hl s hs ht
  exact noReplaced_of (this l hl s hs ht)

theorem load_get {n : Nat} {layers : List (List Entry)} {q : Path} {x : Option Node}
    (h : (loadLayers n layers false).map (fun r => r.toOption.map (fun S => S.get? q)) = some (some x)) (m : Nat) (hm : n ≤ m) :
    ∃ S, loadLayers m layers false = some (.ok S) ∧ S.get? q = x := by
  cases e : loadLayers n layers false with
  | none => rw [e] at h; simp at h
  | some r =>
    rw [e] at h
    cases r with
    | error u => simp [Except.toOption] at h
    | ok S => exact ⟨S, load_mono hm e, by simpa [Except.toOption] using h⟩

/-- The code violates C62.  A directory removed in one layer and created again in the next: the whiteout is dropped and
nothing in the squashed layer hides the old content.  With "foo/a" underneath, the layers one after the other remove it,
the squashed layer does not. -/
theorem C62_violated (n : Nat) (hn : 9 ≤ n) (srt : (Str → Str → Bool) → List Str → List Str) (hs : SortSlice srt)
    (order : Path → List Str → List Str) (ho : PermOrder order) :
    ∃ out, squash n srt order [[exFile ".wh.foo" []], [exDir "foo/", exFile "foo/b" [2]]] = some (.ok out) ∧
      (∃ S, loadLayers n ([[exDir "foo/", exFile "foo/a" [1]]] ++ [[exFile ".wh.foo" []], [exDir "foo/", exFile "foo/b" [2]]]) false = some (.ok S) ∧
        S.get? ["foo".toList, "a".toList] = none) ∧
      (∃ T, loadLayers n ([[exDir "foo/", exFile "foo/a" [1]]] ++ [out]) false = some (.ok T) ∧
        T.get? ["foo".toList, "a".toList] = some ⟨some (exFile "foo/a" [1]).header, [1]⟩) :=
  ⟨[exDir "foo/", exFile "foo/b" [2]], squash_all (by decide +kernel) n hn srt hs order ho,
    load_get (n := 9) (by decide +kernel) n hn, load_get (n := 9) (by decide +kernel) n hn⟩

/-- The code violates C62 (`LinksStay`).  A file is replaced by a directory within the squashed layers, and the base has
a symlink there: the opaque marker that the squashed layer gets takes effect in the directory the symlink points to. -/
theorem C62_violated_symlink (n : Nat) (hn : 9 ≤ n) (srt : (Str → Str → Bool) → List Str → List Str) (hs : SortSlice srt)
    (order : Path → List Str → List Str) (ho : PermOrder order) :
    ∃ out, squash n srt order [[exFile "l" [2]], [exDir "l/"]] = some (.ok out) ∧
      (∃ S, loadLayers n ([[exDir "d/", exFile "d/x" [1], exLink "l" "d"]] ++ [[exFile "l" [2]], [exDir "l/"]]) false = some (.ok S) ∧
        S.get? ["d".toList, "x".toList] = some ⟨some (exFile "d/x" [1]).header, [1]⟩) ∧
      (∃ T, loadLayers n ([[exDir "d/", exFile "d/x" [1], exLink "l" "d"]] ++ [out]) false = some (.ok T) ∧
        T.get? ["d".toList, "x".toList] = none) :=
  ⟨[exDir "l/", ⟨{ opqHeader with name := "l/.wh..wh..opq".toList }, []⟩], squash_all (by decide +kernel) n hn srt hs order ho,
    load_get (n := 9) (by decide +kernel) n hn, load_get (n := 9) (by decide +kernel) n hn⟩

/-- The code violates C62 (`Grounded`).  A file "a" and above it a file "a/b" without an entry for the directory: over a base
with a directory "a" the squashed layer leaves that directory's header in place. -/
theorem C62_violated_header (n : Nat) (hn : 9 ≤ n) (srt : (Str → Str → Bool) → List Str → List Str) (hs : SortSlice srt)
    (order : Path → List Str → List Str) (ho : PermOrder order) :
    ∃ out, squash n srt order [[exFile "a" [1]], [exFile "a/b" [2]]] = some (.ok out) ∧
      (∃ S, loadLayers n ([[exDir "a/"]] ++ [[exFile "a" [1]], [exFile "a/b" [2]]]) false = some (.ok S) ∧
        S.get? ["a".toList] = some ⟨none, []⟩) ∧
      (∃ T, loadLayers n ([[exDir "a/"]] ++ [out]) false = some (.ok T) ∧
        T.get? ["a".toList] = some ⟨some { (exDir "a/").header with name := "a".toList }, []⟩) :=
  ⟨[⟨{ opqHeader with name := "a/.wh..wh..opq".toList }, []⟩, exFile "a/b" [2]], squash_all (by decide +kernel) n hn srt hs order ho,
    load_get (n := 9) (by decide +kernel) n hn, load_get (n := 9) (by decide +kernel) n hn⟩

/-- The code violates C69 as stated: the whiteout ".wh.-a" is written before the opaque marker, so when the squashed layer
is squashed again the opaque marker removes it. -/
theorem C69_violated (n : Nat) (hn : 9 ≤ n) (srt : (Str → Str → Bool) → List Str → List Str) (hs : SortSlice srt)
    (order : Path → List Str → List Str) (ho : PermOrder order) :
    squash n srt order [[exFile ".wh..wh..opq" [], exFile ".wh.-a" []]] = some (.ok [exFile ".wh.-a" [], exFile ".wh..wh..opq" []]) ∧
    squash n srt order [[exFile ".wh.-a" [], exFile ".wh..wh..opq" []]] = some (.ok [exFile ".wh..wh..opq" []]) :=
  ⟨squash_all (by decide +kernel) n hn srt hs order ho, squash_all (by decide +kernel) n hn srt hs order ho⟩

/-- a symlink "a" to "b"; the second layer replaces it by a directory "a" with a whiteout for "f" -/
def exWhThrough : List (List Entry) := [[exDir "b/", exFile "b/f" [1], exLink "a" "b"], [exDir "a/", exFile "a/.wh.f" []]]

/-- **C67** fails without `NoThrough`: the markers of a layer are processed before its other entries, so the marker
"a/.wh.f" is looked up through the symlink "a" that its own layer replaces by a directory, and "b/f", which no entry of
the layer names, is deleted.  Without the marker "b/f" is there. -/
theorem C67_violated (n : Nat) (hn : 9 ≤ n) : (∀ l ∈ exWhThrough, ∀ e ∈ l, ¬ Outside e.header.name) ∧
    (∃ m l, exWhThrough = [[exDir "b/", exFile "b/f" [1], exLink "a" "b"], l ++ [m]] ∧ pathOf m = ["a".toList] ++ [".wh.".toList ++ "f".toList] ∧
      (∃ S, loadLayers n exWhThrough false = some (.ok S) ∧ S.get? ["b".toList, "f".toList] = none) ∧
      ∃ T, loadLayers n [[exDir "b/", exFile "b/f" [1], exLink "a" "b"], l] false = some (.ok T) ∧
        T.get? ["b".toList, "f".toList] = some (nodeOf (exFile "b/f" [1]))) := by
  refine ⟨?_, exFile "a/.wh.f" [], [exDir "a/"], rfl, by decide +kernel, load_get (n := 9) (by decide +kernel) n hn,
    load_get (n := 9) (by decide +kernel) n hn⟩
  intro l hl e he h
  have key : ∀ l ∈ exWhThrough, ∀ e ∈ l, outside (clean e.header.name) = false := by decide +kernel
  rw [← outside_iff, key l hl e he] at h
  cases h

end Squash
