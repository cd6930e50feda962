import Verif.Squash.Hard
/-! C108: hard links survive squashing, if their targets stay and sort before them. -/
namespace Squash
open Go Spec

theorem visible_of {e : Entry} (h : Visible (pathOf e).dropLast) (hm : ¬ isMarkerEntry e) : Visible (pathOf e) := by
  rcases snoc_cases (pathOf e) with h1 | ⟨d, c, h1⟩
  · rw [h1]; intro c hc; simp at hc
  · rw [h1, List.dropLast_concat] at h
    rw [h1, visible_snoc]
    exact ⟨h, fun h2 => hm ⟨c, by rw [h1]; simp, h2⟩⟩

theorem not_marker_of {e : Entry} (h : Visible (pathOf e)) : ¬ isMarkerEntry e := by
  rintro ⟨c, h1, h2⟩
  exact h c (List.mem_of_getLast? h1) h2

/-- where the hard links of a view come from -/
theorem hard_origin : ∀ (es : List Entry) (V : View) (q : Path) (nd : Node), es.foldl apply V q = some nd → isHardNode nd →
    V q = some nd ∨ ∃ e ∈ es, isHardLink e ∧ pathOf e = q ∧ nd = nodeOf e := by
  intro es
  induction es with
  | nil => intro V q nd h _; exact .inl h
  | cons x es ih =>
    intro V q nd h hh
    rcases ih (apply V x) q nd h hh with h1 | ⟨e, h1, h2⟩
    · rcases applyAt_cases (pathOf x) q with k | ⟨hnm, rfl, k⟩ | k | k | k
      · rw [show apply V x q = some (asDir (V q)) from k V _] at h1
        injection h1 with h1
        rw [← h1] at hh
        exact absurd hh (asDir_not_hard _)
      · rw [show apply V x (pathOf x) = some (nodeOf x) from k V _] at h1
        injection h1 with h1
        right
        refine ⟨x, by simp, ⟨?_, ?_⟩, rfl, h1.symm⟩
        · rw [← h1] at hh; exact nodeOf_hard.1 hh
        · rintro ⟨c, a, b⟩; exact hnm c a b
      · by_cases hf : isFile (nodeOf x)
        · rw [show apply V x q = none from (k V _).1 hf] at h1; cases h1
        · rw [show apply V x q = V q from (k V _).2 hf] at h1; exact .inl h1
      · rw [show apply V x q = none from k V _] at h1; cases h1
      · rw [show apply V x q = V q from k V _] at h1; exact .inl h1
    · exact .inr ⟨e, by simp [h1], h2⟩

theorem mem_split {α : Type} {a : α} {l : List α} (h : a ∈ l) : ∃ A B, l = A ++ a :: B := List.append_of_mem h

/-- the node of a hard link's target in the squashed tree -/
theorem kept_target {layers : List (List Entry)} (ht : Tame layers) (hk : LinksKept (layers.flatMap inOrder)) {S : FS}
    (hb : Built (linksOf layers) (layers.flatMap inOrder) S) {e : Entry} (he : e ∈ layers.flatMap inOrder) (hh : isHardLink e) :
    Visible (targetOf e.header) ∧ ".".toList ∉ targetOf e.header ∧
      ∃ f, S.get? (targetOf e.header) = some (nodeOf f) ∧ f.header.typeflag ≠ '1' ∧ f.header.typeflag ≠ '5' := by
  obtain ⟨A, B, h0⟩ := mem_split he
  obtain ⟨A1, f, A2, h1, h2, h3, h4, h5, h6⟩ := hk A e B h0 hh
  have hf : f ∈ layers.flatMap inOrder := by rw [h0, h1]; simp
  obtain ⟨l, hl, hfl⟩ := mem_flat.mp hf
  have hv := visible_of (ht.regular l hl f hfl).inner h3
  have hg : S.get? (pathOf f) = some (nodeOf f) := by
    rw [hb.sim.view _ hv, h0, h1, List.append_assoc, List.foldl_append, List.cons_append, List.foldl_cons]
    exact foldl_leaves _ _ h6 (apply_self h3)
  rw [← h2]
  refine ⟨hv, fun hd => ?_, f, hg, h4, h5⟩
  exact (hb.wf.plain _ (has_of hg) _ hd).2.1 (by decide)

theorem linksKept_out {layers : List (List Entry)} (ht : Tame layers) (hk : LinksKept (layers.flatMap inOrder))
    (hbf : ∀ l ∈ layers, ∀ e ∈ l, isHardLink e → before (targetOf e.header) (pathOf e)) {S : FS}
    (hb : Built (linksOf layers) (layers.flatMap inOrder) S) {srt : (Str → Str → Bool) → List Str → List Str} (hs : SortSlice srt)
    {order : Path → List Str → List Str} (ho : PermOrder order) :
    LinksKept (inOrder (writeTo srt order S (depth S) [])) := by
  intro A e B hAB hh
  have hF : ∃ out, out = writeTo srt order S (depth S) [] := ⟨_, rfl⟩
  obtain ⟨out, hout⟩ := hF
  rw [← hout] at hAB
  have hpw : out.Pairwise (fun a b => before (comps a.header.name) (comps b.header.name)) := by
    rw [hout]
    exact writeTo_pairwise hs ho hb.wf.inv (fun q hq c hc => (hb.wf.plain q hq c hc).1) _ _
  have hmem : ∀ x ∈ out, ∃ p, x ∈ nodeEntry S p ∧ pathOf x = p ∧ comps x.header.name = p := by
    intro x hx
    rw [hout] at hx
    obtain ⟨p, hp⟩ := mem_writeTo _ _ hx
    rw [List.nil_append] at hp
    refine ⟨p, hp, (out_entry hb.wf hp).1, ?_⟩
    rw [comps_nodeEntry hb.wf.inv hp, List.filter_eq_self]
    intro c hc
    simpa using (hb.wf.plain p (has_of_nodeEntry hp) c hc).1
  have hpw' : out.Pairwise (fun a b => before (pathOf a) (pathOf b)) := by
    refine hpw.imp_of_mem ?_
    intro a b ha hb' h
    obtain ⟨p, _, h1, h2⟩ := hmem a ha
    obtain ⟨q, _, h3, h4⟩ := hmem b hb'
    rw [h1, h3]; rw [h2, h4] at h; exact h
  -- the visible entries of the output
  have hvis : ∀ x ∈ out, ¬ isMarkerEntry x → Visible (pathOf x) := by
    intro x hx hm
    obtain ⟨p, h1, h2, _⟩ := hmem x hx
    refine visible_of ?_ hm
    rw [h2]
    rcases snoc_cases p with h3 | ⟨d, c, h3⟩
    · rw [h3]; intro c hc; simp at hc
    · rw [h3, List.dropLast_concat]
      refine hb.wf.inner d c ?_
      rw [← h3]; exact has_of_nodeEntry h1
  have hnode : ∀ x ∈ out, ¬ isMarkerEntry x → S.get? (pathOf x) = some (nodeOf x) := by
    intro x hx hm
    obtain ⟨p, h1, h2, _⟩ := hmem x hx
    obtain ⟨_, _, nd, hd, h3, _, _, h6⟩ := out_entry hb.wf h1
    rw [h2, h3, h6 (by rw [← h2]; exact hvis x hx hm)]
  -- the link is one of the layers' links
  have heo : e ∈ out := mem_inOrder.mp (by rw [hAB]; simp)
  have hev := hvis e heo hh.2
  have heg := hnode e heo hh.2
  obtain ⟨e0, he0, hp0, hn0⟩ : ∃ e0 ∈ layers.flatMap inOrder, pathOf e0 = pathOf e ∧ nodeOf e = nodeOf e0 := by
    rcases hb.origin _ _ _ heg rfl with h | ⟨d, h1, -⟩
    · exact h
    · exact absurd (hev opqName (by rw [h1]; simp)) (by simp only [Decidable.not_not]; decide)
  have hdr : e0.header.typeflag = e.header.typeflag ∧ e0.header.linkname = e.header.linkname := by
    simp only [nodeOf, Node.mk.injEq, Option.some.injEq, Header.mk.injEq] at hn0
    exact ⟨hn0.1.2.1.symm, hn0.1.2.2.1.symm⟩
  have hh0 : isHardLink e0 := ⟨by rw [hdr.1]; exact hh.1, not_marker_of (by rw [hp0]; exact hev)⟩
  have ht0 : targetOf e0.header = targetOf e.header := by unfold targetOf; rw [hdr.2]
  have hbe : before (targetOf e.header) (pathOf e) := by
    obtain ⟨l, hl, hel⟩ := mem_flat.mp he0
    rw [← ht0, ← hp0]; exact hbf l hl e0 hel hh0
  obtain ⟨tv, _, f, hg, hf1, hf5⟩ := kept_target ht hk hb he0 hh0
  rw [ht0] at tv hg
  -- the target is in the output
  obtain ⟨f', hf'⟩ : ∃ f', f' ∈ nodeEntry S (targetOf e.header) := ⟨_, mem_nodeEntry.mpr ⟨_, _, hg, rfl⟩⟩
  have hfo : f' ∈ out := by
    rw [hout]
    exact mem_writeTo_of hs ho hb.wf.inv _ [] _ (lt_depth (has_of hg)) hf' (has_of hg)
  obtain ⟨hfp, _, nd, hd, k1, k2, k3, k4⟩ := out_entry hb.wf hf'
  have hfn : nodeOf f' = nodeOf f := by
    rw [k4 tv]; rw [hg] at k1; injection k1 with k1; exact k1.symm
  have hft : f'.header.typeflag = f.header.typeflag := by
    simp only [nodeOf, Node.mk.injEq, Option.some.injEq, Header.mk.injEq] at hfn
    exact hfn.1.2.1
  have hfm : ¬ isMarkerEntry f' := not_marker_of (by rw [hfp]; exact tv)
  -- where it is
  have hFp : (out.filter (fun e => ¬ isMarkerEntry e)).Pairwise (fun a b => before (pathOf a) (pathOf b)) :=
    hpw'.sublist List.filter_sublist
  obtain ⟨A', hA, hFe⟩ : ∃ A', A = out.filter (fun e => isMarkerEntry e) ++ A' ∧
      out.filter (fun e => ¬ isMarkerEntry e) = A' ++ e :: B := by
    unfold inOrder at hAB
    rcases List.append_eq_append_iff.mp hAB with ⟨a, h1, h2⟩ | ⟨a, h1, h2⟩
    · exact ⟨a, h1, h2⟩
    · cases a with
      | nil =>
        simp only [List.append_nil, List.nil_append] at h1 h2
        exact ⟨[], by rw [h1, List.append_nil], h2.symm⟩
      | cons y a =>
        simp only [List.cons_append, List.cons.injEq] at h2
        obtain ⟨rfl, _⟩ := h2
        have : e ∈ out.filter (fun e => isMarkerEntry e) := by rw [h1]; simp
        rw [List.mem_filter] at this
        exact absurd (by simpa using this.2) hh.2
  have hfF : f' ∈ A' ++ e :: B := by
    rw [← hFe, List.mem_filter]; exact ⟨hfo, by simpa using hfm⟩
  rw [hFe] at hFp
  have hfA : f' ∈ A' := by
    rcases List.mem_append.mp hfF with h | h
    · exact h
    · rcases List.mem_cons.mp h with h | h
      · rw [h] at hfp; rw [hfp] at hbe; exact absurd hbe (before_irrefl _)
      · rw [List.pairwise_append, List.pairwise_cons] at hFp
        have := hFp.2.1.1 f' h
        rw [hfp] at this
        exact absurd this (before_asymm _ _ hbe)
  obtain ⟨A1, A2, rfl⟩ := mem_split hfA
  refine ⟨out.filter (fun e => isMarkerEntry e) ++ A1, f', A2, by rw [hA]; simp, hfp, hfm, by rw [hft]; exact hf1,
    by rw [hft]; exact hf5, ?_⟩
  intro x hx
  have hxF : x ∈ out.filter (fun e => ¬ isMarkerEntry e) := by
    rw [hFe, List.append_assoc, List.cons_append]
    exact List.mem_append_right _ (List.mem_cons_of_mem _ hx)
  rw [List.mem_filter] at hxF
  have hxm : ¬ isMarkerEntry x := by simpa using hxF.2
  have hxb : before (pathOf f') (pathOf x) := by
    rw [List.append_assoc, List.pairwise_append, List.cons_append, List.pairwise_cons] at hFp
    exact hFp.2.1.1 x hx
  have hxg := hnode x hxF.1 hxm
  have hne : pathOf x ≠ pathOf f' := by intro h; rw [h] at hxb; exact before_irrefl _ hxb
  have hfg : S.get? (pathOf f') = some (nodeOf f') := hnode f' hfo hfm
  have nochild : ∀ {p q : Path} {a : Node}, S.get? p = some a → isFile a → p <+: q → q ≠ p → S.get? q = none := by
    intro p q a h1 h2 h3 h4
    refine hb.wf.inv.noDesc (hb.wf.inv.leaf p ?_) h3 h4
    unfold FS.nonDir; rw [h1]; exact (isFile_iff a).mp h2
  have hxv := hvis x hxF.1 hxm
  refine ⟨hne, ?_, ?_, ?_, ?_⟩
  · intro h1 h2
    rw [nochild hfg h1 h2 hne] at hxg; cases hxg
  · intro h1 _ h2
    rw [nochild hxg h1 h2 (Ne.symm hne)] at hfg; cases hfg
  · intro d h1 _
    exact absurd (hxv ".wh..wh..opq".toList (by rw [h1]; simp)) (by simp only [Decidable.not_not]; decide)
  · intro d y h1 _
    exact hxv (".wh.".toList ++ y) (by rw [h1]; simp) (List.prefix_append _ _)

/-- **C108** for tame layers in which the target of every hard link stays what it was when the link was made, and sorts
before the link: squashing succeeds, and on every extracted file system, extracting the squashed layer succeeds just as
extracting the layers one after the other does, and gives the same files: under the name of a hard link there is the file
that it linked to.  Missing: links whose target sorts after them (`C108_violated_order`), or is replaced or removed in a
later layer (`C108_violated_replaced`, `C108_violated_removed`), or lies below the squashed layers. -/
theorem C108_squash_partial (layers : List (List Entry)) (h : Tame layers) (hk : LinksKept (layers.flatMap inOrder))
    (hb : ∀ l ∈ layers, ∀ e ∈ l, isHardLink e → before (targetOf e.header) (pathOf e)) (n : Nat) (hn : 3 ≤ n)
    (srt : (Str → Str → Bool) → List Str → List Str) (hs : SortSlice srt) (order : Path → List Str → List Str)
    (ho : PermOrder order) :
    ∃ out, squash n srt order layers = some (.ok out) ∧
      ∀ V : View, Extracted V → ∃ E E', extractLayers V layers = some E ∧ extractLayer V out = some E' ∧
        ∀ q, Proper q → E' q = E q := by
  obtain ⟨S, _, h2, h3⟩ := tame_squash h hn srt order
  obtain ⟨out, h4, h5⟩ := C62_squash_partial layers h n hn srt hs order ho
  rw [h3] at h4
  simp only [Option.some.injEq, Except.ok.injEq] at h4
  refine ⟨out, by rw [h3, h4], ?_⟩
  intro V hV
  obtain ⟨E, e1, e2⟩ := extract_look hV hk
  obtain ⟨E', e3, e4⟩ := extract_look hV (linksKept_out h hk hb h2 hs ho)
  rw [h4] at e3 e4
  refine ⟨E, E', e1, e3, ?_⟩
  have hO : ∀ q, Proper q → (inOrder out).foldl apply V q = (layers.flatMap inOrder).foldl apply V q := by
    intro q hq
    rw [← foldl_layers]; exact h5 V hV.root q hq
  intro q hq
  rw [e2, e4]
  by_cases hh : ∃ nd, (layers.flatMap inOrder).foldl apply V q = some nd ∧ isHardNode nd
  · obtain ⟨nd, g1, hd, g2, g3⟩ := hh
    rw [look_hard g1 g2 g3, look_hard ((hO q hq).trans g1) g2 g3]
    refine hO _ ?_
    rcases hard_origin _ _ _ _ g1 ⟨hd, g2, g3⟩ with h6 | ⟨e, h6, h7, _, h8⟩
    · exact absurd ⟨hd, g2, g3⟩ (hV.nohard q nd h6)
    · obtain ⟨k1, k2, _⟩ := kept_target h hk h2 h6 h7
      rw [h8] at g2
      simp only [nodeOf, Option.some.injEq] at g2
      rw [← g2]
      exact ⟨k1, k2⟩
  · have h1 : ∀ nd, (layers.flatMap inOrder).foldl apply V q = some nd → ¬ isHardNode nd := fun nd a b => hh ⟨nd, a, b⟩
    rw [look_plain h1, look_plain (by rw [hO q hq]; exact h1), hO q hq]

/-- a hard link -/
def exHard (name target : String) : Entry :=
  ⟨{ name := name.toList, typeflag := '1', linkname := target.toList, size := 0, mode := 0o644, other := [] }, []⟩

/-- a stack with two hard links, the second made in the upper layer to a file of the lower one -/
def exHardLayers : List (List Entry) :=
  [[exDir "bin/", exFile "bin/a" [1], exHard "bin/b" "bin/a", exFile "z" [2]],
   [exFile ".wh.z" [], exHard "c" "bin/a", exFile "d" [3]]]

theorem exHard_tame : Tame exHardLayers := by
  refine ⟨?_, by decide +kernel, ?_, noRevival_of (by decide +kernel), grounded_of ?_⟩
  · intro l hl e he
    rw [← outside_iff]
    have : ∀ l ∈ exHardLayers, ∀ e ∈ l, outside (clean e.header.name) = false := by decide +kernel
    rw [this l hl e he]; simp
  · intro l hl e he
    have : ∀ l ∈ exHardLayers, ∀ e ∈ l, regularB e = true := by decide +kernel
    exact regular_dec (this l hl e he)
  · have : ∀ i, i < (exHardLayers.flatMap inOrder).length → ((exHardLayers.flatMap inOrder)[i]?).all (fun e => (List.range (pathOf e).length).all
        (fun k => (((exHardLayers.flatMap inOrder).take i).foldl apply emptyView ((pathOf e).take k)).any (fun nd => nd.nonDir) == false)) = true := by
      decide +kernel
    intro i hi e he k hk
    have := this i hi
    rw [he] at this
    simp only [Option.all_some, List.all_eq_true, List.mem_range, beq_iff_eq] at this
    exact this k hk

def Spec.leavesB (e : Entry) (p : List Str) (nd : Node) : Bool :=
  decide (pathOf e ≠ p) && (!decide (isFile nd) || !decide (p <+: pathOf e)) &&
    (!decide (isFile (nodeOf e)) || decide (isMarkerEntry e) || !decide (pathOf e <+: p)) &&
    ((pathOf e).getLast?.all fun c => (decide (c ≠ ".wh..wh..opq".toList) || !decide ((pathOf e).dropLast <+: p) || decide ((pathOf e).dropLast = p)) &&
      (!decide (isMarker c) || !decide ((pathOf e).dropLast ++ [c.drop 4] <+: p)))

theorem leaves_of {e : Entry} {p : List Str} {nd : Node} (h : leavesB e p nd = true) : Leaves e p nd := by
  unfold leavesB at h
  simp only [Bool.and_eq_true, Bool.or_eq_true, decide_eq_true_eq, Bool.not_eq_true', decide_eq_false_iff_not] at h
  obtain ⟨⟨⟨h1, h2⟩, h3⟩, h4⟩ := h
  refine ⟨h1, fun h => h2.resolve_left (fun a => a h), fun h h' => ?_, ?_, ?_⟩
  · rcases h3 with (h3 | h3) | h3
    · exact absurd h h3
    · exact absurd h3 h'
    · exact h3
  · intro d hd hp
    rw [hd] at h4
    simp only [List.getLast?_append, List.getLast?_singleton, Option.some_or, Option.all_some, List.dropLast_concat,
      Bool.and_eq_true, Bool.or_eq_true, decide_eq_true_eq, Bool.not_eq_true', decide_eq_false_iff_not, ne_eq,
      not_true_eq_false, false_or] at h4
    exact h4.1.resolve_left (fun a => a hp)
  · intro d x hd hp
    rw [hd] at h4
    simp only [List.getLast?_append, List.getLast?_singleton, Option.some_or, Option.all_some, List.dropLast_concat,
      Bool.and_eq_true, Bool.or_eq_true, decide_eq_true_eq, Bool.not_eq_true', decide_eq_false_iff_not] at h4
    rcases h4.2 with h5 | h5
    · exact h5 (List.prefix_append _ _)
    · exact h5 hp

def Spec.keptB (es : List Entry) : Bool :=
  (List.range es.length).all fun i => es[i]?.all fun e => !decide (isHardLink e) ||
    (List.range i).any fun j => es[j]?.any fun f => decide (pathOf f = targetOf e.header) && !decide (isMarkerEntry f) &&
      decide (f.header.typeflag ≠ '1') && decide (f.header.typeflag ≠ '5') && (es.drop (j + 1)).all fun x => leavesB x (pathOf f) (nodeOf f)

theorem linksKept_of {es : List Entry} (h : keptB es = true) : LinksKept es := by
  intro A e B hes hh
  unfold keptB at h
  rw [List.all_eq_true] at h
  have := h A.length (by rw [List.mem_range, hes]; simp)
  rw [hes, List.getElem?_append_right (Nat.le_refl _), Nat.sub_self] at this
  simp only [List.getElem?_cons_zero, Option.all_some, Bool.or_eq_true, Bool.not_eq_true', decide_eq_false_iff_not] at this
  rcases this with h1 | h1
  · exact absurd hh h1
  · rw [List.any_eq_true] at h1
    obtain ⟨j, hj, h2⟩ := h1
    rw [List.mem_range] at hj
    rw [List.getElem?_append_left hj] at h2
    rw [List.getElem?_eq_getElem hj] at h2
    simp only [Option.any_some, Bool.and_eq_true, decide_eq_true_eq, Bool.not_eq_true', decide_eq_false_iff_not] at h2
    obtain ⟨⟨⟨⟨h3, h4⟩, h5⟩, h6⟩, h7⟩ := h2
    refine ⟨A.take j, A[j], A.drop (j + 1), by rw [List.getElem_cons_drop, List.take_append_drop], h3, h4, h5, h6, ?_⟩
    intro x hx
    rw [List.all_eq_true] at h7
    refine leaves_of (h7 x ?_)
    rw [List.drop_append_of_le_length (by omega)]
    exact hx

instance (c d : Str) : Decidable (sibBefore c d) := by unfold sibBefore; infer_instance

instance decBefore : (p q : List Str) → Decidable (before p q)
  | [], [] => .isFalse (by simp [before])
  | [], _ :: _ => .isTrue (by simp [before])
  | _ :: _, [] => .isFalse (by simp [before])
  | c :: p, d :: q => by
    have := decBefore p q
    rw [before]; infer_instance

/-- the hypotheses of `C108_squash_partial` can be met -/
example : Tame exHardLayers ∧ LinksKept (exHardLayers.flatMap inOrder) ∧
    (∀ l ∈ exHardLayers, ∀ e ∈ l, isHardLink e → before (targetOf e.header) (pathOf e)) ∧
    (∃ l ∈ exHardLayers, ∃ e ∈ l, isHardLink e) ∧ Extracted emptyView :=
  ⟨exHard_tame, linksKept_of (by decide +kernel), by decide +kernel, by decide +kernel,
    ⟨rootDir_empty, by
      intro q nd h
      unfold emptyView at h
      by_cases hq : q = []
      · rw [if_pos hq] at h
        injection h with h
        rw [← h]; rintro ⟨hd, h1, _⟩; cases h1
      · rw [if_neg hq] at h; cases h⟩⟩

/-- The code violates C108 (order).  A layer in which the hard link "a" follows its target "b" extracts; the squashed
layer lists "a" first, and extracting it on an empty file system fails. -/
theorem C108_violated_order (n : Nat) (hn : 9 ≤ n) (srt : (Str → Str → Bool) → List Str → List Str) (hs : SortSlice srt)
    (order : Path → List Str → List Str) (ho : PermOrder order) :
    ∃ out, squash n srt order [[exFile "b" [1], exHard "a" "b"]] = some (.ok out) ∧
      (extractLayers emptyView [[exFile "b" [1], exHard "a" "b"]]).bind (fun E => E ["a".toList]) =
        some ⟨some (exFile "b" [1]).header, [1]⟩ ∧
      (extractLayer emptyView out).isNone :=
  ⟨[exHard "a" "b", exFile "b" [1]], squash_all (by decide +kernel) n hn srt hs order ho, by decide +kernel, by decide +kernel⟩

/-- The code violates C108 (replaced target).  "b" is linked to "a", then a later layer replaces "a": the layers leave the
old content under "b", the squashed layer has the new one there. -/
theorem C108_violated_replaced (n : Nat) (hn : 9 ≤ n) (srt : (Str → Str → Bool) → List Str → List Str) (hs : SortSlice srt)
    (order : Path → List Str → List Str) (ho : PermOrder order) :
    ∃ out, squash n srt order [[exFile "a" [1], exHard "b" "a"], [exFile "a" [2]]] = some (.ok out) ∧
      (extractLayers emptyView [[exFile "a" [1], exHard "b" "a"], [exFile "a" [2]]]).bind (fun E => E ["b".toList]) =
        some ⟨some (exFile "a" [1]).header, [1]⟩ ∧
      (extractLayer emptyView out).bind (fun E => E ["b".toList]) = some ⟨some (exFile "a" [2]).header, [2]⟩ :=
  ⟨[exFile "a" [2], exHard "b" "a"], squash_all (by decide +kernel) n hn srt hs order ho, by decide +kernel, by decide +kernel⟩

/-- The code violates C108 (removed target).  "b" is linked to "a", then a later layer removes "a": the layers leave the
content under "b", extracting the squashed layer fails. -/
theorem C108_violated_removed (n : Nat) (hn : 9 ≤ n) (srt : (Str → Str → Bool) → List Str → List Str) (hs : SortSlice srt)
    (order : Path → List Str → List Str) (ho : PermOrder order) :
    ∃ out, squash n srt order [[exFile "a" [1], exHard "b" "a"], [exFile ".wh.a" []]] = some (.ok out) ∧
      (extractLayers emptyView [[exFile "a" [1], exHard "b" "a"], [exFile ".wh.a" []]]).bind (fun E => E ["b".toList]) =
        some ⟨some (exFile "a" [1]).header, [1]⟩ ∧
      (extractLayer emptyView out).isNone :=
  ⟨[exFile ".wh.a" [], exHard "b" "a"], squash_all (by decide +kernel) n hn srt hs order ho, by decide +kernel, by decide +kernel⟩

end Squash
