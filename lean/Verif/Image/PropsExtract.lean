import Verif.Image.Props
import Verif.Squash.PropsHard
/-! C110: the layer of a directory, extracted, is a copy of the directory, hard links included. -/
namespace Onto
open Go Fsutil
open Squash (Entry Node)
open Squash.Spec (View Visible Extracted extractLayer isHardLink targetOf pathOf nodeOf isFile TreeLayer PutIn asDir)

/-- the names of one file agree on what it is: type, size, mode, content and symlink target (the operating system sees to it) -/
def Spec.OneFile (walk : List WalkItem) : Prop :=
  ∀ a ∈ Fsutil.Spec.tree walk, ∀ b ∈ Fsutil.Spec.tree walk, a.file = b.file → a.content = b.content ∧ a.target = b.target ∧
    ∀ i j, a.info = some i → b.info = some j → i.typeflag = j.typeflag ∧ i.size = j.size ∧ i.mode = j.mode

/-- at `p` there is a file with the type, size and mode of `i`, the content if it is a regular file, and the target if it is a
symlink -/
def Spec.HasNode (E : View) (p : List Str) (i : Hdr) (content : Option Bytes) (target : Option Str) : Prop :=
  ∃ h b, E p = some ⟨some h, b⟩ ∧ h.typeflag = i.typeflag ∧ h.size = i.size ∧ h.mode = i.mode ∧
    (i.typeflag = '0' → content = some b) ∧ (i.typeflag ≠ '0' → b = []) ∧
    (i.typeflag = '2' → target = some h.linkname)

/-- the hard links of a layer that describes a tree, if they name earlier files that are not hard links -/
theorem tree_linksKept {l : List Entry} (h : TreeLayer l)
    (hl : ∀ A e B, l = A ++ e :: B → isHardLink e → ∃ f ∈ A, pathOf f = targetOf e.header ∧ f.header.typeflag ≠ '1' ∧
      f.header.typeflag ≠ '5') : Squash.Spec.LinksKept l := by
  intro A e B hes he
  obtain ⟨f, hf, h1, h2, h3⟩ := hl A e B hes he
  obtain ⟨A1, A2, rfl⟩ := List.append_of_mem hf
  have hfl : f ∈ l := by rw [hes]; simp
  refine ⟨A1, f, A2, rfl, h1, Squash.not_marker_of_visible (h.visible f hfl), h2, h3, ?_⟩
  intro x hx
  have hxl : x ∈ l := by
    rw [hes, List.append_assoc, List.cons_append]
    exact List.mem_append_right _ (List.mem_cons_of_mem _ hx)
  have hne : pathOf x ≠ pathOf f := by
    have := h.once
    rw [hes, List.append_assoc, List.cons_append, List.pairwise_append, List.pairwise_cons] at this
    exact fun e => this.2.1.1 x hx e.symm
  have hv := h.visible x hxl
  refine ⟨hne, ?_, ?_, ?_, ?_⟩
  · intro _ hp
    exact h3 (h.tree f hfl x hxl hp (Ne.symm hne))
  · intro hff _ hp
    exact Squash.isFile_nodeOf.mp hff (h.tree x hxl f hfl hp hne)
  · intro d hd _
    exact absurd (by decide) (hv ".wh..wh..opq".toList (by rw [hd]; simp))
  · intro d y hd _
    exact hv (".wh.".toList ++ y) (by rw [hd]; simp) (List.prefix_append _ _)

/-- extracting such a layer -/
theorem tree_extract {l : List Entry} (h : TreeLayer l)
    (hl : ∀ A e B, l = A ++ e :: B → isHardLink e → ∃ f ∈ A, pathOf f = targetOf e.header ∧ f.header.typeflag ≠ '1' ∧
      f.header.typeflag ≠ '5') {V : View} (hV : Extracted V) :
    ∃ E, extractLayer V l = some E ∧ (∀ e ∈ l, e.header.typeflag ≠ '1' → E (pathOf e) = some (nodeOf e)) ∧
      (∀ e ∈ l, e.header.typeflag = '1' → E (pathOf e) = E (targetOf e.header)) ∧
      (∀ q, (∀ e ∈ l, ¬ q <+: pathOf e ∧ (e.header.typeflag ≠ '5' → ¬ pathOf e <+: q)) → E q = V q) := by
  have hk := tree_linksKept h hl
  obtain ⟨E, e1, e2⟩ := Squash.extract_look hV hk
  have hput : PutIn V (l.foldl Squash.Spec.apply V) l := by
    have := Squash.applyLayer_putIn h V
    unfold Squash.Spec.applyLayer at this
    rwa [Squash.inOrder_visible h.visible] at this
  have plain : ∀ e ∈ l, e.header.typeflag ≠ '1' → E (pathOf e) = some (nodeOf e) := by
    intro e he ht
    rw [e2, Squash.look_plain, hput.file e he]
    intro nd hnd
    rw [hput.file e he] at hnd
    injection hnd with hnd
    rw [← hnd, Squash.nodeOf_hard]
    exact ht
  refine ⟨E, ?_, plain, ?_, ?_⟩
  · unfold extractLayer
    rw [Squash.inOrder_visible h.visible]; exact e1
  · intro e he ht
    obtain ⟨A, B, hes⟩ := List.append_of_mem he
    obtain ⟨f, hf, h1, h2, h3⟩ := hl A e B hes ⟨ht, Squash.not_marker_of_visible (h.visible e he)⟩
    have hfl : f ∈ l := by rw [hes]; simp [hf]
    have g : l.foldl Squash.Spec.apply V (targetOf e.header) = some (nodeOf f) := by rw [← h1]; exact hput.file f hfl
    have g2 : E (targetOf e.header) = some (nodeOf f) := by rw [← h1]; exact plain f hfl h2
    rw [g2, e2, Squash.look_hard (hput.file e he) rfl ht]
    exact g
  · intro q hq
    rw [e2, Squash.look_plain, hput.other q hq]
    intro nd hnd
    rw [hput.other q hq] at hnd
    exact hV.nohard q nd hnd

/-- **C110** for directories without names of whiteout markers: on every extracted file system, extracting the layer that
`LayerFromDir` makes of a directory succeeds.  Afterwards every name in the directory, also a further name of a file that has
several, is below the prefix with the type, size, mode, content and symlink target it has in the directory; the names of one file
name one file again; the elements of the prefix are directories; and all else is as it was. -/
theorem C110_extract_partial {m : Nat} {accepts : Hdr → Bool} {pre : Option Prefix} {chown : Option Ownership} {zero clamp : Int}
    {walk : List WalkItem} {es : List (Hdr × Bytes)} {cs : List Str} (hp : Spec.PrefixElems pre cs) (hw : Spec.WalkTree walk)
    (hone : Spec.OneFile walk) (hinfo : ∀ w ∈ walk, ∀ i, w.info = some i → i.typeflag ≠ '1')
    (h : layerFromDir m accepts pre chown zero clamp walk = some (.ok es)) (rest : Hdr → Str) (V : View) (hV : Extracted V) :
    ∃ E, extractLayer V (es.map (Spec.entry rest)) = some E ∧
      (∀ w ∈ Fsutil.Spec.tree walk, ∀ rs, Spec.Named w.rel rs →
        ∃ i, w.info = some i ∧ Spec.HasNode E (cs ++ rs) i w.content w.target) ∧
      (∀ w ∈ Fsutil.Spec.tree walk, ∀ w' ∈ Fsutil.Spec.tree walk, w.file = w'.file → ∀ rs rs', Spec.Named w.rel rs → Spec.Named w'.rel rs' →
        E (cs ++ rs) = E (cs ++ rs')) ∧
      (∀ k, k < cs.length → ∃ h b, E (cs.take (k + 1)) = some ⟨some h, b⟩ ∧ h.typeflag = '5') ∧
      (∀ q, ¬ q <+: cs → (∀ w ∈ Fsutil.Spec.tree walk, ∀ rs, Spec.Named w.rel rs → ¬ q <+: cs ++ rs ∧
        ((∀ i, w.info = some i → i.typeflag ≠ typeDir) → ¬ cs ++ rs <+: q)) → E q = V q) := by
  have ht := dir_tree hp hw h
  have htl := tree_layer (rest := rest) ht
  obtain ⟨ps, ts, hes, hps, hdir, hts, hnm⟩ := prefix_entries hp hw h
  have hlen := (walkEntries_get hts).1
  obtain ⟨ps', ts', hes', _, hl', hlinks⟩ := C61_hardlinks hinfo h
  have hsame : ps' = ps ∧ ts' = ts := List.append_inj' (hes'.symm.trans hes) (by omega)
  obtain ⟨rfl, rfl⟩ := hsame
  have hpath : ∀ i (hi : i < ts'.length) (hi2 : i < (Fsutil.Spec.tree walk).length) rs, Spec.Named (Fsutil.Spec.tree walk)[i].rel rs →
      pathOf (Spec.entry rest ts'[i]) = cs ++ rs := by
    intro i hi hi2 rs hr
    obtain ⟨_, _, e1, _⟩ := walk_entry hts i hi hi2
    exact named_path (by rw [e1]; exact hnm _ (List.getElem_mem hi2) rs hr)
  have hinj : ∀ i j (hi : i < (Fsutil.Spec.tree walk).length) (hj : j < (Fsutil.Spec.tree walk).length),
      (Fsutil.Spec.tree walk)[i].rel = (Fsutil.Spec.tree walk)[j].rel → i = j := by
    intro i j hi hj e
    exact (List.Nodup.getElem_inj_iff hw.once (i := i) (j := j) (hi := by simpa using hi) (hj := by simpa using hj)).mp (by simpa using e)
  -- an earlier name of a file that has another is not that of a directory
  have hnodir : ∀ i j (hi : i < ts'.length) (hj : j < ts'.length) (hi2 : i < (Fsutil.Spec.tree walk).length) (hj2 : j < (Fsutil.Spec.tree walk).length),
      j ≠ i → (Fsutil.Spec.tree walk)[j].file = (Fsutil.Spec.tree walk)[i].file → ¬ ∃ x, (Fsutil.Spec.tree walk)[j].info = some x ∧ x.typeflag = typeDir := by
    intro i j hi hj hi2 hj2 hne hf hd
    exact hne (hinj j i hj2 hi2 (hw.single _ (List.getElem_mem hj2) _ (List.getElem_mem hi2) hf hd))
  have hL : ∀ A e B, es.map (Spec.entry rest) = A ++ e :: B → isHardLink e → ∃ f ∈ A, pathOf f = targetOf e.header ∧
      f.header.typeflag ≠ '1' ∧ f.header.typeflag ≠ '5' := by
    intro A e B hA he
    obtain ⟨A0, B0, hs1, rfl, hs2⟩ := List.map_eq_append_iff.mp hA
    obtain ⟨e0, B1, rfl, rfl, rfl⟩ := List.map_eq_cons_iff.mp hs2
    have hnp : e0 ∉ ps' := fun hm => by
      have := hdir e0 hm
      have h1 : e0.1.typeflag = '1' := he.1
      rw [h1] at this; exact absurd this (by decide)
    -- it is one of the tree's entries
    rw [hes] at hs1
    obtain ⟨A', hA0, hts'⟩ : ∃ A', A0 = ps' ++ A' ∧ ts' = A' ++ e0 :: B1 := by
      rcases List.append_eq_append_iff.mp hs1 with ⟨a, h1, h2⟩ | ⟨a, h1, h2⟩
      · exact ⟨a, h1, h2⟩
      · cases a with
        | nil =>
          simp only [List.append_nil, List.nil_append] at h1 h2
          exact ⟨[], by rw [h1, List.append_nil], h2.symm⟩
        | cons y a =>
          simp only [List.cons_append, List.cons.injEq] at h2
          obtain ⟨rfl, _⟩ := h2
          exact absurd (by rw [h1]; simp) hnp
    have hi : A'.length < ts'.length := by rw [hts']; simp
    have hget : ts'[A'.length] = e0 := by simp [hts']
    rcases hlinks A'.length hi with ⟨_, h2, _⟩ | ⟨_, _, j, hj, hf, hln, hnl, _⟩
    · rw [hget] at h2
      exact absurd he.1 h2
    · have hj1 : j < ts'.length := by omega
      refine ⟨Spec.entry rest ts'[j], ?_, ?_, hnl, ?_⟩
      · refine List.mem_map.mpr ⟨_, ?_, rfl⟩
        rw [hA0]
        apply List.mem_append_right
        have : ts'[j] = A'[j] := by
          have : ts'[j]? = A'[j]? := by rw [hts', List.getElem?_append_left hj]
          rw [List.getElem?_eq_getElem hj1, List.getElem?_eq_getElem hj] at this
          exact Option.some.inj this
        rw [this]; exact List.getElem_mem hj
      · unfold pathOf targetOf
        show Squash.Spec.comps (clean ts'[j].1.name) = Squash.Spec.comps (clean e0.1.linkname)
        rw [← hget, hln]
      · intro hd
        have hj2 : j < (Fsutil.Spec.tree walk).length := by omega
        obtain ⟨info, e1, _, _, _, e5, _⟩ := walk_entry hts j hj1 hj2
        rcases e5 with e5 | ⟨e5, _⟩
        · exact hnodir A'.length j hi hj1 (by omega) hj2 (by omega) hf ⟨info, e1, by rw [← e5]; exact hd⟩
        · exact hnl e5
  obtain ⟨E, x1, x2, x3, x4⟩ := tree_extract htl hL hV
  have hmemt : ∀ i (hi : i < ts'.length), Spec.entry rest ts'[i] ∈ es.map (Spec.entry rest) := by
    intro i hi
    refine List.mem_map.mpr ⟨_, ?_, rfl⟩
    rw [hes]; exact List.mem_append_right _ (List.getElem_mem hi)
  -- what is at the path of each name
  have key : ∀ i (hi : i < ts'.length) (hi2 : i < (Fsutil.Spec.tree walk).length), ∃ j, ∃ hj : j ≤ i,
      (Fsutil.Spec.tree walk)[j].file = (Fsutil.Spec.tree walk)[i].file ∧
      (∀ k (hk : k < j), (Fsutil.Spec.tree walk)[k].file ≠ (Fsutil.Spec.tree walk)[i].file) ∧ ts'[j].1.typeflag ≠ '1' ∧
      E (pathOf (Spec.entry rest ts'[i])) = some (nodeOf (Spec.entry rest ts'[j])) := by
    intro i hi hi2
    rcases hlinks i hi with ⟨h1, h2, _⟩ | ⟨h1, _, j, hj, hf, hln, hnl, hfirst⟩
    · exact ⟨i, Nat.le_refl _, rfl, h1, h2, x2 _ (hmemt i hi) h2⟩
    · have hj1 : j < ts'.length := by omega
      refine ⟨j, by omega, hf, hfirst, hnl, ?_⟩
      rw [x3 _ (hmemt i hi) h1]
      have : targetOf (Spec.entry rest ts'[i]).header = pathOf (Spec.entry rest ts'[j]) := by
        unfold pathOf targetOf
        show Squash.Spec.comps (clean ts'[i].1.linkname) = Squash.Spec.comps (clean ts'[j].1.name)
        rw [hln]
      rw [this]
      exact x2 _ (hmemt j hj1) hnl
  refine ⟨E, x1, ?_, ?_, ?_, ?_⟩
  · intro w hwm rs hr
    obtain ⟨i, hi2, rfl⟩ := List.mem_iff_getElem.mp hwm
    have hi : i < ts'.length := by omega
    obtain ⟨j, hj, hf, hfirst, hnl, hE⟩ := key i hi hi2
    have hj1 : j < ts'.length := by omega
    have hj2 : j < (Fsutil.Spec.tree walk).length := by omega
    obtain ⟨info, i1, _⟩ := walk_entry hts i hi hi2
    obtain ⟨jnfo, j1, _, j3, j4, j5, j6, j7, j8⟩ := walk_entry hts j hj1 hj2
    have hty : ts'[j].1.typeflag = jnfo.typeflag := by
      rcases j5 with j5 | ⟨j5, _⟩
      · exact j5
      · exact absurd j5 hnl
    obtain ⟨o1, o2, o3⟩ := hone _ (List.getElem_mem hj2) _ (List.getElem_mem hi2) hf
    obtain ⟨o4, o5, o6⟩ := o3 jnfo info j1 i1
    refine ⟨info, i1, { (Spec.entry rest ts'[j]).header with name := clean ts'[j].1.name }, ts'[j].2, ?_, ?_, ?_, ?_, ?_, ?_, ?_⟩
    · rw [← hpath i hi hi2 rs hr, hE]; rfl
    · exact hty.trans o4
    · exact j4.trans o5
    · exact j3.trans o6
    · intro hr'; rw [← o1]; exact j7 (hty.trans (o4.trans hr'))
    · intro hr'; exact j8 (fun e => hr' (o4.symm.trans (hty.symm.trans e)))
    · intro hs'
      rw [← o2]
      exact j6 (fun k hk => by rw [hf]; exact hfirst k hk) (hty.trans (o4.trans hs'))
  · intro w hwm w' hwm' hff rs rs' hr hr'
    obtain ⟨a, ha2, rfl⟩ := List.mem_iff_getElem.mp hwm
    obtain ⟨b, hb2, rfl⟩ := List.mem_iff_getElem.mp hwm'
    obtain ⟨j, hj, hf, hfirst, _, hE⟩ := key a (by omega) ha2
    obtain ⟨k, hk, hf', hfirst', _, hE'⟩ := key b (by omega) hb2
    have : j = k := by
      rcases Nat.lt_trichotomy j k with hlt | heq | hlt
      · exact absurd (hf.trans hff) (hfirst' j hlt)
      · exact heq
      · exact absurd (hf'.trans hff.symm) (hfirst k hlt)
    subst this
    rw [← hpath a (by omega) ha2 rs hr, ← hpath b (by omega) hb2 rs' hr', hE, hE']
  · intro k hk
    have hpl : k < ps'.length := by
      have := congrArg List.length hps
      simp at this; omega
    have hname : ps'[k].1.name = join ['/'] (cs.take (k + 1)) := by
      have : (ps'.map (·.1.name))[k]? = ((List.range cs.length).map (fun i => join ['/'] (cs.take (i + 1))))[k]? := by rw [hps]
      rw [List.getElem?_map, List.getElem?_map, List.getElem?_eq_getElem hpl, List.getElem?_range hk] at this
      simpa using this
    have hd := hdir ps'[k] (List.getElem_mem hpl)
    have hcs : ∀ c ∈ cs, Plain c ∧ ¬ Squash.Spec.isMarker c := by
      cases pre with
      | none => change cs = [] at hp; subst hp; simp
      | some p => exact hp.2.1
    have hnamed : Spec.Named ps'[k].1.name (cs.take (k + 1)) := by
      refine ⟨?_, fun c hc => hcs c (List.mem_of_mem_take hc), hname⟩
      intro h0
      have := congrArg List.length h0
      simp at this
      subst this
      simp at hk
    have := x2 (Spec.entry rest ps'[k]) (List.mem_map.mpr ⟨_, by rw [hes]; exact List.mem_append_left _ (List.getElem_mem hpl), rfl⟩)
      (by show ps'[k].1.typeflag ≠ '1'; rw [hd]; decide)
    rw [named_path hnamed] at this
    exact ⟨_, _, this, hd⟩
  · intro q hq hqs
    refine x4 q ?_
    intro e he
    obtain ⟨e0, he0, rfl⟩ := List.mem_map.mp he
    rw [hes] at he0
    rcases List.mem_append.mp he0 with he0 | he0
    · have hd := hdir e0 he0
      refine ⟨?_, fun hn => absurd hd hn⟩
      have : e0.1.name ∈ ps'.map (·.1.name) := List.mem_map.mpr ⟨e0, he0, rfl⟩
      rw [hps] at this
      obtain ⟨k, hk, e1⟩ := List.mem_map.mp this
      rw [List.mem_range] at hk
      have hcs : ∀ c ∈ cs, Plain c ∧ ¬ Squash.Spec.isMarker c := by
        cases pre with
        | none => change cs = [] at hp; subst hp; simp
        | some p => exact hp.2.1
      have hnamed : Spec.Named e0.1.name (cs.take (k + 1)) := by
        refine ⟨?_, fun c hc => hcs c (List.mem_of_mem_take hc), e1.symm⟩
        intro h0
        have := congrArg List.length h0
        simp at this
        subst this
        simp at hk
      rw [named_path hnamed]
      exact fun hpre => hq (hpre.trans (List.take_prefix _ _))
    · obtain ⟨i, hi, rfl⟩ := List.mem_iff_getElem.mp he0
      have hi2 : i < (Fsutil.Spec.tree walk).length := by omega
      obtain ⟨rs, hr⟩ := hw.named _ (List.getElem_mem hi2)
      obtain ⟨g1, g2⟩ := hqs _ (List.getElem_mem hi2) rs hr
      rw [hpath i hi hi2 rs hr]
      refine ⟨g1, fun hn => g2 ?_⟩
      intro info hinf hd
      obtain ⟨info', i1, _, _, _, i5, _⟩ := walk_entry hts i hi hi2
      rw [hinf] at i1; cases i1
      rcases i5 with i5 | ⟨_, j, hj, hf⟩
      · exact hn (i5.trans hd)
      · exact hnodir j i (by omega) hi (by omega) hi2 (by omega) hf.symm ⟨info, hinf, hd⟩

theorem oneFile_of {walk : List WalkItem}
    (h : (Fsutil.Spec.tree walk).all (fun a => (Fsutil.Spec.tree walk).all fun b => !decide (a.file = b.file) ||
      (decide (a.content = b.content) && decide (a.target = b.target) && a.info.all fun i => b.info.all fun j =>
        decide (i.typeflag = j.typeflag) && decide (i.size = j.size) && decide (i.mode = j.mode))) = true) : Spec.OneFile walk := by
  intro a ha b hb hf
  have := List.all_eq_true.mp (List.all_eq_true.mp h a ha) b hb
  simp only [hf, decide_true, Bool.not_true, Bool.false_or, Bool.and_eq_true, decide_eq_true_eq] at this
  refine ⟨this.1.1, this.1.2, ?_⟩
  intro i j hi hj
  have h2 := this.2
  rw [hi, hj] at h2
  simp only [Option.all_some, Bool.and_eq_true, decide_eq_true_eq] at h2
  exact ⟨h2.1.1, h2.1.2, h2.2⟩

/-- the hypotheses of `C110_extract_partial` beside those of `C104_dir_partial` (see the example there) are met by `sampleWalk`,
in which one file has the names `d/f` and `g` -/
example : Spec.OneFile sampleWalk ∧ (∀ w ∈ sampleWalk, ∀ i, w.info = some i → i.typeflag ≠ typeLink) ∧
    (∃ a ∈ Fsutil.Spec.tree sampleWalk, ∃ b ∈ Fsutil.Spec.tree sampleWalk, a.file = b.file ∧ a.rel ≠ b.rel) ∧
    ∃ es, layerFromDir 3 (fun _ => true) (some ⟨"usr/bin".toList, 0, ⟨0, [], 0, []⟩⟩) none 0 5 sampleWalk = some (.ok es) := by
  refine ⟨oneFile_of (by decide +kernel), ?_, ?_, _, rfl⟩
  · intro w hw i hi
    have : sampleWalk.all (fun w => w.info.all fun i => decide (i.typeflag ≠ typeLink)) = true := by decide +kernel
    have := List.all_eq_true.mp this w hw
    rw [hi] at this
    simpa using this
  · exact ⟨⟨false, "d/f".toList, some (sampleHdr [] '0' 3 2), 3, none, some [1, 2]⟩, List.mem_of_getElem? (i := 1) rfl,
      ⟨false, "g".toList, some (sampleHdr [] '0' 3 2), 3, none, some [1, 2]⟩, List.mem_of_getElem? (i := 2) rfl, rfl, by decide⟩

/-- **C110 does not hold** for directories in which a file is named like a whiteout marker: extracting the layer of a directory that
holds only the file `.wh.a` does not make that file. -/
theorem C110_violated : ∃ walk es, (Fsutil.Spec.tree walk).map (·.rel) = [".wh.a".toList] ∧
    layerFromDir 1 (fun _ => true) none none 0 5 walk = some (.ok es) ∧
    ∃ E, extractLayer Squash.Spec.emptyView (es.map (Spec.entry (fun _ => []))) = some E ∧ E [".wh.a".toList] = none :=
  ⟨[⟨false, ".".toList, none, 1, none, none⟩, ⟨false, ".wh.a".toList, some (sampleHdr [] '0' 3 1), 2, none, some [7]⟩],
    [(sampleHdr ".wh.a".toList '0' 3 1, [7])], by decide, by decide +kernel, _, rfl, by decide +kernel⟩

end Onto
