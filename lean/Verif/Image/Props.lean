import Mathlib.Data.List.Nodup
import Verif.Image.Added
import Verif.Fsutil.PropsRefs
import Verif.Fsutil.PropsDir
/-! C104: a layer made from files or from a directory, put on top of an image. -/
namespace Onto
open Go Fsutil
open Squash (Entry Node FS loadLayers openFile)
open Squash.Spec (isMarker Visible asDir NoThrough Outside)

/-! ### specification -/

/-- what a tar reader delivers for an entry that was written with this header and content.  `rest` stands for the fields that
pkg/squash only passes on. -/
def Spec.entry (rest : Hdr → Str) (e : Hdr × Bytes) : Entry :=
  ⟨⟨e.1.name, e.1.typeflag, e.1.linkname, e.1.size, e.1.mode, rest e.1⟩, e.2⟩

/-- what is found at the path of such an entry -/
def Spec.node (rest : Hdr → Str) (e : Hdr × Bytes) : Node := ⟨some (Spec.entry rest e).header, e.2⟩

/-- `name` is a relative name with these elements, none of which is a whiteout marker -/
def Spec.Named (name : Str) (ps : List Str) : Prop := ps ≠ [] ∧ (∀ c ∈ ps, Plain c ∧ ¬ isMarker c) ∧ name = join ['/'] ps

/-- entries that describe a tree of files -/
structure Spec.Tree (es : List (Hdr × Bytes)) : Prop where
  named : ∀ e ∈ es, ∃ ps, Spec.Named e.1.name ps
  once : (es.map (·.1.name)).Nodup
  tree : ∀ a ∈ es, ∀ b ∈ es, Fsutil.Spec.Below b.1.name a.1.name → a.1.typeflag = typeDir

/-- The image `T` is the image `S` with the files `es` put in: each is there, with its type, mode, size, link and content, and can
be opened; what leads to them is a directory, with the header it had if it was one; nothing is below those that are not
directories; all else is as it was. -/
structure Spec.Added (rest : Hdr → Str) (n : Nat) (S T : FS) (es : List (Hdr × Bytes)) : Prop where
  there : ∀ e ∈ es, ∀ ps, Spec.Named e.1.name ps → T.get? ps = some (Spec.node rest e)
  opens : ∀ e ∈ es, ∀ ps, Spec.Named e.1.name ps → e.1.typeflag ≠ typeSymlink → openFile n T e.1.name = some (.ok (ps, ps))
  above : ∀ e ∈ es, ∀ ps, Spec.Named e.1.name ps → ∀ q, q <+: ps → (∀ e' ∈ es, ¬ Spec.Named e'.1.name q) → T.get? q = some (asDir (S.get? q))
  below : ∀ e ∈ es, ∀ ps, Spec.Named e.1.name ps → e.1.typeflag ≠ typeDir → ∀ q, Visible q → ps <+: q → q ≠ ps → T.get? q = none
  other : ∀ q, Visible q → (∀ e ∈ es, ∀ ps, Spec.Named e.1.name ps → ¬ q <+: ps ∧ (e.1.typeflag ≠ typeDir → ¬ ps <+: q)) →
    T.get? q = S.get? q

/-! ### names -/

theorem named_clean {name : Str} {ps : List Str} (h : Spec.Named name ps) : clean name = name := by
  obtain ⟨h1, h2, rfl⟩ := h
  have hr : join ['/'] ps = render false ps := by simp [render, h1]
  rw [hr, clean_render (Squash.plains_clean (fun c hc => (h2 c hc).1) false)]

theorem named_comps {name : Str} {ps : List Str} (h : Spec.Named name ps) : Squash.Spec.comps name = ps := by
  obtain ⟨h1, h2, rfl⟩ := h
  have hr : join ['/'] ps = render false ps := by simp [render, h1]
  rw [hr, Squash.comps_render (fun c hc => (h2 c hc).1)]

theorem named_path {rest : Hdr → Str} {e : Hdr × Bytes} {ps : List Str} (h : Spec.Named e.1.name ps) :
    Squash.Spec.pathOf (Spec.entry rest e) = ps := by
  unfold Squash.Spec.pathOf
  show Squash.Spec.comps (clean e.1.name) = ps
  rw [named_clean h, named_comps h]

theorem named_node {rest : Hdr → Str} {e : Hdr × Bytes} {ps : List Str} (h : Spec.Named e.1.name ps) :
    Squash.Spec.nodeOf (Spec.entry rest e) = Spec.node rest e := by
  unfold Squash.Spec.nodeOf Spec.node Spec.entry
  simp only [named_clean h]

theorem named_valid {name : Str} {ps : List Str} (h : Spec.Named name ps) : Squash.validPath name = true := by
  unfold Squash.validPath
  rw [Bool.or_eq_true]
  right
  obtain ⟨h1, h2, rfl⟩ := h
  rw [split_join h1 (fun c hc => (h2 c hc).1.2.2.2), List.all_eq_true]
  intro c hc
  obtain ⟨a1, a2, a3, _⟩ := (h2 c hc).1
  simp only [ne_eq, Bool.and_eq_true, decide_eq_true_eq]
  exact ⟨⟨a1, a2⟩, a3⟩

theorem named_inside {name : Str} {ps : List Str} (h : Spec.Named name ps) : ¬ Outside name := by
  obtain ⟨h1, h2, e⟩ := h
  have hc := named_clean ⟨h1, h2, e⟩
  obtain ⟨c, cs, rfl⟩ := List.exists_cons_of_ne_nil h1
  obtain ⟨a1, a2, a3, a4⟩ := (h2 c (by simp)).1
  have hsp : split '/' name = c :: cs := by rw [e, split_join h1 (fun c hc => (h2 c hc).1.2.2.2)]
  unfold Outside
  rw [hc]
  rintro (⟨t, ht⟩ | ht | ⟨t, ht⟩)
  · rw [← ht] at hsp
    rw [show "/".toList ++ t = '/' :: t from rfl, show split '/' ('/' :: t) = [] :: split '/' t from by simp [split]] at hsp
    injection hsp with h1 _
    exact a1 h1.symm
  · rw [ht] at hsp
    rw [show split '/' "..".toList = ["..".toList] by decide] at hsp
    injection hsp with h1 _
    exact a3 h1.symm
  · rw [← ht] at hsp
    rw [show "../".toList ++ t = '.' :: '.' :: '/' :: t from rfl, show split '/' ('.' :: '.' :: '/' :: t) = "..".toList :: split '/' t from by simp [split]] at hsp
    injection hsp with h1 _
    exact a3 h1.symm

theorem named_unique {name : Str} {ps qs : List Str} (h : Spec.Named name ps) (h' : Spec.Named name qs) : ps = qs := by
  rw [← named_comps h, ← named_comps h']

theorem join_below {as bs : List Str} (ha : as ≠ []) (hb : bs ≠ []) : join ['/'] (as ++ bs) = join ['/'] as ++ '/' :: join ['/'] bs := by
  induction as with
  | nil => exact absurd rfl ha
  | cons x l ih =>
    by_cases hl : l = []
    · subst hl; rw [List.singleton_append, join_cons hb]; simp [join]
    · rw [List.cons_append, join_cons (by simp [hl]), join_cons hl, ih hl]; simp

theorem tree_layer {rest : Hdr → Str} {es : List (Hdr × Bytes)} (h : Spec.Tree es) : Squash.Spec.TreeLayer (es.map (Spec.entry rest)) := by
  refine ⟨?_, ?_, ?_, ?_⟩
  · intro x hx
    obtain ⟨e, he, rfl⟩ := List.mem_map.mp hx
    obtain ⟨ps, hp⟩ := h.named e he
    exact named_inside hp
  · intro x hx
    obtain ⟨e, he, rfl⟩ := List.mem_map.mp hx
    obtain ⟨ps, hp⟩ := h.named e he
    rw [named_path hp]
    exact fun c hc => (hp.2.1 c hc).2
  · rw [List.pairwise_map]
    have := h.once
    unfold List.Nodup at this
    rw [List.pairwise_map] at this
    refine List.Pairwise.imp_of_mem ?_ this
    intro a b ha hb hab e
    obtain ⟨ps, hp⟩ := h.named a ha
    obtain ⟨qs, hq⟩ := h.named b hb
    rw [named_path hp, named_path hq] at e
    apply hab
    rw [hp.2.2, hq.2.2, e]
  · intro x hx y hy hpre hne
    obtain ⟨a, ha, rfl⟩ := List.mem_map.mp hx
    obtain ⟨b, hb, rfl⟩ := List.mem_map.mp hy
    obtain ⟨ps, hp⟩ := h.named a ha
    obtain ⟨qs, hq⟩ := h.named b hb
    rw [named_path hp, named_path hq] at hpre hne
    refine h.tree a ha b hb ?_
    obtain ⟨t, rfl⟩ := hpre
    have ht : t ≠ [] := by rintro rfl; exact hne (by simp)
    exact ⟨join ['/'] t, by rw [hp.2.2, hq.2.2, join_below hp.1 ht]⟩

/-- **C104** Putting a layer that describes a tree of files on top of an image puts exactly these files in. -/
theorem C104_added {rest : Hdr → Str} {es : List (Hdr × Bytes)} (h : Spec.Tree es) {base : List (List Entry)}
    (hin : ∀ l ∈ base, ∀ e ∈ l, ¬ Outside e.header.name) (hl : NoThrough (base ++ [es.map (Spec.entry rest)])) {n : Nat} (hn : 3 ≤ n) :
    ∃ S T, loadLayers n base false = some (.ok S) ∧ loadLayers n (base ++ [es.map (Spec.entry rest)]) false = some (.ok T) ∧
      Spec.Added rest n S T es := by
  have htl := tree_layer (rest := rest) h
  obtain ⟨S, T, s1, t1, V, W, hput, s2, t2⟩ := Squash.load_putIn hin htl hl hn
  have hmem : ∀ e ∈ es, Spec.entry rest e ∈ es.map (Spec.entry rest) := fun e he => List.mem_map.mpr ⟨e, he, rfl⟩
  have hvis : ∀ {name : Str} {ps : List Str}, Spec.Named name ps → Visible ps := fun hp c hc => (hp.2.1 c hc).2
  have hvp : ∀ {q ps : List Str}, Visible ps → q <+: ps → Visible q := fun hv hq c hc => hv c (hq.subset hc)
  have hthere : ∀ e ∈ es, ∀ ps, Spec.Named e.1.name ps → T.get? ps = some (Spec.node rest e) := by
    intro e he ps hp
    have := hput.file _ (hmem e he)
    rw [named_path hp, named_node hp] at this
    rw [t2 ps (hvis hp), this]
  refine ⟨S, T, s1, t1, hthere, ?_, ?_, ?_, ?_⟩
  · intro e he ps hp ht
    -- a further look at the loaded tree
    obtain ⟨T', t1', sim⟩ := Squash.load_sim (oc := false) (layers := base ++ [es.map (Spec.entry rest)]) (by
      intro a ha b hb
      rcases List.mem_append.mp ha with ha | ha
      · exact hin a ha b hb
      · rw [List.mem_singleton] at ha
        subst ha
        exact htl.inside b hb) hl hn
    have : T' = T := by rw [t1] at t1'; cases t1'; rfl
    subst this
    obtain ⟨k, rfl⟩ : ∃ k, n = k + 2 := ⟨n - 2, by omega⟩
    have hg := hthere e he ps hp
    rw [← named_comps hp] at hg ⊢
    refine (Squash.open_exact sim.inv (named_valid hp) ?_).1 _ hg ?_
    · intro t h3 h4
      rw [named_comps hp, ← named_path (rest := rest) hp] at h3 h4
      exact Squash.pathOf_notBelowLink hl sim (l := es.map (Spec.entry rest)) (by simp) (hmem e he) h3 h4
    · simp only [Squash.Node.link, Spec.node, Spec.entry]
      exact if_neg ht
  · intro e he ps hp q hq hne
    have hv := hvp (hvis hp) hq
    rw [t2 q hv, s2 q hv]
    refine hput.above _ (hmem e he) q (by rw [named_path hp]; exact hq) ?_
    intro x hx e2
    obtain ⟨e', he', rfl⟩ := List.mem_map.mp hx
    obtain ⟨qs, hqs⟩ := h.named e' he'
    rw [named_path hqs] at e2
    exact hne e' he' (e2 ▸ hqs)
  · intro e he ps hp ht q hv hq hne
    rw [t2 q hv]
    exact hput.below _ (hmem e he) ht q (by rw [named_path hp]; exact hq) (by rw [named_path hp]; exact hne)
  · intro q hv hq
    rw [t2 q hv, s2 q hv]
    refine hput.other q ?_
    intro x hx
    obtain ⟨e, he, rfl⟩ := List.mem_map.mp hx
    obtain ⟨ps, hp⟩ := h.named e he
    rw [named_path hp]
    exact hq e he ps hp

/-! ### layers made from file references -/

/-- file references that describe a tree of files: relative names without whiteout markers, each once, and only directories
have anything below them -/
structure Spec.RefTree (l : List FileRef) : Prop where
  named : ∀ f ∈ l, ∃ ps, Spec.Named f.name ps
  once : (l.map (·.name)).Nodup
  tree : ∀ a ∈ l, ∀ b ∈ l, Fsutil.Spec.Below b.name a.name → ∃ i, a.info = some i ∧ i.typeflag = typeDir

/-- what is found in an image for a file with this header (as `tar.FileInfoHeader` gives it), name and content: type, size, mode and,
for regular files, content -/
def Spec.HasFile (T : FS) (p : List Str) (name : Str) (i : Hdr) (content : Option Bytes) : Prop :=
  ∃ h b, T.get? p = some ⟨some h, b⟩ ∧ h.name = name ∧ h.typeflag = i.typeflag ∧ h.size = i.size ∧ h.mode = i.mode ∧
    (i.typeflag = '0' → content = some b) ∧ (i.typeflag ≠ '0' → b = [])

theorem refEntries_all {accepts : Hdr → Bool} {clamp : Int} {fs : List FileRef} {es : List (Hdr × Bytes)}
    (h : refEntries accepts clamp fs = .ok es) : ∀ f ∈ fs, ∃ e ∈ es, refEntry accepts clamp f = .ok e := by
  induction fs generalizing es with
  | nil => intro f hf; cases hf
  | cons f fs ih =>
    obtain ⟨e, es', h1, h2, rfl⟩ := refEntries_cons h
    intro g hg
    rcases List.mem_cons.mp hg with rfl | hg
    · exact ⟨e, by simp, h1⟩
    · obtain ⟨e', he', h3⟩ := ih h2 g hg
      exact ⟨e', by simp [he'], h3⟩

theorem refs_tree {srt : (FileRef → FileRef → Bool) → List FileRef → List FileRef} (hs : SortSlice srt) {accepts : Hdr → Bool} {clamp : Int}
    {l : List FileRef} (hl : Spec.RefTree l) {es : List (Hdr × Bytes)} (h : layerFromRefs srt accepts clamp l = .ok es) : Spec.Tree es := by
  have hm : ∀ e ∈ es, ∃ f ∈ l, ∃ i, f.info = some i ∧ e.1.name = f.name ∧ e.1.typeflag = i.typeflag := by
    intro e he
    obtain ⟨f, hf, h1⟩ := refEntries_mem h e he
    obtain ⟨i, h2, h3, _⟩ := refEntry_ok h1
    exact ⟨f, (hs.perm _ l).mem_iff.mp hf, i, h2, by rw [h3]; rfl, by rw [h3]; rfl⟩
  refine ⟨?_, (C54_entries_are_the_files hs h).nodup_iff.mpr hl.once, ?_⟩
  · intro e he
    obtain ⟨f, hf, i, _, e1, _⟩ := hm e he
    obtain ⟨ps, hp⟩ := hl.named f hf
    exact ⟨ps, by rw [e1]; exact hp⟩
  · intro a ha b hb hab
    obtain ⟨f, hf, i, hi, e1, e2⟩ := hm a ha
    obtain ⟨g, hg, j, _, e3, _⟩ := hm b hb
    rw [e1, e3] at hab
    obtain ⟨i', hi', ht⟩ := hl.tree f hf g hg hab
    rw [hi] at hi'
    cases hi'
    rw [e2, ht]

/-- **C104** for `LayerFromFileReferences`: put on top of an image, the layer puts exactly the referenced files in. -/
theorem C104_refs {srt : (FileRef → FileRef → Bool) → List FileRef → List FileRef} (hs : SortSlice srt) {accepts : Hdr → Bool} {clamp : Int}
    {l : List FileRef} (hl : Spec.RefTree l) {es : List (Hdr × Bytes)} (h : layerFromRefs srt accepts clamp l = .ok es)
    {rest : Hdr → Str} {base : List (List Entry)} (hin : ∀ l ∈ base, ∀ e ∈ l, ¬ Outside e.header.name)
    (hnt : NoThrough (base ++ [es.map (Spec.entry rest)])) {n : Nat} (hn : 3 ≤ n) :
    ∃ S T, loadLayers n base false = some (.ok S) ∧ loadLayers n (base ++ [es.map (Spec.entry rest)]) false = some (.ok T) ∧
      Spec.Added rest n S T es ∧ (es.map (·.1.name)).Perm (l.map (·.name)) ∧
      ∀ f ∈ l, ∀ ps, Spec.Named f.name ps → ∃ i, f.info = some i ∧ Spec.HasFile T ps f.name i f.content := by
  have ht := refs_tree hs hl h
  obtain ⟨S, T, h1, h2, h3⟩ := C104_added ht hin hnt hn
  refine ⟨S, T, h1, h2, h3, C54_entries_are_the_files hs h, ?_⟩
  intro f hf ps hp
  obtain ⟨e, he, h4⟩ := refEntries_all h f ((hs.perm _ l).mem_iff.mpr hf)
  obtain ⟨i, hi, h5, h6, h7⟩ := refEntry_ok h4
  have hname : e.1.name = f.name := by rw [h5]; rfl
  have := h3.there e he ps (by rw [hname]; exact hp)
  have f1 : e.1.typeflag = i.typeflag := by rw [h5]; rfl
  have f2 : e.1.size = i.size := by rw [h5]; rfl
  have f3 : e.1.mode = i.mode := by rw [h5]; rfl
  exact ⟨i, hi, _, _, this, hname, f1, f2, f3, fun hr => (h6 hr).1, h7⟩

/-! ### layers made from a directory -/

/-- a walk over a directory that holds a tree of files: relative names without whiteout markers, each once, only directories have
anything below them, and a directory has one name only -/
structure Spec.WalkTree (walk : List WalkItem) : Prop where
  named : ∀ w ∈ Fsutil.Spec.tree walk, ∃ ps, Spec.Named w.rel ps
  once : ((Fsutil.Spec.tree walk).map (·.rel)).Nodup
  tree : ∀ a ∈ Fsutil.Spec.tree walk, ∀ b ∈ Fsutil.Spec.tree walk, Fsutil.Spec.Below b.rel a.rel →
    ∃ i, a.info = some i ∧ i.typeflag = typeDir
  single : ∀ a ∈ Fsutil.Spec.tree walk, ∀ b ∈ Fsutil.Spec.tree walk, a.file = b.file → (∃ i, a.info = some i ∧ i.typeflag = typeDir) →
    a.rel = b.rel

/-- the elements of the prefix -/
def Spec.PrefixElems (pre : Option Prefix) (cs : List Str) : Prop :=
  match pre with
  | none => cs = []
  | some p => Spec.Named p.dirName cs

theorem below_prefix {a b : Str} {pa pb : List Str} (ha : Spec.Named a pa) (hb : Spec.Named b pb) (h : Fsutil.Spec.Below b a) :
    pa <+: pb ∧ pa ≠ pb := by
  obtain ⟨t, e⟩ := h
  have ea : split '/' a = pa := by rw [ha.2.2, split_join ha.1 (fun c hc => (ha.2.1 c hc).1.2.2.2)]
  have eb : split '/' b = pb := by rw [hb.2.2, split_join hb.1 (fun c hc => (hb.2.1 c hc).1.2.2.2)]
  rw [e, split_append, ea] at eb
  rw [← eb]
  refine ⟨List.prefix_append _ _, ?_⟩
  intro h
  have := congrArg List.length h
  rw [List.length_append] at this
  have h0 : (split '/' t).length = 0 := by omega
  exact split_ne_nil _ _ (List.length_eq_zero_iff.mp h0)

theorem prefix_below {a b : Str} {pa pb : List Str} (ha : Spec.Named a pa) (hb : Spec.Named b pb) (h : pa <+: pb) (hne : pa ≠ pb) :
    Fsutil.Spec.Below b a := by
  obtain ⟨t, rfl⟩ := h
  have ht : t ≠ [] := by rintro rfl; exact hne (by simp)
  exact ⟨join ['/'] t, by rw [ha.2.2, hb.2.2, join_below ha.1 ht]⟩

/-- the entry for a file of the tree -/
theorem walk_entry {accepts : Hdr → Bool} {pre : Option Prefix} {chown : Option Ownership} {clamp : Int} {walk : List WalkItem}
    {ts : List (Hdr × Bytes)} (h : walkEntries accepts pre chown clamp [] walk = .ok ts) (i : Nat) (hi : i < ts.length)
    (hi2 : i < (Fsutil.Spec.tree walk).length) :
    ∃ info, (Fsutil.Spec.tree walk)[i].info = some info ∧ ts[i].1.name = entryName pre (Fsutil.Spec.tree walk)[i].rel ∧
      ts[i].1.mode = info.mode ∧ ts[i].1.size = info.size ∧
      (ts[i].1.typeflag = info.typeflag ∨
        ts[i].1.typeflag = typeLink ∧ ∃ j, ∃ hj : j < i, (Fsutil.Spec.tree walk)[j].file = (Fsutil.Spec.tree walk)[i].file) ∧
      ((∀ j (hj : j < i), (Fsutil.Spec.tree walk)[j].file ≠ (Fsutil.Spec.tree walk)[i].file) →
        (ts[i].1.typeflag = typeSymlink → (Fsutil.Spec.tree walk)[i].target = some ts[i].1.linkname)) ∧
      (ts[i].1.typeflag = typeReg → (Fsutil.Spec.tree walk)[i].content = some ts[i].2) ∧ (ts[i].1.typeflag ≠ typeReg → ts[i].2 = []) := by
  obtain ⟨hl, hg⟩ := walkEntries_get h
  obtain ⟨_, _, h4⟩ := walkEntry_ok (hg i hi hi2)
  obtain ⟨info, x, b, hin, hr, hee, hb⟩ := h4 (of_decide_eq_true (List.mem_filter.mp (List.getElem_mem hi2)).2)
  rw [Option.some.injEq] at hee
  rw [hee]
  refine ⟨info, hin, ?_⟩
  obtain ⟨r1, r2⟩ := readLink_ok hr
  have hx : x.name = entryName pre (Fsutil.Spec.tree walk)[i].rel ∧ x.mode = info.mode ∧ x.size = info.size ∧
      (x.typeflag = info.typeflag ∨
        x.typeflag = typeLink ∧ ∃ j, ∃ hj : j < i, (Fsutil.Spec.tree walk)[j].file = (Fsutil.Spec.tree walk)[i].file) := by
    rcases hardLink_spec ([] ++ ((Fsutil.Spec.tree walk).take i).map (fun w => (entryName pre w.rel, w.file))) (Fsutil.Spec.tree walk)[i].file
        { info with name := entryName pre (Fsutil.Spec.tree walk)[i].rel } with ⟨_, e⟩ | ⟨j, hj, e1, _, e⟩
    · rw [e] at r1 r2
      by_cases ht : info.typeflag = typeSymlink
      · obtain ⟨_, _, e2⟩ := r2 ht
        rw [e2]; exact ⟨rfl, rfl, rfl, Or.inl rfl⟩
      · rw [r1 ht]; exact ⟨rfl, rfl, rfl, Or.inl rfl⟩
    · rw [e] at r1 r2
      rw [r1 (show typeLink ≠ typeSymlink by decide)]
      refine ⟨rfl, rfl, rfl, Or.inr ⟨rfl, j, ?_, ?_⟩⟩
      · simp at hj; omega
      · simpa using e1
  obtain ⟨x1, x2, x3, x4⟩ := hx
  obtain ⟨b1, b2⟩ := bodyOf_ok hb
  refine ⟨x1, x2, x3, x4, ?_, b1, b2⟩
  intro hfirst ht
  change x.typeflag = typeSymlink at ht
  show _ = some x.linkname
  by_cases hs : (hardLink ([] ++ ((Fsutil.Spec.tree walk).take i).map (fun w => (entryName pre w.rel, w.file))) (Fsutil.Spec.tree walk)[i].file
        { info with name := entryName pre (Fsutil.Spec.tree walk)[i].rel }).typeflag = typeSymlink
  · obtain ⟨t, e1, e2⟩ := r2 hs
    rw [e1, e2]
  · rw [r1 hs] at ht
    exact absurd ht hs

/-- the entries for the prefix -/
theorem prefix_entries {n : Nat} {accepts : Hdr → Bool} {pre : Option Prefix} {chown : Option Ownership} {zero clamp : Int}
    {walk : List WalkItem} {es : List (Hdr × Bytes)} {cs : List Str} (hp : Spec.PrefixElems pre cs) (hw : Spec.WalkTree walk)
    (h : layerFromDir n accepts pre chown zero clamp walk = some (.ok es)) :
    ∃ ps ts, es = ps ++ ts ∧ ps.map (·.1.name) = (List.range cs.length).map (fun i => join ['/'] (cs.take (i + 1))) ∧
      (∀ e ∈ ps, e.1.typeflag = typeDir) ∧ walkEntries accepts pre chown clamp [] walk = .ok ts ∧
      ∀ w ∈ Fsutil.Spec.tree walk, ∀ rs, Spec.Named w.rel rs → Spec.Named (entryName pre w.rel) (cs ++ rs) := by
  obtain ⟨ps, ts, h1, h2, he⟩ := layerFromDir_ok h
  cases pre with
  | none =>
    change cs = [] at hp
    subst hp
    cases h1
    exact ⟨[], ts, he, rfl, by simp, h2, fun w _ rs hr => hr⟩
  | some p =>
    change Spec.Named p.dirName cs at hp
    have hit : ∀ w ∈ Fsutil.Spec.tree walk, Fsutil.Spec.InTree w.rel := by
      intro w hw'
      obtain ⟨rs, h1, h2, h3⟩ := hw.named w hw'
      exact ⟨rs, h1, fun c hc => (h2 c hc).1, h3⟩
    obtain ⟨ps', ts', e1, e2, e3, e4⟩ := C59_prefix hp.2.2 hp.1 (fun c hc => (hp.2.1 c hc).1) hit h
    have hlen : ts'.length = ts.length := by
      have := congrArg List.length e4
      simp only [List.length_map] at this
      rw [this, (walkEntries_get h2).1]
    have hsame : ps' = ps ∧ ts' = ts := by
      have := e1.symm.trans he
      exact List.append_inj' this hlen
    obtain ⟨rfl, rfl⟩ := hsame
    refine ⟨ps', ts', e1, e2, fun e he => (e3 e he).1, h2, ?_⟩
    intro w hw' rs hr
    have hrend : p.dirName = render false cs := by rw [hp.2.2]; simp [render, hp.1]
    have hce : CleanElems false cs := Squash.plains_clean (fun c hc => (hp.2.1 c hc).1) false
    refine ⟨by simp [hp.1], ?_, ?_⟩
    · intro c hc
      rcases List.mem_append.mp hc with hc | hc
      · exact hp.2.1 c hc
      · exact hr.2.1 c hc
    · rw [entryName_prefix (named_clean hp) ?_ ?_ hr.2.2 hr.1 (fun c hc => (hr.2.1 c hc).1), join_below hp.1 hr.1, ← hp.2.2, ← hr.2.2]
      · rw [hrend]; exact isRooted_render (fun c hc => ⟨(hp.2.1 c hc).1.1, (hp.2.1 c hc).1.2.2.2⟩)
      · rw [hrend]
        intro e
        exact hp.1 (render_inj hce (show CleanElems false [] from ⟨0, [], rfl, by simp, fun _ => rfl⟩) (e.trans rfl)).2

theorem dir_tree {n : Nat} {accepts : Hdr → Bool} {pre : Option Prefix} {chown : Option Ownership} {zero clamp : Int}
    {walk : List WalkItem} {es : List (Hdr × Bytes)} {cs : List Str} (hp : Spec.PrefixElems pre cs) (hw : Spec.WalkTree walk)
    (h : layerFromDir n accepts pre chown zero clamp walk = some (.ok es)) : Spec.Tree es := by
  obtain ⟨ps, ts, rfl, hps, hdir, hts, hnm⟩ := prefix_entries hp hw h
  have hcs : ∀ c ∈ cs, Plain c ∧ ¬ isMarker c := by
    cases pre with
    | none => change cs = [] at hp; subst hp; simp
    | some p => exact hp.2.1
  have hlen := (walkEntries_get hts).1
  have hp1 : ∀ e ∈ ps, ∃ k, k < cs.length ∧ Spec.Named e.1.name (cs.take (k + 1)) := by
    intro e he
    have : e.1.name ∈ ps.map (·.1.name) := List.mem_map.mpr ⟨e, he, rfl⟩
    rw [hps] at this
    obtain ⟨k, hk, e1⟩ := List.mem_map.mp this
    rw [List.mem_range] at hk
    refine ⟨k, hk, ?_, fun c hc => hcs c (List.mem_of_mem_take hc), e1.symm⟩
    intro h0
    have := congrArg List.length h0
    simp at this
    subst this
    simp at hk
  have ht1 : ∀ e ∈ ts, ∃ i, ∃ hi : i < ts.length, ∃ hi2 : i < (Fsutil.Spec.tree walk).length, e = ts[i] ∧
      ∃ rs, Spec.Named (Fsutil.Spec.tree walk)[i].rel rs ∧ Spec.Named e.1.name (cs ++ rs) := by
    intro e he
    obtain ⟨i, hi, rfl⟩ := List.mem_iff_getElem.mp he
    have hi2 : i < (Fsutil.Spec.tree walk).length := by omega
    obtain ⟨rs, hr⟩ := hw.named _ (List.getElem_mem hi2)
    obtain ⟨_, _, e1, _⟩ := walk_entry hts i hi hi2
    exact ⟨i, hi, hi2, rfl, rs, hr, by rw [e1]; exact hnm _ (List.getElem_mem hi2) rs hr⟩
  refine ⟨?_, ?_, ?_⟩
  · intro e he
    rcases List.mem_append.mp he with he | he
    · obtain ⟨k, _, hk⟩ := hp1 e he; exact ⟨_, hk⟩
    · obtain ⟨_, _, _, _, rs, _, hk⟩ := ht1 e he; exact ⟨_, hk⟩
  · rw [List.map_append, List.nodup_append]
    refine ⟨?_, ?_, ?_⟩
    · rw [hps]
      refine List.Nodup.map_on ?_ List.nodup_range
      intro x hx y hy exy
      rw [List.mem_range] at hx hy
      have nm : ∀ k, k < cs.length → Spec.Named (join ['/'] (cs.take (k + 1))) (cs.take (k + 1)) := by
        intro k hk
        refine ⟨?_, fun c hc => hcs c (List.mem_of_mem_take hc), rfl⟩
        intro h0
        have := congrArg List.length h0
        simp at this
        subst this
        simp at hk
      have h2 := nm y hy
      rw [← exy] at h2
      have := congrArg List.length (named_unique (nm x hx) h2)
      simp only [List.length_take] at this
      omega
    · have e1 : ts.map (·.1.name) = (Fsutil.Spec.tree walk).map (fun w => entryName pre w.rel) := by
        apply List.ext_getElem (by simp [hlen])
        intro i h1 h2
        rw [List.length_map] at h1 h2
        rw [List.getElem_map, List.getElem_map]
        obtain ⟨_, _, e1, _⟩ := walk_entry hts i h1 h2
        exact e1
      rw [e1]
      have := hw.once
      unfold List.Nodup at this ⊢
      rw [List.pairwise_map] at this ⊢
      refine List.Pairwise.imp_of_mem ?_ this
      intro a b ha hb hab e
      obtain ⟨ra, hra⟩ := hw.named a ha
      obtain ⟨rb, hrb⟩ := hw.named b hb
      have h2 := hnm b hb rb hrb
      rw [← e] at h2
      have := List.append_cancel_left (named_unique (hnm a ha ra hra) h2)
      apply hab
      rw [hra.2.2, hrb.2.2, this]
    · intro a ha b hb e
      obtain ⟨x, hx, rfl⟩ := List.mem_map.mp ha
      obtain ⟨y, hy, rfl⟩ := List.mem_map.mp hb
      obtain ⟨k, hk, h1⟩ := hp1 x hx
      obtain ⟨_, _, _, _, rs, hrs, h2⟩ := ht1 y hy
      rw [← e] at h2
      have := congrArg List.length (named_unique h1 h2)
      rw [List.length_append, List.length_take] at this
      have := List.length_pos_iff.mpr hrs.1
      omega
  · intro a ha b hb hab
    rcases List.mem_append.mp ha with ha | ha
    · exact hdir a ha
    · obtain ⟨i, hi, hi2, rfl, ra, hra, na⟩ := ht1 a ha
      rcases List.mem_append.mp hb with hb | hb
      · obtain ⟨k, hk, nb⟩ := hp1 b hb
        have := (below_prefix na nb hab).1.length_le
        rw [List.length_append, List.length_take] at this
        have := List.length_pos_iff.mpr hra.1
        omega
      · obtain ⟨j, hj, hj2, rfl, rb, hrb, nb⟩ := ht1 b hb
        obtain ⟨h1, h2⟩ := below_prefix na nb hab
        have h3 : ra <+: rb := (List.prefix_append_right_inj cs).mp h1
        have hd := hw.tree _ (List.getElem_mem hi2) _ (List.getElem_mem hj2) (prefix_below hra hrb h3 (fun e => h2 (by rw [e])))
        obtain ⟨info, e1, _, _, _, e2, _⟩ := walk_entry hts i hi hi2
        rcases e2 with e2 | ⟨_, k, hk, e3⟩
        · obtain ⟨info', e4, e5⟩ := hd
          rw [e1] at e4
          cases e4
          rw [e2, e5]
        · exfalso
          have e4 := hw.single _ (List.getElem_mem hi2) _ (List.getElem_mem (show k < _ by omega)) e3.symm hd
          have hnd := hw.once
          have := (List.Nodup.getElem_inj_iff hnd (i := i) (j := k) (hi := by simpa using hi2) (hj := by simp; omega)).mp (by simpa using e4)
          omega

/-- **C104** for `LayerFromDir`: put on top of an image, the layer puts exactly the files of the directory in, below the prefix if
there is one, together with the directories of the prefix.

Missing for the full claim: the names of the files must not be those of whiteout markers (see `C104_violated`). -/
theorem C104_dir_partial {m : Nat} {accepts : Hdr → Bool} {pre : Option Prefix} {chown : Option Ownership} {zero clamp : Int}
    {walk : List WalkItem} {es : List (Hdr × Bytes)} {cs : List Str} (hp : Spec.PrefixElems pre cs) (hw : Spec.WalkTree walk)
    (h : layerFromDir m accepts pre chown zero clamp walk = some (.ok es))
    {rest : Hdr → Str} {base : List (List Entry)} (hin : ∀ l ∈ base, ∀ e ∈ l, ¬ Outside e.header.name)
    (hnt : NoThrough (base ++ [es.map (Spec.entry rest)])) {n : Nat} (hn : 3 ≤ n) :
    ∃ S T, loadLayers n base false = some (.ok S) ∧ loadLayers n (base ++ [es.map (Spec.entry rest)]) false = some (.ok T) ∧
      Spec.Added rest n S T es ∧
      es.map (·.1.name) = (List.range cs.length).map (fun i => join ['/'] (cs.take (i + 1))) ++
        (Fsutil.Spec.tree walk).map (fun w => entryName pre w.rel) ∧
      ∀ w ∈ Fsutil.Spec.tree walk, ∀ rs, Spec.Named w.rel rs →
        (∀ w' ∈ Fsutil.Spec.tree walk, w'.file = w.file → w'.rel = w.rel) →
        ∃ i, w.info = some i ∧ Spec.HasFile T (cs ++ rs) (entryName pre w.rel) i w.content := by
  have ht := dir_tree hp hw h
  obtain ⟨S, T, h1, h2, h3⟩ := C104_added ht hin hnt hn
  obtain ⟨ps, ts, rfl, hps, hdir, hts, hnm⟩ := prefix_entries hp hw h
  have hlen := (walkEntries_get hts).1
  refine ⟨S, T, h1, h2, h3, ?_, ?_⟩
  · rw [List.map_append, hps]
    congr 1
    apply List.ext_getElem (by simp [hlen])
    intro i h1 h2
    rw [List.length_map] at h1 h2
    rw [List.getElem_map, List.getElem_map]
    obtain ⟨_, _, e1, _⟩ := walk_entry hts i h1 h2
    exact e1
  · intro w hwm rs hr hone
    obtain ⟨i, hi2, rfl⟩ := List.mem_iff_getElem.mp hwm
    have hi : i < ts.length := by omega
    obtain ⟨info, e1, e2, e3, e4, e5, _, e6, e7⟩ := walk_entry hts i hi hi2
    have hty : ts[i].1.typeflag = info.typeflag := by
      rcases e5 with e5 | ⟨_, k, hk, e8⟩
      · exact e5
      · exfalso
        have e9 := hone _ (List.getElem_mem (show k < _ by omega)) e8
        have hnd := hw.once
        have := (List.Nodup.getElem_inj_iff hnd (i := k) (j := i) (hi := by simp; omega) (hj := by simpa using hi2)).mp (by simpa using e9)
        omega
    refine ⟨info, e1, _, _, h3.there ts[i] (List.mem_append_right _ (List.getElem_mem hi)) (cs ++ rs) ?_, e2, hty, e4, e3, ?_, ?_⟩
    · rw [e2]; exact hnm _ hwm rs hr
    · intro hr'; exact e6 (hty.trans hr')
    · intro hr'; exact e7 (fun e => hr' (hty.symm.trans e))

/-! ### examples -/

def exBase : List (List Entry) :=
  [[⟨⟨"a".toList, '5', [], 0, 0o700, []⟩, []⟩, ⟨⟨"a/old".toList, '0', [], 1, 0o600, []⟩, [9]⟩,
    ⟨⟨"keep".toList, '0', [], 1, 0o600, []⟩, [8]⟩]]

theorem named_of {name : Str} {ps : List Str}
    (h : (decide (ps ≠ []) && ps.all (fun c => decide (c ≠ []) && decide (c ≠ ".".toList) && decide (c ≠ "..".toList) && decide ('/' ∉ c) &&
      !decide (isMarker c)) && decide (name = join ['/'] ps)) = true) : Spec.Named name ps := by
  simp only [Bool.and_eq_true, decide_eq_true_eq, List.all_eq_true, Bool.not_eq_true', decide_eq_false_iff_not] at h
  exact ⟨h.1.1, fun c hc => by
    obtain ⟨⟨⟨⟨h1, h2⟩, h3⟩, h4⟩, h5⟩ := h.1.2 c hc
    exact ⟨⟨h1, h2, h3, h4⟩, h5⟩, h.2⟩

theorem exBase_inside : ∀ l ∈ exBase, ∀ e ∈ l, ¬ Outside e.header.name := by
  intro l hl e he
  have h : ∀ l ∈ exBase, ∀ e ∈ l, e.header.name = "a".toList ∨ e.header.name = "a/old".toList ∨ e.header.name = "keep".toList := by decide +kernel
  rcases h l hl e he with h | h | h
  · exact named_inside (ps := ["a".toList]) (named_of (by rw [h]; decide +kernel))
  · exact named_inside (ps := ["a".toList, "old".toList]) (named_of (by rw [h]; decide +kernel))
  · exact named_inside (ps := ["keep".toList]) (named_of (by rw [h]; decide +kernel))

/-- the hypotheses of `C104_refs` are met by the references of `sampleRefs` on top of an image that has files of its own -/
example : Spec.RefTree sampleRefs ∧ (∀ l ∈ exBase, ∀ e ∈ l, ¬ Outside e.header.name) ∧
    ∃ es, layerFromRefs insertionSort (fun _ => true) 5 sampleRefs = .ok es ∧ NoThrough (exBase ++ [es.map (Spec.entry (fun _ => []))]) := by
  have e0 : ∀ f ∈ sampleRefs, f.name = "a-b".toList ∨ f.name = "a/x".toList ∨ f = ⟨"a".toList, some (sampleHdr [] '5' 9 0), none⟩ := by
    intro f hf
    simp only [sampleRefs, List.mem_cons, List.not_mem_nil, or_false] at hf
    rcases hf with rfl | rfl | rfl
    · exact Or.inl rfl
    · exact Or.inr (Or.inl rfl)
    · exact Or.inr (Or.inr rfl)
  refine ⟨⟨?_, by decide, ?_⟩, exBase_inside, ?_⟩
  · intro f hf
    rcases e0 f hf with e | e | e
    · exact ⟨["a-b".toList], named_of (by rw [e]; decide +kernel)⟩
    · exact ⟨["a".toList, "x".toList], named_of (by rw [e]; decide +kernel)⟩
    · exact ⟨["a".toList], named_of (by rw [e]; decide +kernel)⟩
  · intro a ha b hb hab
    have nm : ∀ f ∈ sampleRefs, f.name.length ≤ 3 ∧ f.name ≠ "a-b/".toList := by decide
    rcases e0 a ha with e | e | e
    · obtain ⟨t, ht⟩ := hab
      have := (nm b hb).1
      rw [ht, e] at this
      simp at this
    · obtain ⟨t, ht⟩ := hab
      have := (nm b hb).1
      rw [ht, e] at this
      simp at this
    · rw [e]
      exact ⟨_, rfl, rfl⟩
  · exact ⟨_, rfl, by decide +kernel⟩

/-- the hypotheses of `C104_dir_partial` are met by `sampleWalk` (which has a file with two names and a symlink) below a prefix, on top of
an image that has files of its own -/
example : Spec.WalkTree sampleWalk ∧ Spec.PrefixElems (some ⟨"usr/bin".toList, 0, ⟨0, [], 0, []⟩⟩) ["usr".toList, "bin".toList] ∧
    ∃ es, layerFromDir 3 (fun _ => true) (some ⟨"usr/bin".toList, 0, ⟨0, [], 0, []⟩⟩) none 0 5 sampleWalk = some (.ok es) ∧
      NoThrough (exBase ++ [es.map (Spec.entry (fun _ => []))]) := by
  have e0 : ∀ w ∈ Fsutil.Spec.tree sampleWalk, w = ⟨false, "d".toList, some (sampleHdr [] '5' 9 0), 2, none, none⟩ ∨
      ((w.rel = "d/f".toList ∨ w.rel = "g".toList ∨ w.rel = "s".toList) ∧ ∃ i, w.info = some i ∧ i.typeflag ≠ '5') := by
    intro w hw
    have : w ∈ [(⟨false, "d".toList, some (sampleHdr [] '5' 9 0), 2, none, none⟩ : WalkItem),
      ⟨false, "d/f".toList, some (sampleHdr [] '0' 3 2), 3, none, some [1, 2]⟩,
      ⟨false, "g".toList, some (sampleHdr [] '0' 3 2), 3, none, some [1, 2]⟩,
      ⟨false, "s".toList, some (sampleHdr [] '2' 4 0), 4, some "g".toList, none⟩] := hw
    simp only [List.mem_cons, List.not_mem_nil, or_false] at this
    rcases this with rfl | rfl | rfl | rfl
    · exact Or.inl rfl
    · exact Or.inr ⟨Or.inl rfl, _, rfl, by decide⟩
    · exact Or.inr ⟨Or.inr (Or.inl rfl), _, rfl, by decide⟩
    · exact Or.inr ⟨Or.inr (Or.inr rfl), _, rfl, by decide⟩
  have names : ∀ w ∈ Fsutil.Spec.tree sampleWalk, w.rel ∈ ["d".toList, "d/f".toList, "g".toList, "s".toList] := fun w hw =>
    List.mem_map_of_mem (f := (·.rel)) hw
  refine ⟨⟨?_, by decide +kernel, ?_, ?_⟩, named_of (by decide +kernel), ?_⟩
  · intro w hw
    rcases e0 w hw with e | ⟨e | e | e, _⟩
    · exact ⟨["d".toList], named_of (by rw [e]; decide +kernel)⟩
    · exact ⟨["d".toList, "f".toList], named_of (by rw [e]; decide +kernel)⟩
    · exact ⟨["g".toList], named_of (by rw [e]; decide +kernel)⟩
    · exact ⟨["s".toList], named_of (by rw [e]; decide +kernel)⟩
  · intro a ha b hb hab
    rcases e0 a ha with e | ⟨e, _⟩
    · rw [e]; exact ⟨_, rfl, rfl⟩
    · exfalso
      obtain ⟨t, ht⟩ := hab
      have := names b hb
      rw [ht] at this
      rcases e with e | e | e <;> rw [e] at this <;> simp at this
  · intro a ha b hb hab hd
    rcases e0 a ha with e | ⟨_, i, hi, hne⟩
    · subst e
      have : ∀ w ∈ Fsutil.Spec.tree sampleWalk, w.file = 2 → w.rel = "d".toList := by
        have : (Fsutil.Spec.tree sampleWalk).all (fun w => !decide (w.file = 2) || decide (w.rel = "d".toList)) = true := by decide +kernel
        intro w hw hf
        have := List.all_eq_true.mp this w hw
        simpa [hf] using this
      exact (this b hb hab.symm).symm
    · obtain ⟨i', hi', ht⟩ := hd
      rw [hi] at hi'
      cases hi'
      exact absurd ht hne
  · exact ⟨_, rfl, by decide +kernel⟩

/-- **C104 does not hold** for directories in which a file is named like a whiteout marker: the directory holds only the file `.wh.a`;
put on top of an image with a file `a`, the layer removes `a`. -/
theorem C104_violated : ∃ walk es, (Fsutil.Spec.tree walk).map (·.rel) = [".wh.a".toList] ∧
    layerFromDir 1 (fun _ => true) none none 0 5 walk = some (.ok es) ∧
    ∃ S T, loadLayers 5 [[⟨⟨"a".toList, '0', [], 1, 0o600, []⟩, [9]⟩]] false = some (.ok S) ∧
      loadLayers 5 ([[⟨⟨"a".toList, '0', [], 1, 0o600, []⟩, [9]⟩]] ++ [es.map (Spec.entry (fun _ => []))]) false = some (.ok T) ∧
      S.get? ["a".toList] ≠ none ∧ T.get? ["a".toList] = none := by
  refine ⟨[⟨false, ".".toList, none, 1, none, none⟩, ⟨false, ".wh.a".toList, some (sampleHdr [] '0' 3 1), 2, none, some [7]⟩],
    [(sampleHdr ".wh.a".toList '0' 3 1, [7])], by decide, by decide +kernel, ?_⟩
  exact ⟨_, _, rfl, rfl, by decide +kernel, by decide +kernel⟩

end Onto
