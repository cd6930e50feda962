import Verif.Image.Complete
import Verif.Image.PropsWheel
/-! C104 and C105 on images with symlinks. -/
namespace Onto
open Go Fsutil Bdist
open Python (Platform)
open Squash (Entry Node FS loadLayers)
open Squash.Spec (isMarker Visible asDir Outside isFile LoadsTo LinksFine emptyView inOrder StraightTarget)

/-- every directory above an entry has an entry, and it comes before -/
def Spec.ParentsFirst (es : List (Hdr × Bytes)) : Prop :=
  ∀ pre e post, es = pre ++ e :: post → ∀ d, Fsutil.Spec.Below e.1.name d → ∃ e' ∈ pre, e'.1.name = d

theorem parents_before {rest : Hdr → Str} {es : List (Hdr × Bytes)} (h : Spec.Tree es) (hp : Spec.ParentsFirst es) :
    Squash.ParentsBefore (es.map (Spec.entry rest)) := by
  intro pre x post he
  obtain ⟨p1, p2, rfl, h1, h2⟩ := List.map_eq_append_iff.mp he
  obtain ⟨e, p3, rfl, rfl, h3⟩ := List.map_eq_cons_iff.mp h2
  obtain ⟨ps, hn⟩ := h.named e (by simp)
  rw [named_path hn]
  refine ⟨hn.1, fun q hq hq' h0 => ?_⟩
  obtain ⟨t, rfl⟩ := hq
  have ht : t ≠ [] := by rintro rfl; exact hq' (by simp)
  obtain ⟨e', he', hd⟩ := hp p1 e p3 rfl (join ['/'] q) ⟨join ['/'] t, by rw [hn.2.2, join_below h0 ht]⟩
  refine ⟨Spec.entry rest e', by rw [← h1]; exact List.mem_map_of_mem he', ?_⟩
  exact named_path ⟨h0, fun c hc => hn.2.1 c (by simp [hc]), hd⟩

/-- the two images, with what loading keeps -/
theorem complete_added {rest : Hdr → Str} {es : List (Hdr × Bytes)} (h : Spec.Tree es) (hp : Spec.ParentsFirst es)
    (hs : ∀ e ∈ es, e.1.typeflag = typeSymlink → StraightTarget e.1.linkname ∧ Visible (Squash.Spec.comps e.1.linkname))
    {base : List (List Entry)} (hin : ∀ l ∈ base, ∀ e ∈ l, ¬ Outside e.header.name) (hf : ∀ l ∈ base, ∀ e ∈ l, LinksFine e)
    {V : Squash.Spec.View} (hw : LoadsTo emptyView (base.flatMap inOrder) V) :
    ∃ n0 S T, Squash.Kept False S V ∧ (∃ W, Squash.Kept False T W) ∧ ∀ n, n0 ≤ n → loadLayers n base false = some (.ok S) ∧
      loadLayers n (base ++ [es.map (Spec.entry rest)]) false = some (.ok T) ∧ Spec.Added rest n S T es := by
  have htl := tree_layer (rest := rest) h
  have hpb := parents_before (rest := rest) h hp
  have hmem : ∀ e ∈ es, Spec.entry rest e ∈ es.map (Spec.entry rest) := fun e he => List.mem_map.mpr ⟨e, he, rfl⟩
  have e0 : ∀ es : List Entry, es.map (Squash.dropBody false) = es := by
    intro es
    have : Squash.dropBody false = id := by funext e; rfl
    rw [this]; simp
  have k0 : Squash.Kept False Squash.emptyFS emptyView :=
    ⟨False.elim, Squash.inv_empty false, fun q _ => Squash.get?_emptyFS q, by
      intro p l h
      exact (Squash.sim_empty (fun _ => False)).link p l h |>.elim⟩
  obtain ⟨n1, S, s1, kS⟩ := Squash.loadFrom_kept (oc := false) base Squash.emptyFS emptyView V k0
    (fun l h1 e h2 => Squash.inside_false (hin l h1 e h2)) hf False.elim (by rw [e0]; exact hw)
  have hlo := Squash.complete_loads htl hpb V
  have hput := Squash.applyLayer_putIn htl V
  have hinall : ∀ l ∈ base ++ [es.map (Spec.entry rest)], ∀ e ∈ l, ¬ Outside e.header.name := by
    intro l hl e he
    rcases List.mem_append.mp hl with hl | hl
    · exact hin l hl e he
    · rw [List.mem_singleton] at hl; subst hl; exact htl.inside e he
  have hfall : ∀ l ∈ base ++ [es.map (Spec.entry rest)], ∀ e ∈ l, LinksFine e := by
    intro l hl e he
    rcases List.mem_append.mp hl with hl | hl
    · exact hf l hl e he
    · rw [List.mem_singleton] at hl; subst hl
      have hv := htl.visible e he
      refine ⟨fun c hc => hv c (List.dropLast_subset _ hc), ?_, ?_⟩
      · intro _
        obtain ⟨p1, p2, e1⟩ := List.append_of_mem he
        exact (hpb p1 e p2 e1).1
      · intro ht
        obtain ⟨x, hx, rfl⟩ := List.mem_map.mp he
        exact hs x hx ht
  obtain ⟨n2, T, t1, kT⟩ := Squash.loadFrom_kept (oc := false) (base ++ [es.map (Spec.entry rest)]) Squash.emptyFS emptyView
    (Squash.Spec.applyLayer V (es.map (Spec.entry rest))) k0
    (fun l h1 e h2 => Squash.inside_false (hinall l h1 e h2)) hfall False.elim (by
      rw [e0, List.flatMap_append]
      refine Squash.loadsTo_append hw ?_
      rw [List.flatMap_cons, List.flatMap_nil, List.append_nil]
      exact hlo)
  have s2 := kS.view
  have t2 := kT.view
  have hvis : ∀ {name : Str} {ps : List Str}, Spec.Named name ps → Visible ps := fun hp c hc => (hp.2.1 c hc).2
  have hvp : ∀ {q ps : List Str}, Visible ps → q <+: ps → Visible q := fun hv hq c hc => hv c (hq.subset hc)
  have hthere : ∀ e ∈ es, ∀ ps, Spec.Named e.1.name ps → T.get? ps = some (Spec.node rest e) := by
    intro e he ps hp
    have := hput.file _ (hmem e he)
    rw [named_path hp, named_node hp] at this
    rw [t2 ps (hvis hp), this]
  have habove : ∀ e ∈ es, ∀ ps, Spec.Named e.1.name ps → ∀ q, q <+: ps → (∀ e' ∈ es, ¬ Spec.Named e'.1.name q) → T.get? q = some (asDir (S.get? q)) := by
    intro e he ps hp q hq hne
    have hv := hvp (hvis hp) hq
    rw [t2 q hv, s2 q hv]
    refine hput.above _ (hmem e he) q (by rw [named_path hp]; exact hq) ?_
    intro x hx e2
    obtain ⟨e', he', rfl⟩ := List.mem_map.mp hx
    obtain ⟨qs, hqs⟩ := h.named e' he'
    rw [named_path hqs] at e2
    exact hne e' he' (e2 ▸ hqs)
  refine ⟨n1 + n2 + 2, S, T, kS, ⟨_, kT⟩, fun n hn => ⟨s1 n (by omega), t1 n (by omega), hthere, ?_, habove, ?_, ?_⟩⟩
  · intro e he ps hp ht
    obtain ⟨k, rfl⟩ : ∃ k, n = k + 2 := ⟨n - 2, by omega⟩
    have hg := hthere e he ps hp
    rw [← named_comps hp] at hg ⊢
    refine (Squash.open_exact kT.inv (named_valid hp) ?_).1 _ hg ?_
    · intro t h3 h4
      rw [named_comps hp] at h3 h4
      by_cases h0 : ∃ e' ∈ es, Spec.Named e'.1.name t
      · obtain ⟨e', he', hn'⟩ := h0
        rw [Squash.link_of_get (hthere e' he' t hn')]
        have hty := htl.tree _ (hmem e' he') _ (hmem e he) (by rw [named_path hn', named_path hp]; exact h3)
          (by rw [named_path hn', named_path hp]; exact h4)
        simp only [Squash.Node.link, Spec.node]
        rw [hty]
        exact if_neg (by decide)
      · have := habove e he ps hp t h3 (fun e' he' hn' => h0 ⟨e', he', hn'⟩)
        rw [Squash.link_of_get this]
        cases hl : (asDir (S.get? t)).link with
        | none => rfl
        | some l => exact absurd (Squash.linkTo_iff.mpr hl) (Squash.asDir_no_link _ _)
    · simp only [Squash.Node.link, Spec.node, Spec.entry]
      exact if_neg ht
  · intro e he ps hp ht q hv hq hne
    rw [t2 q hv]
    exact hput.below _ (hmem e he) ht q (by rw [named_path hp]; exact hq) (by rw [named_path hp]; exact hne)
  · intro q hv hq
    rw [t2 q hv, s2 q hv]
    refine hput.other q ?_
    intro x hx
    obtain ⟨e, he, rfl⟩ := List.mem_map.mp hx
    obtain ⟨ps, hp⟩ := h.named e he
    rw [named_path hp]
    exact hq e he ps hp

/-- **C104** on images with symlinks: a layer in which every entry comes after the directories above it, put on top of any image whose
symlinks are as in C98 and C99, puts exactly its files in, at their own names; where the image has a symlink on the way to them, it is
replaced by the layer's directory. -/
theorem C104_complete {rest : Hdr → Str} {es : List (Hdr × Bytes)} (h : Spec.Tree es) (hp : Spec.ParentsFirst es)
    (hs : ∀ e ∈ es, e.1.typeflag = typeSymlink → StraightTarget e.1.linkname ∧ Visible (Squash.Spec.comps e.1.linkname))
    {base : List (List Entry)} (hin : ∀ l ∈ base, ∀ e ∈ l, ¬ Outside e.header.name) (hf : ∀ l ∈ base, ∀ e ∈ l, LinksFine e)
    {V : Squash.Spec.View} (hw : LoadsTo emptyView (base.flatMap inOrder) V) :
    ∃ n0 S T, (∀ q, Visible q → S.get? q = V q) ∧ ∀ n, n0 ≤ n → loadLayers n base false = some (.ok S) ∧
      loadLayers n (base ++ [es.map (Spec.entry rest)]) false = some (.ok T) ∧ Spec.Added rest n S T es := by
  obtain ⟨n0, S, T, kS, _, h1⟩ := complete_added (rest := rest) h hp hs hin hf hw
  exact ⟨n0, S, T, kS.view, h1⟩

/-- in a layer that `InstallWheel` makes an entry comes after those of the directories above it -/
theorem install_parents_first {w : World} (hsort : SortSlice w.sortSlice) (hc : Bdist.Spec.TidyCompiler w.toEnv) {plat : Platform}
    (hp : Bdist.Spec.ProperScheme plat.scheme) {minTime maxTime : Option Int} {hook : Hook} {zip : List ZFile}
    (hh : ∀ p t vfs dir a, sanitizePlatform plat = .ok p → VfsRun w.toEnv p minTime t zip (.ok (vfs, dir)) → Good vfs →
      hook t vfs dir = .ok a → Good a)
    {layer : List (Hdr × Bytes)} (h : InstallRun w plat minTime maxTime hook zip (.ok layer)) : Spec.ParentsFirst layer := by
  obtain ⟨p, vfs, dir, vfs1, vfs2, hsan, _, hv, hk, _, g1, g2, kept, made, others, hnames, hents⟩ := install_inv_hook hsort hc hp hh h
  have hclean : ∀ e ∈ layer, clean e.1.name = e.1.name := by
    intro e he
    obtain ⟨r, i, hg, _⟩ := hents e he
    exact (g2.file _ _ hg).1.1
  have hpar : ∀ e ∈ layer, ∀ n, Bdist.Spec.Parent n e.1.name → ∃ e' ∈ layer, e'.1.name = n := by
    intro e he n hn
    obtain ⟨r, i, hg, _⟩ := hents e he
    have hup : ∃ k ∈ vfs1.keys, Bdist.Spec.Parent n k := by
      cases hg1 : vfs1.get? e.1.name with
      | some r1 => exact ⟨e.1.name, by rw [Map.mem_keys_iff, hg1]; simp, hn⟩
      | none =>
        by_cases hex : ∃ j ∈ vfs1.keys, Bdist.Spec.Parent e.1.name j
        · obtain ⟨j, hj, hpj⟩ := hex
          exact ⟨j, hj, parent_trans hn hpj⟩
        · rw [others _ hg1 hex] at hg; cases hg
    have hk2 : n ∈ vfs2.keys := by
      rw [Map.mem_keys_iff]
      cases hgn : vfs1.get? n with
      | none => rw [made n hgn hup]; simp
      | some rn => rw [kept n rn hgn]; simp
    obtain ⟨e', he', hn'⟩ := List.mem_map.mp (hnames.mem_iff.mpr hk2)
    exact ⟨e', he', hn'⟩
  have hord : (layer.map (·.1.name)).Pairwise (fun earlier later => ¬ Fsutil.Spec.Below earlier later) := by
    cases h with
    | run hsan hint h =>
    cases h with
    | @done vfs vfs1 vfs2 order dir layer hv hk hr ho hl =>
    unfold layerOf at hl
    split at hl
    · cases hl
    · rename_i refs hrefs
      refine C54_directories_first hsort ?_ hl
      intro f hf
      have hm := (C54_entries_are_the_files hsort hl).mem_iff.mpr (List.mem_map_of_mem (f := fun f : FileRef => f.name) hf)
      obtain ⟨e, he, e1⟩ := List.mem_map.mp hm
      rw [← e1]
      exact hclean e he
  intro pre e post he d ⟨x, hd⟩
  obtain ⟨e', he', hn'⟩ := hpar e (by rw [he]; simp) d ⟨x, hd⟩
  refine ⟨e', ?_, hn'⟩
  rw [he] at he'
  rcases List.mem_append.mp he' with h1 | h1
  · exact h1
  · exfalso
    rcases List.mem_cons.mp h1 with rfl | h1
    · rw [hn'] at hd
      have := congrArg List.length hd
      simp at this
    · rw [he, List.map_append, List.map_cons] at hord
      have := (List.pairwise_cons.mp (List.pairwise_append.mp hord).2.1).1 e'.1.name (List.mem_map_of_mem (f := fun e : Hdr × Bytes => e.1.name) h1)
      exact this ⟨x, by rw [hn']; exact hd⟩

/-- in the layer of an ordinary wheel there are only directories and regular files, and an entry comes after those of the directories
above it -/
theorem command_shape {w : World} (hsort : SortSlice w.sortSlice) {env : HookEnv} (hrows : SortSlice env.sortRows)
    {plat : Platform} {zip : List ZFile} (ho : Bdist.Spec.Ordinary w env plat zip) {layer : List (Hdr × Bytes)}
    (h : CommandRun w env plat zip (.ok layer)) :
    Spec.ParentsFirst layer ∧ ∀ e ∈ layer, e.1.typeflag = typeDir ∨ e.1.typeflag = typeReg := by
  obtain ⟨gui, oS, oR, hoS, hoR, h⟩ := h
  have hgood : ∀ p t vfs dir a, sanitizePlatform plat = .ok p → VfsRun w.toEnv p none t zip (.ok (vfs, dir)) →
      commandHook env gui oS oR plat t vfs dir = .ok a → ∃ cs info b, dir = render false (cs ++ [info]) ∧ Handed w.digest plat p zip b cs info ∧
        recordHook env oR "sha256".toList "ocibuild layer wheel".toList none t b (render false (cs ++ [info])) = .ok a := by
    intro p t vfs dir a hsan h1 hk
    obtain ⟨q, hq, _⟩ := sanitize_init hsan
    obtain ⟨cs, info, hdir, hh⟩ := handed ho.scheme hsan ho.compiler ho.down h1
    obtain ⟨b, hb1, hb2⟩ := command_ok hk
    have hfit : ∀ cfg, Bdist.Spec.EntryPoints env.decode vfs dir cfg → Bdist.Spec.Fits q dir cfg := fun cfg hc => ho.fits p q t vfs dir cfg hsan hq h1 hc
    subst hdir
    exact ⟨cs, info, b, rfl, scripts_handed ho.scheme hq hoS hh hfit hb1 (scripts_wf hb1 hh.tame.good.wf), hb2⟩
  have hgood' : ∀ p t vfs dir a, sanitizePlatform plat = .ok p → VfsRun w.toEnv p none t zip (.ok (vfs, dir)) → Good vfs →
      commandHook env gui oS oR plat t vfs dir = .ok a → Good a := by
    intro p t vfs dir a hsan h1 _ hk
    obtain ⟨cs, info, b, _, hh, hb⟩ := hgood p t vfs dir a hsan h1 hk
    exact (C51_record env hrows oR hoR _ _ _ t b hh.tame cs info hh.plain hh.noRecord a hb).2.1.good
  refine ⟨install_parents_first hsort ho.compiler.tidy (clean_proper ho.scheme) hgood' h, ?_⟩
  obtain ⟨p, vfs, dir, vfs1, vfs2, hsan, _, hv, hk, _, g1, g2, kept, made, others, hnames, hents⟩ :=
    install_inv_hook hsort ho.compiler.tidy (clean_proper ho.scheme) (hook := commandHook env gui oS oR plat) hgood' h
  obtain ⟨cs, info, b, hdir, hh, hb⟩ := hgood _ _ _ _ _ hsan hv hk
  obtain ⟨⟨n1, _, n3⟩, htame, rows, hrec, hsorted, hiff⟩ := C51_record env hrows oR hoR _ _ _ _ b hh.tame cs info hh.plain hh.noRecord _ hb
  have hrefs : ∀ n r, vfs1.get? n = some r → RefOK w.digest p r := by
    intro n r hr
    by_cases e1 : n = render false (cs ++ [info]) ++ "/INSTALLER".toList
    · rw [e1, n1] at hr; cases hr; exact memFile_ok ..
    · by_cases e2 : n = render false (cs ++ [info]) ++ "/RECORD".toList
      · rw [e2, hrec] at hr; cases hr; exact memFile_ok ..
      · rw [n3 n e1 e2 (fun _ => rfl)] at hr
        exact hh.refs n r hr
  intro e he
  obtain ⟨r, i, hg, hi, hE, _⟩ := hents e he
  have hty : e.1.typeflag = i.typeflag := by rw [hE]; rfl
  rw [hty]
  cases hg1 : vfs1.get? e.1.name with
  | some r1 =>
    rw [kept _ _ hg1] at hg
    cases hg
    by_cases hd : i.typeflag = typeDir
    · exact Or.inl hd
    · exact Or.inr ((hrefs _ _ hg1).type i hi hd).1
  | none =>
    by_cases hex : ∃ j ∈ vfs1.keys, Bdist.Spec.Parent e.1.name j
    · rw [made _ hg1 hex] at hg
      cases hg
      cases hi
      exact Or.inl rfl
    · rw [others _ hg1 hex] at hg; cases hg

/-- **C105** for ordinary wheels, on images with symlinks: put on top of an image whose symlinks are as in C98 and C99, the layer that
`ocibuild layer wheel` makes puts exactly its files in; where the image has a symlink on the way to them, the layer's directory takes
its place.  RECORD and the files that are new in the image are as in `C105_wheel_partial`.

Missing for the full claim: names with elements like whiteout markers, files with others below them, and the symlinks of the image that
C98 and C99 leave out. -/
theorem C105_links_partial (w : World) (hsort : SortSlice w.sortSlice) (env : HookEnv) (hrows : SortSlice env.sortRows) (hdigest : env.digest = w.digest)
    (plat : Platform) (zip : List ZFile) (ho : Bdist.Spec.Ordinary w env plat zip) (layer : List (Hdr × Bytes)) (h : CommandRun w env plat zip (.ok layer))
    (hmark : ∀ e ∈ layer, ∀ c ∈ split '/' e.1.name, ¬ isMarker c) (hdot : ∀ e ∈ layer, e.1.name ≠ ".".toList)
    (htree : ∀ a ∈ layer, ∀ b ∈ layer, Fsutil.Spec.Below b.1.name a.1.name → a.1.typeflag = typeDir)
    (rest : Hdr → Str) (below : List (List Entry)) (hin : ∀ l ∈ below, ∀ e ∈ l, ¬ Outside e.header.name)
    (hf : ∀ l ∈ below, ∀ e ∈ l, LinksFine e) (V : Squash.Spec.View) (hV : LoadsTo emptyView (below.flatMap inOrder) V) :
    ∃ n0 S T, (∀ q, Visible q → S.get? q = V q) ∧ ∀ n, n0 ≤ n → loadLayers n below false = some (.ok S) ∧
      loadLayers n (below ++ [layer.map (Spec.entry rest)]) false = some (.ok T) ∧ Spec.Added rest n S T layer ∧
      ∃ q base info rows, plat.init = .ok q ∧ Bdist.Spec.TheInfoDir zip info ∧
        ('/' :: base = plat.scheme.pureLib ∨ '/' :: base = plat.scheme.platLib) ∧
        (∃ hdr, T.get? (split '/' (base ++ "/".toList ++ info ++ "/RECORD".toList)) = some ⟨some hdr, env.csvWrite rows⟩ ∧ hdr.typeflag = typeReg) ∧
        (∀ p nd, Visible p → T.get? p = some nd → isFile nd → T.get? p ≠ S.get? p →
          ∃ e ∈ layer, Spec.Named e.1.name p ∧ nd = Spec.node rest e ∧
            ∃ row ∈ rows, Bdist.Spec.LayerRow w.digest q base (base ++ "/".toList ++ info ++ "/RECORD".toList) e row) ∧
        ∀ row ∈ rows, ∃ e ∈ layer, ∃ p, Spec.Named e.1.name p ∧ T.get? p = some (Spec.node rest e) ∧
          Bdist.Spec.LayerRow w.digest q base (base ++ "/".toList ++ info ++ "/RECORD".toList) e row := by
  obtain ⟨honce, helems⟩ := command_names hsort hrows ho h
  obtain ⟨hfirst, htypes⟩ := command_shape hsort hrows ho h
  have hnm := layer_named helems hmark hdot
  have ht : Spec.Tree layer := ⟨fun e he => ⟨_, hnm e he⟩, honce, htree⟩
  obtain ⟨n0, S, T, h0, h1⟩ := C104_complete (rest := rest) ht hfirst (by
    intro e he hs
    rcases htypes e he with h | h <;> rw [h] at hs <;> exact absurd hs (by decide)) hin hf hV
  refine ⟨n0, S, T, h0, fun n hn => ⟨(h1 n hn).1, (h1 n hn).2.1, (h1 n hn).2.2, ?_⟩⟩
  exact recorded w hsort env hrows hdigest plat zip ho layer h hnm (h1 n hn).2.2

/-! ### examples -/

/-- an image with "l" a symlink to "m" -/
def exLinked : List (List Entry) :=
  [[⟨⟨"m".toList, '5', [], 0, 0o755, []⟩, []⟩, ⟨⟨"m/f".toList, '0', [], 1, 0o600, []⟩, [1]⟩, ⟨⟨"l".toList, '2', "m".toList, 0, 0o777, []⟩, []⟩]]

def exLinkedView : Squash.Spec.View := (exLinked.flatMap inOrder).foldl Squash.Spec.apply emptyView

theorem exLinked_loads : LoadsTo emptyView (exLinked.flatMap inOrder) exLinkedView := by
  have e : exLinked.flatMap inOrder = [⟨⟨"m".toList, '5', [], 0, 0o755, []⟩, []⟩, ⟨⟨"m/f".toList, '0', [], 1, 0o600, []⟩, [1]⟩,
      ⟨⟨"l".toList, '2', "m".toList, 0, 0o777, []⟩, []⟩] := by decide +kernel
  unfold exLinkedView
  rw [e]
  exact .cons (Squash.goes_plain (by decide +kernel) (by decide +kernel) (by decide +kernel)) (.cons (Squash.goes_plain (by decide +kernel) (by decide +kernel) (by decide +kernel))
    (.cons (Squash.goes_plain (by decide +kernel) (by decide +kernel) (by decide +kernel)) .nil))

theorem exLinked_inside : ∀ l ∈ exLinked, ∀ e ∈ l, ¬ Outside e.header.name := by
  intro l hl e he
  have h : ∀ l ∈ exLinked, ∀ e ∈ l, e.header.name = "m".toList ∨ e.header.name = "m/f".toList ∨ e.header.name = "l".toList := by decide +kernel
  rcases h l hl e he with h | h | h
  · exact named_inside (ps := ["m".toList]) (named_of (by rw [h]; decide +kernel))
  · exact named_inside (ps := ["m".toList, "f".toList]) (named_of (by rw [h]; decide +kernel))
  · exact named_inside (ps := ["l".toList]) (named_of (by rw [h]; decide +kernel))

theorem exLinked_fine : ∀ l ∈ exLinked, ∀ e ∈ l, LinksFine e := by
  have key : ∀ l ∈ exLinked, ∀ e ∈ l, Visible (Squash.Spec.pathOf e).dropLast ∧ (e.header.typeflag = '2' → Squash.Spec.pathOf e ≠ [] ∧
      e.header.linkname = "m".toList) := by decide +kernel
  intro l hl e he
  obtain ⟨h1, h2⟩ := key l hl e he
  refine ⟨h1, fun h => (h2 h).1, fun h => ?_⟩
  rw [(h2 h).2]
  exact ⟨⟨by decide, 0, ["m".toList], by decide +kernel, by decide +kernel, fun _ => by simp⟩, by decide +kernel⟩

/-- the command's layer for the sample wheel, all of it below "l", meets the conditions of `C104_complete` and of `C105_links_partial`
on top of an image in which "l" is a symlink -/
example : Bdist.Spec.Ordinary cmdWorld toyHookEnv toyPlat cmdZip ∧ ∃ layer, CommandRun cmdWorld toyHookEnv toyPlat cmdZip (.ok layer) ∧
    (∀ e ∈ layer, ∀ c ∈ split '/' e.1.name, ¬ isMarker c) ∧ (∀ e ∈ layer, e.1.name ≠ ".".toList) ∧
    (∀ a ∈ layer, ∀ b ∈ layer, Fsutil.Spec.Below b.1.name a.1.name → a.1.typeflag = typeDir) ∧
    (∃ e ∈ layer, Fsutil.Spec.Below e.1.name "l".toList) ∧
    (∀ l ∈ exLinked, ∀ e ∈ l, ¬ Outside e.header.name) ∧ (∀ l ∈ exLinked, ∀ e ∈ l, LinksFine e) ∧
    LoadsTo emptyView (exLinked.flatMap inOrder) exLinkedView := by
  refine ⟨cmd_ordinary, ?_⟩
  have hr := installOnce_run chooses_head cmdWorld toyPlat none none (commandHook toyHookEnv true id id toyPlat) cmdZip
  cases hi : installOnce (fun l => l.headD []) cmdWorld toyPlat none none (commandHook toyHookEnv true id id toyPlat) cmdZip with
  | ok layer =>
    have hchk : (match installOnce (fun l => l.headD []) cmdWorld toyPlat none none (commandHook toyHookEnv true id id toyPlat) cmdZip with
      | .ok layer => decide (∀ e ∈ layer, ∀ c ∈ split '/' e.1.name, ¬ isMarker c) && decide (∀ e ∈ layer, e.1.name ≠ ".".toList) &&
          layer.all (fun a => layer.all (fun b => decide (a.1.typeflag = typeDir) || !(a.1.name ++ ['/']).isPrefixOf b.1.name)) &&
          layer.any (fun a => ("l/".toList).isPrefixOf a.1.name)
      | _ => false) = true := by decide +kernel
    rw [hi] at hr hchk
    simp only [Bool.and_eq_true, decide_eq_true_eq, List.all_eq_true, Bool.or_eq_true, Bool.not_eq_true', List.any_eq_true] at hchk
    obtain ⟨⟨⟨c1, c2⟩, c3⟩, ⟨x, hx, c4⟩⟩ := hchk
    refine ⟨layer, ⟨true, id, id, fun _ => List.Perm.refl _, fun _ => List.Perm.refl _, hr⟩, c1, c2, ?_, ⟨x, hx, ?_⟩, exLinked_inside,
      exLinked_fine, exLinked_loads⟩
    · intro a ha b hb ⟨t, hab⟩
      rcases c3 a ha b hb with h | h
      · exact h
      · rw [hab] at h
        have : (a.1.name ++ ['/']).isPrefixOf (a.1.name ++ '/' :: t) = true := by
          rw [List.isPrefixOf_iff_prefix]; exact ⟨t, by simp⟩
        rw [h] at this
        cases this
    · obtain ⟨t, ht⟩ := List.isPrefixOf_iff_prefix.mp c4
      exact ⟨t, by rw [← ht]; rfl⟩
  | error => rw [hi] at hr; have hn := cmd_names; rw [hi] at hn; exact absurd hn (by decide)
  | panic => rw [hi] at hr; have hn := cmd_names; rw [hi] at hn; exact absurd hn (by decide)
  | hangs => rw [hi] at hr; have hn := cmd_names; rw [hi] at hn; exact absurd hn (by decide)

end Onto
