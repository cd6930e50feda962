import Verif.Image.Props
import Verif.Bdist.PropsCommand
/-! C105: the layer that `ocibuild layer wheel` makes, put on top of an image. -/
namespace Onto
open Go Fsutil Bdist
open Python (Platform)
open Squash (Entry Node FS loadLayers)
open Squash.Spec (isMarker Visible asDir NoThrough Outside isFile)

/-- the names in the layer of an ordinary wheel: relative paths without dots, each once -/
theorem command_names {w : World} (hsort : SortSlice w.sortSlice) {env : HookEnv} (hrows : SortSlice env.sortRows)
    {plat : Platform} {zip : List ZFile} (ho : Bdist.Spec.Ordinary w env plat zip) {layer : List (Hdr × Bytes)}
    (h : CommandRun w env plat zip (.ok layer)) :
    (layer.map (·.1.name)).Nodup ∧ ∀ e ∈ layer, ∃ ts, (∀ c ∈ ts, Plain c) ∧ e.1.name = render false ts := by
  obtain ⟨gui, oS, oR, hoS, hoR, h⟩ := h
  have hgood : ∀ p t vfs dir a, sanitizePlatform plat = .ok p → VfsRun w.toEnv p none t zip (.ok (vfs, dir)) →
      commandHook env gui oS oR plat t vfs dir = .ok a → Tame a := by
    intro p t vfs dir a hsan h1 hk
    obtain ⟨q, hq, _⟩ := sanitize_init hsan
    obtain ⟨cs, info, hdir, hh⟩ := handed ho.scheme hsan ho.compiler ho.down h1
    obtain ⟨b, hb1, hb2⟩ := command_ok hk
    have hfit : ∀ cfg, Bdist.Spec.EntryPoints env.decode vfs dir cfg → Bdist.Spec.Fits q dir cfg := fun cfg hc => ho.fits p q t vfs dir cfg hsan hq h1 hc
    subst hdir
    have hh' := scripts_handed ho.scheme hq hoS hh hfit hb1 (scripts_wf hb1 hh.tame.good.wf)
    exact (C51_record env hrows oR hoR _ _ _ t b hh'.tame cs info hh'.plain hh'.noRecord a hb2).2.1
  obtain ⟨p, vfs, dir, vfs1, vfs2, hsan, _, hv, hk, _, g1, g2, kept, made, others, hnames, hents⟩ :=
    install_inv_hook hsort ho.compiler.tidy (clean_proper ho.scheme) (hook := commandHook env gui oS oR plat)
      (fun p t vfs dir a hsan h1 _ hk => (hgood p t vfs dir a hsan h1 hk).good) h
  have ht := hgood _ _ _ _ _ hsan hv hk
  refine ⟨hnames.nodup_iff.mpr g2.wf, ?_⟩
  intro e he
  obtain ⟨r, i, hr, _⟩ := hents e he
  cases h1 : vfs1.get? e.1.name with
  | some r1 => exact (ht.elems h1).2
  | none =>
    by_cases hex : ∃ k ∈ vfs1.keys, Bdist.Spec.Parent e.1.name k
    · obtain ⟨k, hk1, hk2⟩ := hex
      obtain ⟨r2, hr2⟩ : ∃ r2, vfs1.get? k = some r2 := Option.ne_none_iff_exists'.mp ((Map.mem_keys_iff _ _).mp hk1)
      obtain ⟨ts, hts, rfl⟩ := (ht.elems hr2).2
      obtain ⟨j, hj0, hj, hn⟩ := (parent_iff (Squash.plains_clean hts false) _).mp hk2
      refine ⟨ts.take j, fun c hc => hts c (List.mem_of_mem_take hc), ?_⟩
      rw [hn, render, if_neg (by decide), if_neg]
      intro h0
      have := congrArg List.length h0
      rw [List.length_take, List.length_nil] at this
      omega
    · rw [others _ h1 hex] at hr
      cases hr

/-- a file that is new in the image, or other than it was, is one of those that were put in -/
theorem added_file {rest : Hdr → Str} {n : Nat} {S T : FS} {es : List (Hdr × Bytes)} (h : Spec.Added rest n S T es)  
    {q : List Str} (hv : Visible q) {nd : Node} (hnd : T.get? q = some nd) (hf : isFile nd) (hne : T.get? q ≠ S.get? q) :
    ∃ e ∈ es, Spec.Named e.1.name q ∧ e.1.typeflag ≠ typeDir ∧ nd = Spec.node rest e := by
  by_cases hq : ∃ e ∈ es, Spec.Named e.1.name q
  · obtain ⟨e, he, hn⟩ := hq
    have := h.there e he q hn
    rw [hnd] at this
    cases this
    refine ⟨e, he, hn, ?_, rfl⟩
    obtain ⟨hd, h1, h2⟩ := hf
    cases h1
    exact h2
  · exfalso
    apply hne
    refine h.other q hv ?_
    intro e he ps hp
    constructor
    · intro hpre
      have := h.above e he ps hp q hpre (fun e' he' hn => hq ⟨e', he', hn⟩)
      rw [hnd] at this
      cases this
      unfold asDir at hf
      cases hs : S.get? q with
      | none => rw [hs] at hf; obtain ⟨_, h1, _⟩ := hf; cases h1
      | some x =>
        rw [hs] at hf
        simp only at hf
        split at hf
        · obtain ⟨_, h1, _⟩ := hf; cases h1
        · rename_i hx; exact hx hf
    · intro hty hpre
      have := h.below e he ps hp hty q hv hpre (fun e' => hq ⟨e, he, e' ▸ hp⟩)
      rw [hnd] at this
      cases this

/-- the elements of the names in a layer -/
theorem layer_named {layer : List (Hdr × Bytes)} (helems : ∀ e ∈ layer, ∃ ts, (∀ c ∈ ts, Plain c) ∧ e.1.name = render false ts)
    (hmark : ∀ e ∈ layer, ∀ c ∈ split '/' e.1.name, ¬ isMarker c) (hdot : ∀ e ∈ layer, e.1.name ≠ ".".toList) :
    ∀ e ∈ layer, Spec.Named e.1.name (split '/' e.1.name) := by
  intro e he
  obtain ⟨ts, hts, e1⟩ := helems e he
  have hne : ts ≠ [] := by rintro rfl; exact hdot e he (e1.trans rfl)
  have hj : e.1.name = join ['/'] ts := by rw [e1]; simp [render, hne]
  have hs : split '/' e.1.name = ts := by rw [hj, split_join hne (fun c hc => (hts c hc).2.2.2)]
  refine ⟨by rw [hs]; exact hne, fun c hc => ⟨by rw [hs] at hc; exact hts c hc, hmark e he c hc⟩, by rw [hs]; exact hj⟩

/-- what RECORD says of an image into which exactly the files of the command's layer were put -/
theorem recorded (w : World) (hsort : SortSlice w.sortSlice) (env : HookEnv) (hrows : SortSlice env.sortRows) (hdigest : env.digest = w.digest)
    (plat : Platform) (zip : List ZFile) (ho : Bdist.Spec.Ordinary w env plat zip) (layer : List (Hdr × Bytes)) (h : CommandRun w env plat zip (.ok layer))
    (hnm : ∀ e ∈ layer, Spec.Named e.1.name (split '/' e.1.name)) {rest : Hdr → Str} {n : Nat} {S T : FS} (h3 : Spec.Added rest n S T layer) :
    ∃ q base info rows, plat.init = .ok q ∧ Bdist.Spec.TheInfoDir zip info ∧
      ('/' :: base = plat.scheme.pureLib ∨ '/' :: base = plat.scheme.platLib) ∧
      (∃ hdr, T.get? (split '/' (base ++ "/".toList ++ info ++ "/RECORD".toList)) = some ⟨some hdr, env.csvWrite rows⟩ ∧ hdr.typeflag = typeReg) ∧
      (∀ p nd, Visible p → T.get? p = some nd → isFile nd → T.get? p ≠ S.get? p →
        ∃ e ∈ layer, Spec.Named e.1.name p ∧ nd = Spec.node rest e ∧
          ∃ row ∈ rows, Bdist.Spec.LayerRow w.digest q base (base ++ "/".toList ++ info ++ "/RECORD".toList) e row) ∧
      ∀ row ∈ rows, ∃ e ∈ layer, ∃ p, Spec.Named e.1.name p ∧ T.get? p = some (Spec.node rest e) ∧
        Bdist.Spec.LayerRow w.digest q base (base ++ "/".toList ++ info ++ "/RECORD".toList) e row := by
  obtain ⟨base, info, rows, r1, r2, ⟨er, her, r3, r4, r5⟩, _, r6, r7⟩ :=
    C91_record_partial w hsort env hrows hdigest plat zip ho layer h
  obtain ⟨q, hq⟩ : ∃ q, plat.init = .ok q := by
    obtain ⟨row, _, q, hq, _⟩ := r6 er her (by rw [r4]; decide)
    exact ⟨q, hq⟩
  have hqq : ∀ q', plat.init = .ok q' → q' = q := by intro q' h; rw [hq] at h; cases h; rfl
  refine ⟨q, base, info, rows, hq, r1, r2, ?_, ?_, ?_⟩
  · have := h3.there er her _ (hnm er her)
    rw [r3] at this
    unfold Spec.node at this
    rw [r5] at this
    exact ⟨_, this, r4⟩
  · intro p nd hv hnd hf hne
    obtain ⟨e, he, hp, hty, rfl⟩ := added_file h3 hv hnd hf hne
    obtain ⟨row, hrow, q', hq', hr⟩ := r6 e he hty
    rw [hqq q' hq'] at hr
    exact ⟨e, he, hp, rfl, row, hrow, hr⟩
  · intro row hrow
    obtain ⟨e, he, _, q', hq', hr⟩ := r7 row hrow
    rw [hqq q' hq'] at hr
    exact ⟨e, he, _, hnm e he, h3.there e he _ (hnm e he), hr⟩

/-- **C105** for ordinary wheels: put on top of an image, the layer that `ocibuild layer wheel` makes puts exactly its files in.  RECORD is
in the image, in the wheel's `.dist-info` directory in purelib or platlib.  Every visible file of the image that was not there before, or
was another one, has a row in RECORD, with the checksum and size of its content in the image; and every row is that of such an entry,
which is in the image.

Missing for the full claim: names with elements like whiteout markers, files with others below them, and entries below symlinks of
the image. -/
theorem C105_wheel_partial (w : World) (hsort : SortSlice w.sortSlice) (env : HookEnv) (hrows : SortSlice env.sortRows) (hdigest : env.digest = w.digest)
    (plat : Platform) (zip : List ZFile) (ho : Bdist.Spec.Ordinary w env plat zip) (layer : List (Hdr × Bytes)) (h : CommandRun w env plat zip (.ok layer))
    (hmark : ∀ e ∈ layer, ∀ c ∈ split '/' e.1.name, ¬ isMarker c) (hdot : ∀ e ∈ layer, e.1.name ≠ ".".toList)
    (htree : ∀ a ∈ layer, ∀ b ∈ layer, Fsutil.Spec.Below b.1.name a.1.name → a.1.typeflag = typeDir)
    (rest : Hdr → Str) (below : List (List Entry)) (hin : ∀ l ∈ below, ∀ e ∈ l, ¬ Outside e.header.name)
    (hnt : NoThrough (below ++ [layer.map (Spec.entry rest)])) (n : Nat) (hn : 3 ≤ n) :
    ∃ S T, loadLayers n below false = some (.ok S) ∧ loadLayers n (below ++ [layer.map (Spec.entry rest)]) false = some (.ok T) ∧
      Spec.Added rest n S T layer ∧
      ∃ q base info rows, plat.init = .ok q ∧ Bdist.Spec.TheInfoDir zip info ∧
        ('/' :: base = plat.scheme.pureLib ∨ '/' :: base = plat.scheme.platLib) ∧
        (∃ hdr, T.get? (split '/' (base ++ "/".toList ++ info ++ "/RECORD".toList)) = some ⟨some hdr, env.csvWrite rows⟩ ∧ hdr.typeflag = typeReg) ∧
        (∀ p nd, Visible p → T.get? p = some nd → isFile nd → T.get? p ≠ S.get? p →
          ∃ e ∈ layer, Spec.Named e.1.name p ∧ nd = Spec.node rest e ∧
            ∃ row ∈ rows, Bdist.Spec.LayerRow w.digest q base (base ++ "/".toList ++ info ++ "/RECORD".toList) e row) ∧
        ∀ row ∈ rows, ∃ e ∈ layer, ∃ p, Spec.Named e.1.name p ∧ T.get? p = some (Spec.node rest e) ∧
          Bdist.Spec.LayerRow w.digest q base (base ++ "/".toList ++ info ++ "/RECORD".toList) e row := by
  obtain ⟨honce, helems⟩ := command_names hsort hrows ho h
  have hnm := layer_named helems hmark hdot
  have ht : Spec.Tree layer := ⟨fun e he => ⟨_, hnm e he⟩, honce, htree⟩
  obtain ⟨S, T, h1, h2, h3⟩ := C104_added ht hin hnt hn
  exact ⟨S, T, h1, h2, h3, recorded w hsort env hrows hdigest plat zip ho layer h hnm h3⟩

/-- the command's layer for the sample wheel meets the conditions of `C105_wheel_partial`, on top of an image that has files of its own -/
example : Bdist.Spec.Ordinary cmdWorld toyHookEnv toyPlat cmdZip ∧ ∃ layer, CommandRun cmdWorld toyHookEnv toyPlat cmdZip (.ok layer) ∧
    (∀ e ∈ layer, ∀ c ∈ split '/' e.1.name, ¬ isMarker c) ∧ (∀ e ∈ layer, e.1.name ≠ ".".toList) ∧
    (∀ a ∈ layer, ∀ b ∈ layer, Fsutil.Spec.Below b.1.name a.1.name → a.1.typeflag = typeDir) ∧
    NoThrough (exBase ++ [layer.map (Spec.entry (fun _ => []))]) := by
  refine ⟨cmd_ordinary, ?_⟩
  have hr := installOnce_run chooses_head cmdWorld toyPlat none none (commandHook toyHookEnv true id id toyPlat) cmdZip
  cases hi : installOnce (fun l => l.headD []) cmdWorld toyPlat none none (commandHook toyHookEnv true id id toyPlat) cmdZip with
  | ok layer =>
    have hchk : (match installOnce (fun l => l.headD []) cmdWorld toyPlat none none (commandHook toyHookEnv true id id toyPlat) cmdZip with
      | .ok layer => decide (∀ e ∈ layer, ∀ c ∈ split '/' e.1.name, ¬ isMarker c) && decide (∀ e ∈ layer, e.1.name ≠ ".".toList) &&
          layer.all (fun a => layer.all (fun b => decide (a.1.typeflag = typeDir) || !(a.1.name ++ ['/']).isPrefixOf b.1.name)) &&
          decide (NoThrough (exBase ++ [layer.map (Spec.entry (fun _ => []))]))
      | _ => false) = true := by decide +kernel
    rw [hi] at hr hchk
    simp only [Bool.and_eq_true, decide_eq_true_eq, List.all_eq_true, Bool.or_eq_true, Bool.not_eq_true'] at hchk
    obtain ⟨⟨⟨c1, c2⟩, c3⟩, c4⟩ := hchk
    refine ⟨layer, ⟨true, id, id, fun _ => List.Perm.refl _, fun _ => List.Perm.refl _, hr⟩, c1, c2, ?_, c4⟩
    intro a ha b hb ⟨t, hab⟩
    rcases c3 a ha b hb with h | h
    · exact h
    · rw [hab] at h
      have : (a.1.name ++ ['/']).isPrefixOf (a.1.name ++ '/' :: t) = true := by
        rw [List.isPrefixOf_iff_prefix]; exact ⟨t, by simp⟩
      rw [h] at this
      cases this
  | error => rw [hi] at hr; have hn := cmd_names; rw [hi] at hn; exact absurd hn (by decide)
  | panic => rw [hi] at hr; have hn := cmd_names; rw [hi] at hn; exact absurd hn (by decide)
  | hangs => rw [hi] at hr; have hn := cmd_names; rw [hi] at hn; exact absurd hn (by decide)

/-- a wheel with a file that is named like a whiteout marker -/
def markerZip : List ZFile := sampleFile ".wh.old" [] :: toyZip

/-- what the sample image holds at a place, alone and below the layer of a computed run of the command -/
def commandOnto (below : List (List Entry)) (zip : List ZFile) (p : List Str) : Option (Bool × Bool) :=
  match installOnce (fun l => l.headD []) (toyWorld zip) toyPlat none none (commandHook toyHookEnv true id id toyPlat) zip with
  | .ok layer =>
    match loadLayers 5 below false, loadLayers 5 (below ++ [layer.map (Spec.entry (fun _ => []))]) false with
    | some (.ok S), some (.ok T) => some ((S.get? p).isSome, (T.get? p).isSome)
    | _, _ => none
  | _ => none

/-- **C105 does not hold** for a wheel with a file that is named like a whiteout marker: installing it removes a file of the image
below which the wheel does not have. -/
theorem C105_violated : ∃ w plat zip layer below S T p, CommandRun w toyHookEnv plat zip (.ok layer) ∧
    loadLayers 5 below false = some (.ok S) ∧ loadLayers 5 (below ++ [layer.map (Spec.entry (fun _ => []))]) false = some (.ok T) ∧
    (∃ nd, S.get? p = some nd) ∧ T.get? p = none ∧ (∀ f ∈ zip, f.hdr.name ≠ "old".toList) ∧ (∀ f ∈ zip, Bdist.Spec.Down f.hdr.name) := by
  have h : commandOnto [[⟨⟨"l/pure/old".toList, '0', [], 0, 0o644, []⟩, []⟩]] markerZip ["l".toList, "pure".toList, "old".toList] =
      some (true, false) := by decide +kernel
  unfold commandOnto at h
  have hr := installOnce_run chooses_head (toyWorld markerZip) toyPlat none none (commandHook toyHookEnv true id id toyPlat) markerZip
  split at h
  · rename_i layer hl
    rw [hl] at hr
    split at h
    · rename_i S T hS hT
      simp only [Option.some.injEq, Prod.mk.injEq] at h
      refine ⟨_, _, _, layer, _, S, T, _, ⟨true, id, id, fun _ => List.Perm.refl _, fun _ => List.Perm.refl _, hr⟩, hS, hT,
        Option.isSome_iff_exists.mp h.1, by simpa using h.2, by decide +kernel, ?_⟩
      intro f hf
      rw [down_iff]
      have : ∀ f ∈ markerZip, "..".toList ∉ cleanElems false (split '/' f.hdr.name) := by decide +kernel
      exact this f hf
    · cases h
  · cases h

end Onto
