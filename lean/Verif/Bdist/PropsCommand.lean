import Verif.Bdist.CommandLemmas
/-!
C90: `ocibuild layer wheel` is reproducible.  C91: the layer's RECORD lists the files of the layer.
-/
namespace Bdist
open Go Fsutil Python

namespace Spec

/-- the scripts that entry_points.txt declares, as it is installed from `zip` in any run, can be installed side by side -/
def WheelFits (env : Env) (decode : Bytes → Str) (plat : Platform) (zip : List ZFile) : Prop :=
  ∀ p q t m dir cfg, sanitizePlatform plat = .ok p → plat.init = .ok q → VfsRun env p none t zip (.ok (m, dir)) →
    EntryPoints decode m dir cfg → Fits q dir cfg

/-- what the command is given: a platform with clean absolute directories, a byte code compiler, and a wheel whose files do not get into
each other's way and whose names do not lead upwards -/
structure Ordinary (w : World) (env : HookEnv) (plat : Platform) (zip : List ZFile) : Prop where
  scheme : CleanScheme plat.scheme
  compiler : ByteCompiler w.toEnv plat.scheme
  down : ∀ f ∈ zip, Down f.hdr.name
  apart : WheelNoClash w.toEnv plat zip
  fits : WheelFits w.toEnv env.decode plat zip

/-- `row` is the row of RECORD for the entry `e` of the layer: the path that leads to it from `base`, and the checksum and size of its
content; nothing for RECORD itself and for byte code; for a script whose interpreter was replaced those from before -/
def LayerRow (digest : Str → Bytes → Str) (plat : Platform) (base record : Str) (e : Hdr × Bytes) (row : List Str) : Prop :=
  ∃ name hash size, row = [name, hash, size] ∧ Leads base e.1.name name ∧
    ((e.1.name = record ∨ ∃ b, name = b ++ ".pyc".toList) ∧ hash = [] ∧ size = [] ∨
     e.1.name ≠ record ∧ ∃ old, hash = "sha256=".toList ++ digest "sha256".toList old ∧ size = itoa old.length ∧
      ((¬ ∃ b, name = b ++ ".pyc".toList) ∧ old = e.2 ∨ NewInterpreter plat old e.2))

end Spec

theorem sanitize_init {plat p : Platform} (h : sanitizePlatform plat = .ok p) : ∃ q, plat.init = .ok q ∧ p.consoleShebang = q.consoleShebang ∧
    p.graphicalShebang = q.graphicalShebang := by
  unfold sanitizePlatform at h
  cases hi : plat.init with
  | error e => rw [hi] at h; cases h
  | ok q => rw [hi] at h; cases h; exact ⟨q, rfl, rfl, rfl⟩

theorem command_ok {env : HookEnv} {guiFirst : Bool} {orderS : List (Str × Str) → List (Str × Str)} {orderR : Map Ref → Map Ref} {plat : Platform}
    {t : Int} {m m' : Map Ref} {dir : Str} (h : commandHook env guiFirst orderS orderR plat t m dir = .ok m') :
    ∃ a, scriptsHook env guiFirst orderS plat t m dir = .ok a ∧
      recordHook env orderR "sha256".toList "ocibuild layer wheel".toList none t a dir = .ok m' := by
  unfold commandHook postInstallHooks at h
  cases h1 : scriptsHook env guiFirst orderS plat t m dir with
  | error e => rw [h1] at h; cases h
  | ok a =>
    rw [h1] at h
    refine ⟨a, rfl, ?_⟩
    simp only [Except.bind, postInstallHooks] at h
    cases h2 : recordHook env orderR "sha256".toList "ocibuild layer wheel".toList none t a dir with
    | error e => rw [h2] at h; cases h
    | ok b => rw [h2] at h; cases h; rfl

theorem command_eq {env : HookEnv} {guiFirst : Bool} {orderS : List (Str × Str) → List (Str × Str)} {orderR : Map Ref → Map Ref} {plat : Platform}
    {t : Int} {m a : Map Ref} {dir : Str} (h : scriptsHook env guiFirst orderS plat t m dir = .ok a) :
    commandHook env guiFirst orderS orderR plat t m dir = recordHook env orderR "sha256".toList "ocibuild layer wheel".toList none t a dir := by
  unfold commandHook postInstallHooks
  rw [h]
  simp only [Except.bind, postInstallHooks]
  cases recordHook env orderR "sha256".toList "ocibuild layer wheel".toList none t a dir <;> rfl

theorem command_error {env : HookEnv} {guiFirst : Bool} {orderS : List (Str × Str) → List (Str × Str)} {orderR : Map Ref → Map Ref} {plat : Platform}
    {t : Int} {m : Map Ref} {dir : Str} (h : scriptsHook env guiFirst orderS plat t m dir = .error ()) :
    commandHook env guiFirst orderS orderR plat t m dir = .error () := by
  unfold commandHook postInstallHooks
  rw [h]; rfl

theorem handed_elems {digest : Str → Bytes → Str} {plat p : Platform} {zip : List ZFile} {m m' : Map Ref} {cs cs' : List Str} {info info' : Str}
    (h : Handed digest plat p zip m cs info) (h' : Handed digest plat p zip m' cs' info') (e : render false (cs ++ [info]) = render false (cs' ++ [info'])) :
    cs = cs' ∧ info = info' := by
  have := (render_inj (plain_clean h.plain) (plain_clean h'.plain) e).2
  obtain ⟨h1, h2⟩ := List.append_inj' this rfl
  exact ⟨h1, (List.cons.inj h2).1⟩

/-- **C90** for ordinary wheels: whatever the orders in which maps are visited and whatever the sorting functions, `ocibuild layer
wheel` makes the same layer, or always fails; it neither panics nor runs for ever. -/
theorem C90_reproducible_partial (w : World) (hsort : SortSlice w.sortSlice) (env : HookEnv) (hrows : SortSlice env.sortRows)
    (sortRows' : (List Str → List Str → Bool) → List (List Str) → List (List Str)) (hrows' : SortSlice sortRows') (plat : Platform) (zip : List ZFile)
    (ho : Spec.Ordinary w env plat zip) (r r' : Outcome (List (Hdr × Bytes))) (h : CommandRun w env plat zip r)
    (h' : CommandRun w { env with sortRows := sortRows' } plat zip r') : r = r' ∧ (r = .error ∨ ∃ layer, r = .ok layer) := by
  obtain ⟨gui, oS, oR, hoS, hoR, h⟩ := h
  obtain ⟨gui', oS', oR', hoS', hoR', h'⟩ := h'
  refine install_det_hooks hsort ho.compiler.orderly (clean_proper ho.scheme) ?_ (fun _ _ _ hsan hw => before_inside ho.scheme hsan ho.down hw) ho.apart h h'
  intro p t vfs vfs' dir hsan h1 h1' hsame
  obtain ⟨q, hq, _⟩ := sanitize_init hsan
  obtain ⟨cs, info, hdir, hh⟩ := handed ho.scheme hsan ho.compiler ho.down h1
  obtain ⟨cs', info', hdir', hh'⟩ := handed ho.scheme hsan ho.compiler ho.down h1'
  obtain ⟨rfl, rfl⟩ := handed_elems hh hh' (hdir.symm.trans hdir')
  have hfit : ∀ cfg, Spec.EntryPoints env.decode vfs dir cfg → Spec.Fits q dir cfg := fun cfg hc => ho.fits p q t vfs dir cfg hsan hq h1 hc
  have hfit' : ∀ cfg, Spec.EntryPoints env.decode vfs' dir cfg → Spec.Fits q dir cfg := fun cfg hc => ho.fits p q t vfs' dir cfg hsan hq h1' hc
  have hS : scriptsHook { env with sortRows := sortRows' } gui' oS' plat t vfs' dir = scriptsHook env gui' oS' plat t vfs' dir := rfl
  subst hdir
  rcases C52_order env gui gui' oS oS' hoS hoS' plat q hq t vfs vfs' hsame _ (fun cfg hc => (hfit cfg hc).own) with ⟨e, e'⟩ | ⟨a, a', e, e', hsm⟩
  · exact Or.inl ⟨command_error e, command_error e'⟩
  · have ha := scripts_handed ho.scheme hq hoS hh hfit e (scripts_wf e hh.tame.good.wf)
    have ha' := scripts_handed ho.scheme hq hoS' hh' hfit' e' (scripts_wf e' hh'.tame.good.wf)
    rw [command_eq e, command_eq (env := { env with sortRows := sortRows' }) e']
    rcases C51_order env sortRows' hrows hrows' oR oR' hoR hoR' "sha256".toList "ocibuild layer wheel".toList none t a a' ha.tame ha'.tame hsm cs info
      hh.plain ha.noRecord with hx | ⟨b, b', hb, hb', hsb, tb, tb'⟩
    · exact Or.inl hx
    · exact Or.inr ⟨b, b', hb, hb', hsb, tb.good, tb'.good⟩

/-- **C90**: the command has a run -/
theorem C90_returns (w : World) (env : HookEnv) (plat : Platform) (zip : List ZFile) : ∃ r, CommandRun w env plat zip r :=
  ⟨_, false, id, id, fun _ => List.Perm.refl _, fun _ => List.Perm.refl _, installOnce_run chooses_head w plat none none _ zip⟩

theorem maxTime_now {zip : List ZFile} (h : ∃ f ∈ zip, zeroTime < f.hdr.modified) (now now' : Int) : defaultMaxTime now zip = defaultMaxTime now' zip := by
  have key : ∀ (l : List ZFile) (m : Int), m ≤ l.foldl (fun m f => if f.hdr.modified > m then f.hdr.modified else m) m ∧
      ∀ f ∈ l, f.hdr.modified ≤ l.foldl (fun m f => if f.hdr.modified > m then f.hdr.modified else m) m := by
    intro l
    induction l with
    | nil => exact fun m => ⟨Int.le_refl _, fun f h => (nomatch h)⟩
    | cons g l ih =>
      intro m
      rw [List.foldl_cons]
      obtain ⟨h1, h2⟩ := ih (if g.hdr.modified > m then g.hdr.modified else m)
      have h3 : m ≤ (if g.hdr.modified > m then g.hdr.modified else m) ∧ g.hdr.modified ≤ (if g.hdr.modified > m then g.hdr.modified else m) := by
        split <;> omega
      refine ⟨Int.le_trans h3.1 h1, ?_⟩
      intro f hf
      rcases List.mem_cons.mp hf with rfl | hf
      · exact Int.le_trans h3.2 h1
      · exact h2 f hf
  obtain ⟨f, hf, hm⟩ := h
  have := (key zip zeroTime).2 f hf
  unfold defaultMaxTime
  simp only
  rw [if_neg (by omega), if_neg (by omega)]

/-- **C90**: the layer does not depend on the time at which it is made, if some file of the wheel has a time. -/
theorem C90_any_time (w : World) (now' : Int) (env : HookEnv) (plat : Platform) (zip : List ZFile) (hz : ∃ f ∈ zip, Spec.yearOne < f.hdr.modified)
    (r : Outcome (List (Hdr × Bytes))) : CommandRun w env plat zip r ↔ CommandRun { w with now := now' } env plat zip r := by
  rw [zeroTime_eq] at hz
  have one : ∀ (w : World) (now' : Int) hook, InstallRun w plat none none hook zip r → InstallRun { w with now := now' } plat none none hook zip r := by
    intro w now' hook h
    cases h with
    | badPlatform e => exact .badPlatform e
    | badWheel e e2 => exact .badWheel e e2
    | run e e2 h =>
      refine .run e e2 ?_
      simp only [Option.getD_none] at h ⊢
      rw [maxTime_now hz w.now now'] at h
      cases h with
      | fails h => exact .fails h
      | panics h => exact .panics h
      | hookFails h1 h2 => exact .hookFails h1 h2
      | hangs h1 h2 h3 => exact .hangs h1 h2 h3
      | layerFails h1 h2 h3 h4 h5 => exact .layerFails h1 h2 h3 h4 h5
      | done h1 h2 h3 h4 h5 => exact .done h1 h2 h3 h4 h5
  constructor
  · rintro ⟨g, oS, oR, h1, h2, h⟩
    exact ⟨g, oS, oR, h1, h2, one _ _ _ h⟩
  · rintro ⟨g, oS, oR, h1, h2, h⟩
    exact ⟨g, oS, oR, h1, h2, one { w with now := now' } w.now _ h⟩

/-- **C91** for ordinary wheels: the layer that `ocibuild layer wheel` makes has a RECORD in the wheel's `.dist-info` directory, in purelib
or platlib; its rows are in increasing order of their names; every entry of the layer that is not a directory has a row, and every
row is that of such an entry, with the checksum and size of its content in the layer. -/
theorem C91_record_partial (w : World) (hsort : SortSlice w.sortSlice) (env : HookEnv) (hrows : SortSlice env.sortRows) (hdigest : env.digest = w.digest)
    (plat : Platform) (zip : List ZFile) (ho : Spec.Ordinary w env plat zip) (layer : List (Hdr × Bytes)) (h : CommandRun w env plat zip (.ok layer)) :
    ∃ base info rows, Spec.TheInfoDir zip info ∧ ('/' :: base = plat.scheme.pureLib ∨ '/' :: base = plat.scheme.platLib) ∧
      (∃ e ∈ layer, e.1.name = base ++ "/".toList ++ info ++ "/RECORD".toList ∧ e.1.typeflag = '0' ∧ e.2 = env.csvWrite rows) ∧
      rows.Pairwise (fun a b => a.headD [] < b.headD []) ∧
      (∀ e ∈ layer, e.1.typeflag ≠ '5' →
        ∃ row ∈ rows, ∃ q, plat.init = .ok q ∧ Spec.LayerRow w.digest q base (base ++ "/".toList ++ info ++ "/RECORD".toList) e row) ∧
      ∀ row ∈ rows, ∃ e ∈ layer, e.1.typeflag ≠ '5' ∧
        ∃ q, plat.init = .ok q ∧ Spec.LayerRow w.digest q base (base ++ "/".toList ++ info ++ "/RECORD".toList) e row := by
  obtain ⟨gui, oS, oR, hoS, hoR, h⟩ := h
  have hgood : ∀ p t vfs dir a, sanitizePlatform plat = .ok p → VfsRun w.toEnv p none t zip (.ok (vfs, dir)) →
      commandHook env gui oS oR plat t vfs dir = .ok a → ∃ cs info b, dir = render false (cs ++ [info]) ∧ Handed w.digest plat p zip b cs info ∧
        recordHook env oR "sha256".toList "ocibuild layer wheel".toList none t b (render false (cs ++ [info])) = .ok a := by
    intro p t vfs dir a hsan h1 hk
    obtain ⟨q, hq, _⟩ := sanitize_init hsan
    obtain ⟨cs, info, hdir, hh⟩ := handed ho.scheme hsan ho.compiler ho.down h1
    obtain ⟨b, hb1, hb2⟩ := command_ok hk
    have hfit : ∀ cfg, Spec.EntryPoints env.decode vfs dir cfg → Spec.Fits q dir cfg := fun cfg hc => ho.fits p q t vfs dir cfg hsan hq h1 hc
    subst hdir
    exact ⟨cs, info, b, rfl, scripts_handed ho.scheme hq hoS hh hfit hb1 (scripts_wf hb1 hh.tame.good.wf), hb2⟩
  obtain ⟨p, vfs, dir, vfs1, vfs2, hsan, _, hv, hk, _, g1, g2, kept, made, others, hnames, hents⟩ :=
    install_inv_hook hsort ho.compiler.tidy (clean_proper ho.scheme) (hook := commandHook env gui oS oR plat) (by
      intro p t vfs dir a hsan h1 _ hk
      obtain ⟨cs, info, b, _, hh, hb⟩ := hgood p t vfs dir a hsan h1 hk
      exact (C51_record env hrows oR hoR _ _ _ t b hh.tame cs info hh.plain hh.noRecord a hb).2.1.good) h
  obtain ⟨q, hq, hq1, hq2⟩ := sanitize_init hsan
  obtain ⟨cs, info, b, hdir, hh, hb⟩ := hgood _ _ _ _ _ hsan hv hk
  obtain ⟨⟨n1, _, n3⟩, htame, rows, hrec, hsorted, hiff⟩ := C51_record env hrows oR hoR _ _ _ _ b hh.tame cs info hh.plain hh.noRecord _ hb
  have hcsne : cs ≠ [] := by
    rintro rfl
    rcases hh.root with e | e
    · have := ho.scheme "purelib".toList plat.scheme.pureLib (by unfold Spec.schemeDirs; simp)
      rw [← e] at this
      exact absurd this.1 (by decide)
    · have := ho.scheme "platlib".toList plat.scheme.platLib (by unfold Spec.schemeDirs; simp)
      rw [← e] at this
      exact absurd this.1 (by decide)
  have hrecname : render false (cs ++ [info]) ++ "/RECORD".toList = render false cs ++ "/".toList ++ info ++ "/RECORD".toList := by
    rw [slash_render hcsne]
    have : "/".toList = ['/'] := rfl
    rw [this]
    simp
  -- the files of the map
  have hrefs : ∀ n r, vfs1.get? n = some r → RefOK w.digest p r := by
    intro n r hr
    by_cases e1 : n = render false (cs ++ [info]) ++ "/INSTALLER".toList
    · rw [e1, n1] at hr; cases hr; exact memFile_ok ..
    · by_cases e2 : n = render false (cs ++ [info]) ++ "/RECORD".toList
      · rw [e2, hrec] at hr; cases hr; exact memFile_ok ..
      · rw [n3 n e1 e2 (fun _ => rfl)] at hr
        exact hh.refs n r hr
  have hrow : ∀ e ∈ layer, ∀ r i, vfs1.get? e.1.name = some r → r.info = some i → e.1.typeflag = i.typeflag → e.1.typeflag ≠ typeDir →
      (i.typeflag = typeReg → r.content = some e.2 ∧ (e.2.length : Int) = i.size) → ∀ row,
      Spec.RowOf env.digest (Spec.algorithm "sha256".toList) (render false cs) (render false (cs ++ [info]) ++ "/RECORD".toList) vfs1 e.1.name row →
      Spec.LayerRow w.digest q (render false cs) (render false (cs ++ [info]) ++ "/RECORD".toList) e row := by
    intro e he r i hg hi ht hnd hcont row ⟨r', name, hash, size, hg', hd', hrow, hleads, hself, hoth⟩
    rw [hg] at hg'
    cases hg'
    have hok := hrefs _ _ hg
    obtain ⟨htr, hsz⟩ := hok.type i hi (ht ▸ hnd)
    obtain ⟨hc1, hc2⟩ := hcont htr
    refine ⟨name, hash, size, hrow, hleads, ?_⟩
    by_cases hn : e.1.name = render false (cs ++ [info]) ++ "/RECORD".toList
    · exact Or.inl ⟨Or.inl hn, hself hn⟩
    · rcases hoth hn with ⟨zh, zc, rec, rfl, e1, e2⟩ | ⟨_, ⟨hpyc, e1, e2⟩ | ⟨hpyc, c, e0, e1, e2⟩⟩
      · obtain ⟨old, new, rfl, hnew, rfl⟩ := hok.record _ _ _ rfl
        simp only [Ref.content, Option.some.injEq] at hc1
        subst hc1
        refine Or.inr ⟨hn, old, e1, e2, Or.inr ?_⟩
        obtain ⟨rest, hrest⟩ := hnew
        rw [hq1, hq2] at hrest
        exact ⟨rest, hrest⟩
      · exact Or.inl ⟨Or.inr hpyc, e1, e2⟩
      · rw [hc1] at e0
        cases e0
        refine Or.inr ⟨hn, e.2, ?_, ?_, Or.inl ⟨hpyc, rfl⟩⟩
        · rw [e1, hdigest]; rfl
        · obtain ⟨k, hk, e2⟩ := e2
          rw [e2, hasSize_iff.mp hk, ← hsz, ← hc2]
  -- an entry that is no directory is a file of the map before parents were added
  have hfile : ∀ e ∈ layer, e.1.typeflag ≠ typeDir → ∃ r i, vfs1.get? e.1.name = some r ∧ r.info = some i ∧ e.1.typeflag = i.typeflag ∧
      (i.typeflag = typeReg → r.content = some e.2 ∧ (e.2.length : Int) = i.size) := by
    intro e he hnd
    obtain ⟨r, i, hg, hi, hE, hreg, _⟩ := hents e he
    have ht : e.1.typeflag = i.typeflag := by rw [hE]; rfl
    cases hg1 : vfs1.get? e.1.name with
    | some r1 =>
      rw [kept _ _ hg1] at hg
      cases hg
      exact ⟨_, i, rfl, hi, ht, hreg⟩
    | none =>
      by_cases hex : ∃ j ∈ vfs1.keys, Spec.Parent e.1.name j
      · rw [made _ hg1 hex] at hg
        cases hg
        cases hi
        exact absurd ht hnd
      · rw [others _ hg1 hex] at hg; cases hg
  have hin : ∀ n r, vfs1.get? n = some r → ∃ e ∈ layer, e.1.name = n ∧ ∃ i, r.info = some i ∧ e.1.typeflag = i.typeflag ∧
      (i.typeflag = typeReg → r.content = some e.2 ∧ (e.2.length : Int) = i.size) := by
    intro n r hr
    obtain ⟨e, he, hn⟩ := List.mem_map.mp (hnames.mem_iff.mpr (some_key (kept n r hr)))
    refine ⟨e, he, hn, ?_⟩
    obtain ⟨r', i, hg, hi, hE, hreg, _⟩ := hents e he
    rw [show e.1.name = n from hn, kept n r hr] at hg
    cases hg
    exact ⟨i, hi, by rw [hE]; rfl, hreg⟩
  refine ⟨render false cs, info, rows, hh.named, hh.root, ?_, hsorted, ?_, ?_⟩
  · obtain ⟨e, he, hn, i, hi, ht, hreg⟩ := hin _ _ hrec
    refine ⟨e, he, hn.trans hrecname, ?_, ?_⟩
    · rw [ht]; cases hi; rfl
    · cases hi
      have := (hreg rfl).1
      simpa [memFile, Ref.content] using this.symm
  · intro e he hnd
    obtain ⟨r, i, hg, hi, ht, hreg⟩ := hfile e he hnd
    have hok := hrefs _ _ hg
    have hd : r.isDir = false := (hok.dir i hi).mpr (ht ▸ hnd)
    obtain ⟨row, hro⟩ : ∃ row, Spec.RowOf env.digest (Spec.algorithm "sha256".toList) (render false cs)
        (render false (cs ++ [info]) ++ "/RECORD".toList) vfs1 e.1.name row := by
      obtain ⟨_, ts, hts, hkt⟩ := htame.elems hg
      have hpcs : ∀ c ∈ cs, Plain c := fun c hc => hh.plain c (List.mem_append_left _ hc)
      have hl := leads_rel hpcs hts
      rw [← hkt] at hl
      by_cases hn : e.1.name = render false (cs ++ [info]) ++ "/RECORD".toList
      · exact ⟨_, r, _, [], [], hg, hd, rfl, hl, fun _ => ⟨rfl, rfl⟩, fun x => absurd hn x⟩
      · obtain ⟨htr, _⟩ := hok.type i hi (ht ▸ hnd)
        by_cases hz : ∃ zh zc rec, r = .zip zh zc (some rec)
        · obtain ⟨zh, zc, rec, e0⟩ := hz
          exact ⟨_, r, _, rec.1, itoa rec.2, hg, hd, rfl, hl, fun x => absurd x hn, fun _ => Or.inl ⟨zh, zc, rec, e0, rfl, rfl⟩⟩
        · by_cases hp : ∃ b, filepathRel ('/' :: render false cs) ('/' :: e.1.name) = b ++ ".pyc".toList
          · exact ⟨_, r, _, [], [], hg, hd, rfl, hl, fun x => absurd x hn, fun _ => Or.inr ⟨hz, Or.inl ⟨hp, rfl, rfl⟩⟩⟩
          · exact ⟨_, r, _, _, _, hg, hd, rfl, hl, fun x => absurd x hn, fun _ => Or.inr ⟨hz, Or.inr ⟨hp, e.2, (hreg htr).1, rfl, _, hasSize_iff.mpr rfl, rfl⟩⟩⟩
    refine ⟨row, (hiff row).mpr ⟨_, hro⟩, q, hq, ?_⟩
    rw [← hrecname]
    exact hrow e he r i hg hi ht hnd hreg row hro
  · intro row hr
    obtain ⟨n, hro⟩ := (hiff row).mp hr
    obtain ⟨r, name, hash, size, hg, hd, _⟩ := id hro
    obtain ⟨e, he, hn, i, hi, ht, hreg⟩ := hin n r hg
    subst hn
    have hnd : e.1.typeflag ≠ typeDir := by rw [ht]; exact ((hrefs _ _ hg).dir i hi).mp hd
    refine ⟨e, he, hnd, q, hq, ?_⟩
    rw [← hrecname]
    exact hrow e he r i hg hi ht hnd hreg row hro

/-! ### Samples -/

/-- the sample archive with two entry points -/
def cmdZip : List ZFile := sampleFile "x.dist-info/entry_points.txt" (enc entryText) :: toyZip

/-- byte code for the only module -/
def cmdCode : Ref := memFile 7 "l/pure/m/__pycache__/a.pyc".toList 0o644 [9]

/-- a compiler that makes it -/
def cmdWorld : World := { toyWorld cmdZip with compile := fun _ _ _ => .ok [cmdCode] }

/-- the names of the layer's entries, and the rows of its RECORD -/
def cmdNames : List Str :=
  ["bin".toList, "bin/run".toList, "bin/win".toList, "d".toList, "d/e".toList, "d/e/f".toList, "l".toList, "l/pure".toList, "l/pure/m".toList,
   "l/pure/m/__pycache__".toList, "l/pure/m/__pycache__/a.pyc".toList, "l/pure/m/a.py".toList, "l/pure/x.dist-info".toList,
   "l/pure/x.dist-info/INSTALLER".toList, "l/pure/x.dist-info/RECORD".toList, "l/pure/x.dist-info/WHEEL".toList,
   "l/pure/x.dist-info/entry_points.txt".toList]

theorem cmd_names : ((outline (installOnce (fun l => l.headD []) cmdWorld toyPlat none none (commandHook toyHookEnv true id id toyPlat) cmdZip) |>
    fun | .ok l => l.map (·.1) | _ => []) = cmdNames) := by decide +kernel

theorem cmd_compiler : Spec.ByteCompiler cmdWorld.toEnv toyPlat.scheme := by
  have hrel : Spec.Rel cmdCode.fullName := by unfold Spec.Rel; decide +kernel
  refine ⟨?_, ?_, ?_, ?_⟩
  · intro t d s s' _ _ _
    refine Or.inr ⟨[cmdCode], [cmdCode], rfl, rfl, List.Perm.refl _, by simp, ?_⟩
    intro o ho
    rw [List.mem_singleton.mp ho]; exact hrel
  · intro t d s outs _ h o ho
    cases h
    rw [List.mem_singleton.mp ho]; exact hrel
  · intro t d s outs _ _ h o ho
    cases h
    rw [List.mem_singleton.mp ho]
    exact ⟨"purelib".toList, "/l/pure".toList, by decide +kernel, Or.inr ⟨"m/__pycache__/a.pyc".toList, by decide +kernel⟩⟩
  · intro t d s outs _ _ h o ho
    cases h
    rw [List.mem_singleton.mp ho]
    exact ⟨_, _, "l/pure/m/__pycache__/a".toList, rfl, rfl, rfl, by decide +kernel⟩

theorem cmd_apart : Spec.WheelNoClash cmdWorld.toEnv toyPlat cmdZip := by
  intro p dir get hp hw
  rw [toy_platform] at hp
  cases hp
  have hw' : ∃ get, parseWheel cmdWorld.toEnv cmdZip = .ok ("x.dist-info".toList, get) ∧ get "Root-Is-Purelib".toList = "true".toList := ⟨_, rfl, rfl⟩
  obtain ⟨get', hw', hroot⟩ := hw'
  rw [hw'] at hw
  cases hw
  refine noClash_check ?_
  unfold rootDir
  rw [if_pos hroot]
  decide +kernel

theorem cmd_time {p : Platform} {t t' : Int} {zip : List ZFile} {r : Outcome (Map Ref × Str)} (h : VfsRun cmdWorld.toEnv p none t zip r) :
    VfsRun cmdWorld.toEnv p none t' zip r := by
  have hs : ∀ {dst dir vfs x}, SpreadRun cmdWorld.toEnv p t dst dir vfs x → SpreadRun cmdWorld.toEnv p t' dst dir vfs x := by
    intro dst dir vfs x h
    cases h with
    | spreadFails h => exact .spreadFails h
    | rewritePanics h1 h2 h3 => exact .rewritePanics h1 h2 h3
    | rewriteFails h1 h2 h3 => exact .rewriteFails h1 h2 h3
    | compileFails h1 h2 h3 h4 h5 => exact .compileFails h1 h2 h3 h4 h5
    | done h1 h2 h3 h4 h5 => exact .done h1 h2 h3 h4 h5
  cases h with
  | noWheel h => exact .noWheel h
  | badVersion h1 h2 => exact .badVersion h1 h2
  | fails h1 h2 h3 => exact .fails h1 h2 (hs h3)
  | panics h1 h2 h3 => exact .panics h1 h2 (hs h3)
  | done h1 h2 h3 => exact .done h1 h2 (hs h3)

/-- entry_points.txt as it is installed -/
def cmdEntry : Bool :=
  match sanitizePlatform toyPlat with
  | .error _ => false
  | .ok p => match vfsOnce (fun l => l.headD []) cmdWorld.toEnv p none 0 cmdZip with
    | .ok (m, dir) => decide (dir = "l/pure/x.dist-info".toList ∧
        (m.get? (pathJoin [dir, "entry_points.txt".toList])).bind Ref.content = some (enc entryText))
    | _ => false

theorem cmd_down : ∀ f ∈ cmdZip, Spec.Down f.hdr.name := by
  intro f hf
  rw [down_iff]
  have : ∀ f ∈ cmdZip, "..".toList ∉ cleanElems false (split '/' f.hdr.name) := by decide +kernel
  exact this f hf

theorem cmd_fits : Spec.WheelFits cmdWorld.toEnv toyHookEnv.decode toyPlat cmdZip := by
  intro p q t m dir cfg hp hq hv ⟨r, c, h1, h2, h3⟩
  have hq' : q = toyPlat := by
    have : toyPlat.init = .ok toyPlat := rfl
    rw [this] at hq; cases hq; rfl
  subst hq'
  have he : cmdEntry = true := by decide +kernel
  unfold cmdEntry at he
  rw [hp] at he
  simp only at he
  have hrun := vfsOnce_run chooses_head cmdWorld.toEnv p none 0 cmdZip
  split at he
  · rename_i m0 dir0 h0
    rw [h0] at hrun
    obtain ⟨rfl, hc⟩ := of_decide_eq_true he
    have hdet := vfsRun_det (sanitize_rel (clean_proper toy_clean) hp) cmd_compiler.orderly
      (fun dir get hw => before_inside toy_clean hp cmd_down hw) (fun dir get hw => cmd_apart p dir get hp hw)
      (cmd_time (t' := 0) hv) hrun
    rcases hdet with ⟨e, _⟩ | ⟨a, a', d, e, e', hsame⟩
    · cases e
    · cases e; cases e'
      rw [hsame] at h1
      rw [h1] at hc
      simp only [Option.bind_some] at hc
      rw [h2] at hc
      cases hc
      have hcfg : parseConfig entryParser (toyHookEnv.decode (enc entryText)) = .ok entryConfig := by decide +kernel
      rw [hcfg] at h3
      cases h3
      refine ⟨own_check (by decide +kernel), ?_, ?_⟩
      · intro key val i hd
        rw [down_iff]
        have : ∀ e ∈ declared toyPlat entryConfig, "..".toList ∉ cleanElems false (split '/' e.1) := by decide +kernel
        exact this _ (mem_declared.mp hd)
      · intro key val i hd
        have : ∀ e ∈ declared toyPlat entryConfig, pathJoin [toyPlat.scheme.scripts.drop 1, e.1] ≠ "l/pure/x.dist-info".toList ++ "/RECORD".toList := by
          decide +kernel
        exact this _ (mem_declared.mp hd)
  · cases he

/-- a wheel with data, scripts, entry points and byte code meets the conditions of `C90_reproducible_partial` and
`C91_record_partial`, and the command makes a layer from it -/
theorem cmd_ordinary : Spec.Ordinary cmdWorld toyHookEnv toyPlat cmdZip where
  scheme := toy_clean
  compiler := cmd_compiler
  down := cmd_down
  apart := cmd_apart
  fits := cmd_fits

example : SortSlice cmdWorld.sortSlice ∧ SortSlice toyHookEnv.sortRows ∧ toyHookEnv.digest = cmdWorld.digest ∧
    ∃ layer, CommandRun cmdWorld toyHookEnv toyPlat cmdZip (.ok layer) ∧ layer.map (·.1.name) = cmdNames := by
  refine ⟨sortSlice_exists, sortSlice_exists, rfl, ?_⟩
  have hn := cmd_names
  have hr := installOnce_run chooses_head cmdWorld toyPlat none none (commandHook toyHookEnv true id id toyPlat) cmdZip
  cases hi : installOnce (fun l => l.headD []) cmdWorld toyPlat none none (commandHook toyHookEnv true id id toyPlat) cmdZip with
  | ok layer =>
    rw [hi] at hn hr
    refine ⟨layer, ⟨true, id, id, fun _ => List.Perm.refl _, fun _ => List.Perm.refl _, hr⟩, ?_⟩
    rw [← hn]
    simp [outline]
  | error => rw [hi] at hn; exact absurd hn (by decide)
  | panic => rw [hi] at hn; exact absurd hn (by decide)
  | hangs => rw [hi] at hn; exact absurd hn (by decide)

/-- the condition of `C90_any_time` -/
example : ∃ f ∈ cmdZip, Spec.yearOne < f.hdr.modified := by decide +kernel

/-! ### Counterexamples -/

/-- what a computed run of the command leaves at a place -/
def commandAt (w : World) (guiFirst : Bool) (plat : Platform) (zip : List ZFile) (n : Str) : Option Bytes :=
  match installOnce (fun l => l.headD []) w plat none none (commandHook toyHookEnv guiFirst id id plat) zip with
  | .ok layer => (layer.find? (fun e => e.1.name = n)).map (·.2)
  | _ => none

theorem commandAt_some {w : World} {guiFirst : Bool} {plat : Platform} {zip : List ZFile} {n : Str} {c : Bytes} (h : commandAt w guiFirst plat zip n = some c) :
    ∃ layer, CommandRun w toyHookEnv plat zip (.ok layer) ∧ (layer.find? (fun e => e.1.name = n)).map (·.2) = some c := by
  unfold commandAt at h
  have hr := installOnce_run chooses_head w plat none none (commandHook toyHookEnv guiFirst id id plat) zip
  split at h
  · rename_i layer hl
    rw [hl] at hr
    exact ⟨layer, ⟨guiFirst, id, id, fun _ => List.Perm.refl _, fun _ => List.Perm.refl _, hr⟩, h⟩
  · cases h

theorem toy_bytes {s : Scheme} (zip : List ZFile) : Spec.ByteCompiler (toyEnv zip) s := by
  refine ⟨fun t d s s' h _ hp => toy_orderly zip t d s s' h (fun _ _ => trivial) hp, toy_tidy zip, ?_, ?_⟩
  · intro t d s outs _ _ h
    cases h
    exact fun o ho => (nomatch ho)
  · intro t d s outs _ _ h
    cases h
    exact fun o ho => (nomatch ho)

/-- a wheel with the same script in both sections -/
def bothZip : List ZFile := sampleFile "x.dist-info/entry_points.txt" (enc "[console_scripts]\nrun = m:f\n[gui_scripts]\nrun = m:f\n".toList) :: toyZip

/-- **C90** fails for a wheel that declares a script in both sections: the command makes one layer or another, depending on the order
in which a map is visited; and the platform and the names are ordinary. -/
theorem C90_violated : ∃ w plat zip layer layer', CommandRun w toyHookEnv plat zip (.ok layer) ∧ CommandRun w toyHookEnv plat zip (.ok layer') ∧
    layer ≠ layer' ∧ SortSlice w.sortSlice ∧ SortSlice toyHookEnv.sortRows ∧ Spec.CleanScheme plat.scheme ∧ Spec.ByteCompiler w.toEnv plat.scheme ∧
    ∀ f ∈ zip, Spec.Down f.hdr.name := by
  have h1 : commandAt (toyWorld bothZip) true toyPlat bothZip "bin/run".toList =
      some (enc (Spec.program "/bin/python".toList "m".toList "f".toList "f".toList)) := by decide +kernel
  have h2 : commandAt (toyWorld bothZip) false toyPlat bothZip "bin/run".toList =
      some (enc (Spec.program "/bin/pythonw".toList "m".toList "f".toList "f".toList)) := by decide +kernel
  obtain ⟨l1, r1, e1⟩ := commandAt_some h1
  obtain ⟨l2, r2, e2⟩ := commandAt_some h2
  refine ⟨toyWorld bothZip, toyPlat, bothZip, l1, l2, r1, r2, ?_, sortSlice_exists, sortSlice_exists, toy_clean, ?_, ?_⟩
  · intro e
    rw [e, e2] at e1
    revert e1
    decide +kernel
  · exact toy_bytes _
  · intro f hf
    rw [down_iff]
    have : ∀ f ∈ bothZip, "..".toList ∉ cleanElems false (split '/' f.hdr.name) := by decide +kernel
    exact this f hf

/-- scripts go to purelib -/
def libPlat : Platform := { toyPlat with scheme := { toyScheme with scripts := toyScheme.pureLib } }

/-- a wheel with a script named after its RECORD -/
def recZip : List ZFile :=
  [sampleFile "x.dist-info/entry_points.txt" (enc "[console_scripts]\nx.dist-info/RECORD = m:f\n".toList),
   sampleFile "x.dist-info/WHEEL" [3], sampleFile "x.dist-info/RECORD" [4]]

/-- the script that RECORD records -/
def recScript : Bytes := enc (Spec.program "/bin/python".toList "m".toList "f".toList "f".toList)

/-- the rows of that RECORD -/
def recRows : List (List Str) :=
  [["x.dist-info/INSTALLER".toList, "sha256=".toList ++ toyDigest "sha256".toList (enc "ocibuild layer wheel\n".toList), "21".toList],
   ["x.dist-info/RECORD".toList, [], []],
   ["x.dist-info/RECORD".toList, "sha256=".toList ++ toyDigest "sha256".toList recScript, itoa recScript.length],
   ["x.dist-info/WHEEL".toList, "sha256=".toList ++ toyDigest "sha256".toList [3], "1".toList],
   ["x.dist-info/entry_points.txt".toList, "sha256=".toList ++ toyDigest "sha256".toList (enc "[console_scripts]\nx.dist-info/RECORD = m:f\n".toList), "43".toList]]

/-- **C91** fails for an entry point that takes the place of RECORD: RECORD is in its own list twice, once with the checksum of a script
that is not in the layer. -/
theorem C91_violated : ∃ w plat zip layer e rows, CommandRun w toyHookEnv plat zip (.ok layer) ∧ e ∈ layer ∧
    e.1.name = "l/pure/x.dist-info/RECORD".toList ∧ e.2 = toyHookEnv.csvWrite rows ∧
    (rows.filter (fun row => row.headD [] = "x.dist-info/RECORD".toList)).length = 2 ∧ SortSlice w.sortSlice ∧ SortSlice toyHookEnv.sortRows ∧
    Spec.CleanScheme plat.scheme ∧ Spec.ByteCompiler w.toEnv plat.scheme ∧ ∀ f ∈ zip, Spec.Down f.hdr.name := by
  have hs : Spec.CleanScheme libPlat.scheme := by
    intro kind dir h
    unfold Spec.schemeDirs at h
    simp only [List.mem_cons, Prod.mk.injEq, List.not_mem_nil, or_false] at h
    rcases h with h | h | h | h | h <;> (rw [h.2]; decide +kernel)
  have h1 : commandAt (toyWorld recZip) true libPlat recZip "l/pure/x.dist-info/RECORD".toList = some (toyHookEnv.csvWrite recRows) := by decide +kernel
  obtain ⟨layer, r1, e1⟩ := commandAt_some h1
  rw [Option.map_eq_some_iff] at e1
  obtain ⟨e, he, hc⟩ := e1
  have hname := List.find?_some he
  rw [decide_eq_true_eq] at hname
  refine ⟨_, _, _, layer, e, recRows, r1, List.mem_of_find?_eq_some he, hname, hc, by decide +kernel, sortSlice_exists,
    sortSlice_exists, hs, ?_, ?_⟩
  · exact toy_bytes _
  · intro f hf
    rw [down_iff]
    have : ∀ f ∈ recZip, "..".toList ∉ cleanElems false (split '/' f.hdr.name) := by decide +kernel
    exact this f hf

end Bdist
