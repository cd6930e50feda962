import Verif.Bdist.PropsCommand
import Verif.Fsutil.PropsComplete
/-! C148: sound wheels are installed. -/
namespace Bdist
open Go Fsutil Python

/-! ### specification -/

namespace Spec

/-- a header as layers of wheels have them, in which nothing is odd: a regular file or a directory, permission bits only, no NUL in a text -/
structure Writable (h : Hdr) : Prop where
  kind : h.typeflag = '0' ∧ 0 ≤ h.size ∨ h.typeflag = '5' ∧ h.size = 0
  mode : 0 ≤ h.mode ∧ h.mode ≤ 0o777
  bare : h.linkname = [] ∧ h.pax = [] ∧ h.other = []
  nul : '\x00' ∉ h.name ∧ '\x00' ∉ h.uname ∧ '\x00' ∉ h.gname

/-- a regular file or directory, without NUL in its name, that can be read; a regular file has the size that its header says -/
def SoundRef (r : Ref) : Prop :=
  '\x00' ∉ r.fullName ∧ ∃ h c, r.info = some h ∧ r.content = some c ∧
    (h.typeflag = '0' ∧ (c.length : Int) = h.size ∨ h.typeflag = '5' ∧ h.size = 0) ∧
    0 ≤ h.mode ∧ h.mode ≤ 0o777 ∧ h.linkname = [] ∧ h.pax = [] ∧ h.other = []

/-- all files of the map are sound -/
def AllSound (m : Map Ref) : Prop := ∀ k r, m.get? k = some r → SoundRef r

/-- `s` is an installed file of the wheel: of its data directory, moved to where such files go and with the interpreter of a script
replaced, or another one, in purelib or platlib (as in C45) -/
def Installed (env : Env) (p : Platform) (minTime : Option Int) (dst dir : Str) (zip : List ZFile) (s : Ref) : Prop :=
  ¬ Removed dst dir s.fullName ∧
    (FromData env.digest p minTime dst (dataDir dst dir) zip s.fullName s ∨ FromRoot p.scheme minTime dst (dataDir dst dir) zip s.fullName s)

/-- a compiler that compiles the files of the wheel whose names end in `.py`, to something sound -/
def CompilesWheel (env : Env) (plat : Platform) (minTime : Option Int) (zip : List ZFile) : Prop :=
  ∀ p dir get t srcs, sanitizePlatform plat = .ok p → parseWheel env zip = .ok (dir, get) → Sources srcs →
    (∀ s ∈ srcs, SoundRef s ∧ Installed env p minTime (rootDir p get) dir zip s) →
    ∃ outs, env.compile t [p.scheme.pureLib, p.scheme.platLib] srcs = .ok outs ∧ ∀ o ∈ outs, SoundRef o

/-- a hook that succeeds on sound files, and leaves sound files -/
def WorkingHook (hook : Hook) : Prop :=
  ∀ t m d, Good m → AllSound m → ∃ a, hook t m d = .ok a ∧ AllSound a

/-- A wheel with which nothing is wrong, for a platform with which nothing is wrong: the platform has an interpreter; the wheel has one
`.dist-info` directory, in it a RECORD that tells the truth about all files and misses none (but those for signatures), and a WHEEL file
with a version up to 1; all files of its data directory are of a known kind; and all its files can be read, have the size that the archive
says, and have no NUL in their names. -/
structure SoundWheel (w : World) (plat : Platform) (zip : List ZFile) : Prop where
  platform : plat.consoleShebang ≠ [] ∨ plat.graphicalShebang ≠ []
  nul : '\x00' ∉ plat.uname ∧ '\x00' ∉ plat.gname ∧ ∀ kind dir, (kind, dir) ∈ schemeDirs plat.scheme → '\x00' ∉ dir
  whole : ∃ d record text rows, TheInfoDir zip d ∧ FirstNamed zip (d ++ "/RECORD".toList) record ∧ record.content = some text ∧ w.csv text = some rows ∧
    (∀ row ∈ rows, TrueRow w.digest (d ++ "/RECORD".toList) zip row) ∧
    ∀ f ∈ zip, f.hdr.isDir = false → clean f.hdr.name ≠ d ++ "/RECORD.jws".toList → clean f.hdr.name ≠ d ++ "/RECORD.p7s".toList →
      ∃ row ∈ rows, Names row (clean f.hdr.name)
  wheel : ∃ d wheel text get v, TheInfoDir zip d ∧ FirstNamed zip (d ++ "/WHEEL".toList) wheel ∧ wheel.content = some text ∧
    w.mime (text ++ enc "\r\n\r\n\r\n".toList) = some get ∧ Pep440.parseVersion (get "Wheel-Version".toList) = .ok v ∧ v.toPubVer.major ≤ 1
  kinds : ∀ p dir get, sanitizePlatform plat = .ok p → parseWheel w.toEnv zip = .ok (dir, get) → ∀ f ∈ zip,
    In (dataDir (rootDir p get) dir) (pathJoin [rootDir p get, f.hdr.name]) →
      ∃ n kind, Moves p.scheme (dataDir (rootDir p get) dir) (pathJoin [rootDir p get, f.hdr.name]) n kind
  files : ∀ f ∈ zip, '\x00' ∉ f.hdr.name ∧ ∃ c, f.content = some c ∧ ((¬ ∃ b, f.hdr.name = b ++ ['/']) → (c.length : Int) = f.hdr.size)

end Spec

/-! ### characters of names -/

theorem cleanStep_sub {rooted : Bool} {st : List Str} {c x : Str} (h : x ∈ cleanStep rooted st c) : x ∈ st ∨ x = c := by
  unfold cleanStep at h
  split at h
  · exact .inl h
  · split at h
    · rename_i hc
      cases st with
      | nil =>
        simp only at h
        split at h
        · cases h
        · exact .inr ((List.mem_singleton.1 h).trans hc.symm)
      | cons d ds =>
        simp only at h
        split at h
        · rcases List.mem_cons.1 h with h | h
          · exact .inr (h.trans hc.symm)
          · exact .inl h
        · exact .inl (List.mem_cons_of_mem _ h)
    · rcases List.mem_cons.1 h with h | h
      · exact .inr h
      · exact .inl h

theorem foldl_clean_sub {rooted : Bool} (cs : List Str) {st : List Str} {x : Str} (h : x ∈ cs.foldl (cleanStep rooted) st) : x ∈ st ∨ x ∈ cs := by
  induction cs generalizing st with
  | nil => exact .inl h
  | cons c cs ih =>
    rcases ih h with h | h
    · rcases cleanStep_sub h with h | h
      · exact .inl h
      · exact .inr (by simp [h])
    · exact .inr (by simp [h])

theorem join_chars {cs : List Str} {d : Char} (h : d ∈ join ['/'] cs) : d = '/' ∨ ∃ c ∈ cs, d ∈ c := by
  induction cs with
  | nil => simp [join] at h
  | cons c cs ih =>
    cases cs with
    | nil => exact .inr ⟨c, by simp, by simpa [join] using h⟩
    | cons e cs =>
      simp only [join, List.mem_append, List.mem_singleton] at h
      rcases h with (h | h) | h
      · exact .inr ⟨c, by simp, h⟩
      · exact .inl h
      · rcases ih h with h | ⟨x, h1, h2⟩
        · exact .inl h
        · exact .inr ⟨x, by simp at h1 ⊢; exact .inr h1, h2⟩

theorem clean_nul {s : Str} (h : '\x00' ∉ s) : '\x00' ∉ clean s := by
  intro hc
  unfold clean render at hc
  have key : '\x00' ∉ join ['/'] (cleanElems (isRooted s) (split '/' s)) := by
    intro hj
    rcases join_chars hj with e | ⟨x, hx, hd⟩
    · exact absurd e (by decide)
    · rcases foldl_clean_sub _ (List.mem_reverse.1 hx) with hx | hx
      · cases hx
      · exact h (mem_split hx _ hd).1
  split at hc
  · rcases List.mem_cons.1 hc with e | hc
    · exact absurd e (by decide)
    · exact key hc
  · split at hc
    · exact absurd (List.mem_singleton.1 hc) (by decide)
    · exact key hc

theorem pathJoin_nul {l : List Str} (h : ∀ s ∈ l, '\x00' ∉ s) : '\x00' ∉ pathJoin l := by
  unfold pathJoin
  split
  · simp
  · rename_i es _
    apply clean_nul
    intro hj
    rcases join_chars hj with e | ⟨x, hx, hd⟩
    · exact absurd e (by decide)
    · exact h x (List.mem_filter.1 hx).1 hd

theorem moves_nul {s : Scheme} {d k n kind : Str} (hm : Spec.Moves s d k n kind) (hk : '\x00' ∉ k)
    (hs : ∀ kind dir, (kind, dir) ∈ Spec.schemeDirs s → '\x00' ∉ dir) : '\x00' ∉ n := by
  obtain ⟨rest, dir, h1, h2, rfl⟩ := hm
  apply pathJoin_nul
  intro x hx
  simp only [List.mem_cons, List.not_mem_nil, or_false] at hx
  rcases hx with rfl | rfl
  · exact hs _ _ h2
  · intro hr
    rcases h1 with ⟨_, rfl⟩ | rfl
    · cases hr
    · exact hk (by simp [hr])

/-! ### files from the archive -/

/-- a file from the archive at `k`, readable and, if it is not a directory, of the size in its header -/
def ZipFits (k : Str) (r : Ref) : Prop :=
  ∃ h c rec, r = .zip h (some c) rec ∧ (h.name = k → (c.length : Int) = h.size)

/-- the header of a file of the archive -/
def plainHdr (h : ZHdr) (t : Char) (size : Int) : Hdr :=
  { name := h.name, typeflag := t, linkname := [], size := size, mode := ((h.mode &&& 0o777#32).toNat : Int), uid := 0, gid := 0,
    uname := [], gname := [], modTime := h.modified, accessTime := zeroTime, changeTime := zeroTime, pax := [], other := [] }

theorem placed_sound {k : Str} {r : Ref} (hk : Spec.Rel k) (hn : '\x00' ∉ k) (hp : Placed k r) (hf : ZipFits k r) : Spec.SoundRef r := by
  refine ⟨by rw [placed_fullName hk hp]; exact hn, ?_⟩
  obtain ⟨h, c, rec, rfl, hsz⟩ := hf
  obtain ⟨h', c', rec', e, hc, hkind⟩ := hp
  cases e
  obtain ⟨d1, d2⟩ := placed_isDir hk hc
  rcases hkind with ⟨h1, h2⟩ | ⟨h1, h2⟩
  · have hd := d1 h1 h2
    refine ⟨plainHdr h '5' 0, c, ?_, rfl, .inr ⟨rfl, rfl⟩, ?_, ?_, rfl, rfl, rfl⟩
    · exact (show zipInfo h = some _ by unfold zipInfo; rw [if_pos hd]; rfl)
    · exact Int.natCast_nonneg _
    · simp only [plainHdr]
      rw [mode_unix h hc, h1, if_pos ((hasSuffix_iff _ _).mpr ⟨k, rfl⟩), h2]
      decide +kernel
  · have hd := d2 h1 h2
    have hmode : h.mode = zipUnixMode (parseZipAttrs h.attrs).unix := by
      rw [mode_unix h hc, h1, rel_noslash hk, if_neg (by decide)]
    refine ⟨plainHdr h '0' h.size, c, ?_, rfl, .inl ⟨rfl, hsz h1⟩, ?_, ?_, rfl, rfl, rfl⟩
    · show zipInfo h = some _
      have hreg : h.mode &&& goModeType = 0#32 := by
        rw [hmode]
        rcases h2 with h2 | h2 <;> (rw [h2]; decide +kernel)
      unfold zipInfo
      rw [if_neg (by rw [hd]; decide), if_pos hreg]
      rfl
    · exact Int.natCast_nonneg _
    · simp only [plainHdr]
      rw [hmode]
      rcases h2 with h2 | h2 <;> (rw [h2]; decide +kernel)

theorem fits_create {k : Str} {mt : Option Int} {f : ZFile}
    (h : ∃ c, f.content = some c ∧ ((¬ ∃ b, f.hdr.name = b ++ ['/']) → (c.length : Int) = f.hdr.size)) :
    ZipFits k (.zip (createHdr mt k f.hdr) f.content none) := by
  obtain ⟨c, h1, h2⟩ := h
  refine ⟨_, c, _, by rw [h1], ?_⟩
  unfold createHdr
  simp only
  intro hk
  apply h2
  intro hb
  rw [if_pos ((hasSuffix_iff _ _).mpr hb)] at hk
  have := congrArg List.length hk
  simp at this

theorem fits_rename {k n : Str} {r : Ref} (hk : Spec.Rel k) (hp : Placed k r) (hf : ZipFits k r) : ZipFits n (renameRef n r) := by
  obtain ⟨h, c, rec, rfl, hsz⟩ := hf
  refine ⟨_, c, rec, rfl, ?_⟩
  simp only
  obtain ⟨h', c', rec', e, hc, hkind⟩ := hp
  cases e
  obtain ⟨d1, d2⟩ := placed_isDir hk hc
  rcases hkind with ⟨h1, h2⟩ | ⟨h1, h2⟩
  · rw [if_pos (d1 h1 h2)]
    intro hk
    have := congrArg List.length hk
    simp at this
  · intro _
    exact hsz h1

theorem fits_rewrite {digest : Str → Bytes → Str} {plat : Platform} {k : Str} {r r' : Ref} (hf : ZipFits k r)
    (h : rewriteScript digest plat (some r) = some (.ok r')) : ZipFits k r' := by
  obtain ⟨hd, c, rec, rfl, hsz⟩ := hf
  unfold rewriteScript at h
  simp only [Ref.content] at h
  split at h
  · cases h; exact ⟨hd, c, rec, rfl, hsz⟩
  · rename_i hpre
    have h8 : (enc "#!python".toList).isPrefixOf (c.take (enc "#!pythonw".toList).length) = true := by simpa using hpre
    have l8 : 8 ≤ c.length := by
      have := (List.isPrefixOf_iff_prefix.1 h8).length_le
      rw [show (enc "#!python".toList).length = 8 by decide +kernel, List.length_take] at this
      omega
    cases rec with
    | some x => cases h
    | none =>
      simp only at h
      split at h
      · rename_i h9
        have l9 : 9 ≤ c.length := by
          have := congrArg List.length h9
          rw [List.length_take, show (enc "#!pythonw".toList).length = 9 by decide +kernel] at this
          omega
        cases h
        refine ⟨_, _, _, rfl, ?_⟩
        simp only
        intro hk
        have := hsz hk
        simp only [List.length_append, List.length_drop, show (enc "#!".toList).length = 2 by decide +kernel]
        omega
      · cases h
        refine ⟨_, _, _, rfl, ?_⟩
        simp only
        intro hk
        have := hsz hk
        simp only [List.length_append, List.length_drop, show (enc "#!".toList).length = 2 by decide +kernel]
        omega

/-- every file of the map is readable, and no name has a NUL -/
def AllFit (m : Map Ref) : Prop := ∀ k r, m.get? k = some r → '\x00' ∉ k ∧ ZipFits k r

theorem unpack_fit {mt : Option Int} {dst : Str} {zip : List ZFile} (hd : '\x00' ∉ dst)
    (h : ∀ f ∈ zip, '\x00' ∉ f.hdr.name ∧ ∃ c, f.content = some c ∧ ((¬ ∃ b, f.hdr.name = b ++ ['/']) → (c.length : Int) = f.hdr.size)) :
    AllFit (unpack mt dst zip) := by
  intro k r hr
  obtain ⟨f, hf, rfl⟩ := (unpack_get mt dst zip k r).1 hr
  obtain ⟨hm, rfl⟩ := lastAt_mem hf
  refine ⟨pathJoin_nul ?_, fits_create (h f hm).2⟩
  intro s hs
  simp only [List.mem_cons, List.not_mem_nil, or_false] at hs
  rcases hs with rfl | rfl
  · exact hd
  · exact (h f hm).1

/-! ### the steps -/

theorem outs_sound {outs : List Ref} {m : Map Ref} (hm : Spec.AllSound m) (ho : ∀ o ∈ outs, Spec.SoundRef o) :
    Spec.AllSound (outs.foldl (fun m r => m.set r.fullName r) m) := by
  induction outs generalizing m with
  | nil => exact hm
  | cons o outs ih =>
    rw [List.foldl_cons]
    refine ih ?_ (fun x hx => ho x (by simp [hx]))
    intro k r hr
    rw [Map.get?_set] at hr
    split at hr
    · cases hr; exact ho o (by simp)
    · exact hm k r hr

/-- `installToVFS` after unpacking does not fail, and leaves sound files -/
theorem spreadRun_sound {env : Env} {plat : Platform} (hs : RelScheme plat.scheme)
    (hnul : ∀ kind dir, (kind, dir) ∈ Spec.schemeDirs plat.scheme → '\x00' ∉ dir) {maxTime : Int} {dst dir : Str} {minTime : Option Int} {zip : List ZFile}
    (hc : ∀ srcs, Spec.Sources srcs → (∀ s ∈ srcs, Spec.SoundRef s ∧ Spec.Installed env plat minTime dst dir zip s) →
      ∃ outs, env.compile maxTime [plat.scheme.pureLib, plat.scheme.platLib] srcs = .ok outs ∧ ∀ o ∈ outs, Spec.SoundRef o)
    {m : Map Ref} (hun : m = unpack minTime dst zip) (hm : ZGood m) (hf : AllFit m) (hA : Spec.Apart plat.scheme (dataDir dst dir) m)
    (hk : ∀ k ∈ m.keys, Spec.In (dataDir dst dir) k → ∃ n kind, Spec.Moves plat.scheme (dataDir dst dir) k n kind)
    {r : Outcome (Map Ref)} (h : SpreadRun env plat maxTime dst dir m r) : r ≠ .error ∧ ∀ a, r = .ok a → Spec.AllSound a := by
  -- after moving
  have moved : ∀ {m1 : Map Ref} {types : Map Str}, RangeRun (spreadBody plat.scheme (dataDir dst dir)) (RangeState.start m) [] (.ok (m1, types)) →
      ZGood m1 ∧ types.WF ∧ AllFit m1 := by
    intro m1 types h1
    obtain ⟨g1, g2⟩ := spread_good hs hm h1 rfl
    refine ⟨g1, g2, ?_⟩
    rcases spread_exact hm.wf hA h1 with ⟨e, _⟩ | ⟨_, _, e, _, _, _, hget, _⟩
    · cases e
    cases e
    intro n ref hr
    rcases (hget n ref).1 hr with ⟨k, r, kind, hkr, hmv, rfl⟩ | ⟨_, _, hr⟩
    · obtain ⟨a1, a2⟩ := hf k r hkr
      obtain ⟨b1, b2, _⟩ := hm.file k r hkr
      exact ⟨moves_nul hmv a1 hnul, fits_rename b1 b2 a2⟩
    · exact hf n ref hr
  -- after rewriting
  have rewritten : ∀ {m1 m2 : Map Ref} {types order : Map Str}, RangeRun (spreadBody plat.scheme (dataDir dst dir)) (RangeState.start m) [] (.ok (m1, types)) →
      order.Perm types → rewritePython env.digest plat order m1 = some (.ok m2) →
      PGood (removeRecords dst dir m2) ∧ Spec.AllSound (removeRecords dst dir m2) := by
    intro m1 m2 types order h1 h2 h3
    obtain ⟨g1, g2, g3⟩ := moved h1
    have hnd := nodup_perm g2 h2
    have g4 := rewrite_good hnd g1.toP h3
    have g5 := remove_good (dst := dst) (dir := dir) g4
    refine ⟨g5, ?_⟩
    intro n r hr
    obtain ⟨p1, p2⟩ := g5.file n r hr
    obtain ⟨q1, q2⟩ := remove_get dst dir m2 n
    by_cases hrem : Spec.Removed dst dir n
    · rw [q1 hrem] at hr; cases hr
    rw [q2 hrem] at hr
    obtain ⟨s1, s2⟩ := rewritePython_get hnd h3 n
    have : '\x00' ∉ n ∧ ZipFits n r := by
      by_cases hsc : (n, "scripts".toList) ∈ order
      · obtain ⟨r', t1, t2⟩ := s1 hsc
        rw [hr] at t1
        cases t1
        cases hx : m1.get? n with
        | none => rw [hx] at t2; cases t2
        | some x =>
          rw [hx] at t2
          exact ⟨(g3 n x hx).1, fits_rewrite (g3 n x hx).2 t2⟩
      · rw [s2 hsc] at hr
        exact g3 n r hr
    exact placed_sound p1 this.1 p2 this.2
  have compiled : ∀ {m1 m2 srcs : Map Ref} {types order : Map Str}, RangeRun (spreadBody plat.scheme (dataDir dst dir)) (RangeState.start m) [] (.ok (m1, types)) →
      order.Perm types → rewritePython env.digest plat order m1 = some (.ok m2) → srcs.Perm ((removeRecords dst dir m2).filter isPython) →
      ∃ outs, env.compile maxTime [plat.scheme.pureLib, plat.scheme.platLib] (srcs.map (·.2)) = .ok outs ∧ ∀ o ∈ outs, Spec.SoundRef o := by
    intro m1 m2 srcs types order h1 h2 h3 h4
    obtain ⟨g5, g6⟩ := rewritten h1 h2 h3
    refine hc _ (sources_of g5 h4) ?_
    intro s hs
    obtain ⟨e, he, rfl⟩ := List.mem_map.1 hs
    have hget := Map.get?_of_mem g5.wf (List.mem_filter.1 (h4.mem_iff.1 he)).1
    refine ⟨g6 e.1 e.2 hget, ?_⟩
    unfold Spec.Installed
    rw [(g5.toGood.file e.1 e.2 hget).2]
    subst hun
    exact removed_from hm hA h1 h2 (nodup_perm (moved h1).2.1 h2) h3 hget
  cases h with
  | spreadFails h1 =>
    rcases spread_exact hm.wf hA h1 with ⟨_, k, hk1, hk2, hk3⟩ | ⟨_, _, e, _⟩
    · exact absurd (hk k hk1 hk2) hk3
    · cases e
  | rewritePanics h1 h2 h3 => exact ⟨by simp, fun a e => by cases e⟩
  | rewriteFails h1 h2 h3 =>
    obtain ⟨g1, g2, g3⟩ := moved h1
    rcases rewritePython_outcome (digest := env.digest) (plat := plat) (nodup_perm g2 h2)
      (fun n hn => scripts_there hm hA h1 n _ (h2.mem_iff.1 hn)) with ⟨_, n, x, _, hx, hcn⟩ | ⟨⟨_, e⟩, _⟩
    · obtain ⟨_, hd, c, rec, rfl, _⟩ := g3 n x hx
      cases hcn
    · rw [h3] at e; cases e
  | compileFails h1 h2 h3 h4 h5 =>
    obtain ⟨outs, e, _⟩ := compiled h1 h2 h3 h4
    rw [h5] at e; cases e
  | done h1 h2 h3 h4 h5 =>
    refine ⟨by simp, ?_⟩
    intro a e
    cases e
    obtain ⟨outs, e, ho⟩ := compiled h1 h2 h3 h4
    rw [h5] at e
    cases e
    exact outs_sound (rewritten h1 h2 h3).2 ho

theorem mapM_some {f : α → Option β} {l : List α} (h : ∀ a ∈ l, ∃ b, f a = some b) : ∃ bs, l.mapM f = some bs := by
  induction l with
  | nil => exact ⟨[], rfl⟩
  | cons a l ih =>
    obtain ⟨b, hb⟩ := h a (by simp)
    obtain ⟨bs, hbs⟩ := ih (fun x hx => h x (by simp [hx]))
    exact ⟨b :: bs, by rw [List.mapM_cons, hb, hbs]; rfl⟩

/-- a layer can be made of sound files -/
theorem layerOf_sound {w : World} (hsort : SortSlice w.sortSlice) (hacc : ∀ h, Spec.Writable h → w.accepts h = true) {plat : Platform}
    (hu : '\x00' ∉ plat.uname ∧ '\x00' ∉ plat.gname) {t : Int} {m : Map Ref} (hm : ∀ e ∈ m, Spec.SoundRef e.2) :
    ∃ layer, layerOf w plat t m = .ok layer := by
  have hch : ∀ e ∈ m, ∃ f, chown plat e.2 = some f := by
    intro e he
    obtain ⟨_, h, c, h1, _⟩ := hm e he
    unfold chown
    rw [h1]
    exact ⟨_, rfl⟩
  obtain ⟨refs, hr⟩ := mapM_some hch
  unfold layerOf
  rw [hr]
  rw [C147_refs hsort]
  intro f hf
  obtain ⟨_, h2, _⟩ := mapM_chown hr
  obtain ⟨e, he, hfe⟩ := h2 f hf
  obtain ⟨n1, h, c, i1, i2, i3, i4, i5, i6, i7, i8⟩ := hm e he
  unfold chown at hfe
  rw [i1] at hfe
  simp only [Option.some.injEq] at hfe
  subst hfe
  refine ⟨_, rfl, hacc _ ?_, ?_⟩
  · constructor
    · rcases i3 with ⟨a, b⟩ | ⟨a, b⟩
      · exact .inl ⟨a, by show 0 ≤ h.size; omega⟩
      · exact .inr ⟨a, b⟩
    · exact ⟨i4, i5⟩
    · exact ⟨i6, i7, i8⟩
    · exact ⟨n1, hu⟩
  · intro ht
    rcases i3 with ⟨_, b⟩ | ⟨a, _⟩
    · exact ⟨c, i2, b⟩
    · exact absurd (show h.typeflag = '0' from ht) (by rw [a]; decide)

theorem init_names {p q : Platform} (h : p.init = .ok q) : q.uname = p.uname ∧ q.gname = p.gname := by
  have key : ∀ {b : Prop} [Decidable b] {x : Platform}, (if b then Except.ok x else Except.error ()) = (Except.ok q : Except Unit Platform) → q = x := by
    intro b _ x h
    split at h
    · cases h; rfl
    · cases h
  unfold Platform.init at h
  by_cases h0 : p.consoleShebang = [] ∧ p.graphicalShebang = []
  · rw [if_pos h0] at h; cases h
  · rw [if_neg h0] at h
    rw [key h]
    constructor <;> (split <;> split <;> rfl)

theorem info_nul {zip : List ZFile} (h : ∀ f ∈ zip, '\x00' ∉ f.hdr.name) {d : Str} (hd : Spec.TheInfoDir zip d) : '\x00' ∉ d := by
  obtain ⟨_, ⟨f, hf, rfl⟩, _⟩ := hd
  intro hx
  exact clean_nul (h f hf) ((List.takeWhile_sublist _).subset hx)

theorem open_first {zip : List ZFile} {d x : Str} {f : ZFile} {c : Bytes} (hd : Spec.TheInfoDir zip d) (hx : Plain x)
    (h : Spec.FirstNamed zip (d ++ '/' :: x) f) (hc : f.content = some c) : openWheel zip (pathJoin [d, x]) = some c := by
  obtain ⟨hi, ⟨g, _, hg⟩, _⟩ := hd
  have hj := join_info (top_plain hg hi) hx
  obtain ⟨before, after, rfl, h2, h3⟩ := h
  unfold openWheel
  rw [hj, ← h2, clean_idem, List.find?_append]
  have : before.find? (fun g => clean g.hdr.name = clean f.hdr.name) = none := by
    rw [List.find?_eq_none]
    intro g hg
    rw [h2]
    simpa using h3 g hg
  rw [this]
  simp [hc]

/-- `InstallWheel` with a hook that works on what it is given -/
theorem install_noerr {w : World} (hsort : SortSlice w.sortSlice) (hct : Spec.TidyCompiler w.toEnv) {plat : Platform}
    {minTime maxTime : Option Int} {zip : List ZFile} (hcw : Spec.CompilesWheel w.toEnv plat minTime zip)
    (hacc : ∀ h, Spec.Writable h → w.accepts h = true) (hp : Spec.ProperScheme plat.scheme) {hook : Hook} (hn : Spec.WheelNoClash w.toEnv plat zip) (hz : Spec.SoundWheel w plat zip)
    (hhook : ∀ p t m d, sanitizePlatform plat = .ok p → VfsRun w.toEnv p minTime t zip (.ok (m, d)) → '\x00' ∉ d → Good m → Spec.AllSound m →
      ∃ a, hook t m d = .ok a ∧ Good a ∧ Spec.AllSound a) :
    ∀ r, InstallRun w plat minTime maxTime hook zip r → r ≠ .error := by
  rintro r h rfl
  obtain ⟨dir, wheel, text, get, v, z1', z2', z2'', z3, z4, z5⟩ := hz.wheel
  have z1 := (C50_dist_info zip dir).mpr z1'
  have z2 := open_first z1' (show Plain "WHEEL".toList by unfold Plain; decide +kernel) z2' z2''
  have hparse : parseWheel w.toEnv zip = .ok (dir, get) := by
    unfold parseWheel
    rw [z1]
    simp only
    rw [z2]
    simp only
    rw [z3]
  have hver : versionOK (get "Wheel-Version".toList) = true := by
    unfold versionOK
    rw [z4]
    simpa using z5
  have vfs : ∀ {p : Platform} {t : Int} {x : Outcome (Map Ref × Str)}, sanitizePlatform plat = .ok p → VfsRun w.toEnv p minTime t zip x →
      x ≠ .error ∧ ∀ a d, x = .ok (a, d) → Spec.AllSound a ∧ '\x00' ∉ d := by
    intro p t x hsan hx
    have hs := sanitize_rel hp hsan
    obtain ⟨kind, hk⟩ := rootDir_mem p get
    obtain ⟨hd, hr⟩ := hs kind _ hk
    have hnul : ∀ kind dir, (kind, dir) ∈ Spec.schemeDirs p.scheme → '\x00' ∉ dir := by
      intro kind dir hm
      obtain ⟨d, hd, rfl⟩ := (sanitize_scheme hsan kind dir).mp hm
      intro hx
      unfold trimPrefix at hx
      split at hx
      · exact hz.nul.2.2 kind d hd (List.mem_of_mem_drop hx)
      · exact hz.nul.2.2 kind d hd hx
    have hsp : ∀ {y}, SpreadRun w.toEnv p t (rootDir p get) dir (unpack minTime (rootDir p get) zip) y →
        y ≠ .error ∧ ∀ a, y = .ok a → Spec.AllSound a := by
      intro y hy
      refine spreadRun_sound hs hnul (fun srcs => hcw p dir get t srcs hsan hparse) rfl (unpack_good hd hr minTime zip) (unpack_fit (hnul _ _ hk) hz.files)
        (noClash_apart (hn p dir get hsan hparse) minTime) ?_ hy
      intro k hk hin
      obtain ⟨f, hf, rfl⟩ := (unpack_keys minTime (rootDir p get) zip k).1 hk
      exact hz.kinds p dir get hsan hparse f hf hin
    cases hx with
    | noWheel e => rw [hparse] at e; cases e
    | badVersion e e2 => rw [hparse] at e; cases e; rw [hver] at e2; cases e2
    | fails e e2 e3 => rw [hparse] at e; cases e; exact absurd rfl (hsp e3).1
    | panics e e2 e3 => exact ⟨by simp, fun a d e => by cases e⟩
    | done e e2 e3 =>
      rw [hparse] at e
      cases e
      refine ⟨by simp, ?_⟩
      intro a d e
      cases e
      refine ⟨(hsp e3).2 _ rfl, pathJoin_nul ?_⟩
      intro s hs
      simp only [List.mem_cons, List.not_mem_nil, or_false] at hs
      rcases hs with rfl | rfl
      · exact hnul _ _ hk
      · exact info_nul (fun f hf => (hz.files f hf).1) ((C50_dist_info zip _).mp z1)
  cases h with
  | badPlatform e =>
    have habs : ∀ kind dir, (kind, dir) ∈ Spec.schemeDirs plat.scheme → Python.Spec.Absolute dir := by
      intro kind dir h
      obtain ⟨c, x, rfl, _⟩ := hp kind dir h
      exact ⟨_, rfl⟩
    have hp := (C86_init plat _).mpr ⟨hz.platform, ⟨habs "purelib".toList _ (by simp [Spec.schemeDirs]), habs "platlib".toList _ (by simp [Spec.schemeDirs]),
      habs "headers".toList _ (by simp [Spec.schemeDirs]), habs "scripts".toList _ (by simp [Spec.schemeDirs]), habs "data".toList _ (by simp [Spec.schemeDirs])⟩, rfl⟩
    unfold sanitizePlatform at e
    rw [hp] at e
    cases e
  | badWheel _ e => rw [(C41_exact w.digest w.csv zip).mpr hz.whole] at e; cases e
  | @run p _ hsan hint h =>
  have hs := sanitize_rel hp hsan
  cases h with
  | fails e => exact absurd rfl (vfs hsan e).1
  | hookFails e e2 =>
    obtain ⟨v1, v2⟩ := (vfs hsan e).2 _ _ rfl
    obtain ⟨a, h1, _⟩ := hhook _ _ _ _ hsan e v2 (vfsRun_good hct hs e) v1
    rw [e2] at h1
    cases h1
  | @layerFails m m1 m2 order d e e2 e3 e4 e5 =>
    obtain ⟨v1, v2⟩ := (vfs hsan e).2 _ _ rfl
    obtain ⟨a, h1, g1, h2⟩ := hhook _ _ _ _ hsan e v2 (vfsRun_good hct hs e) v1
    rw [e2] at h1
    cases h1
    obtain ⟨b, _, he, _, _, gb, _⟩ := parents_det g1 g1 (Map.Same.refl _) e3 e3
    cases he
    have rel : ∀ k ∈ m1.keys, Spec.Rel k := by
      intro k hk
      obtain ⟨x, hx⟩ := get_some hk
      exact (g1.file k x hx).1
    obtain ⟨b, he, kept, made, others⟩ := C46_loop _ m1 rel _ e3
    cases he
    have hall : ∀ e ∈ order, Spec.SoundRef e.2 := by
      intro e hmem
      have hg : m2.get? e.1 = some e.2 := Map.get?_of_mem gb.wf (e4.mem_iff.1 hmem)
      cases h0 : m1.get? e.1 with
      | some x => rw [kept _ x h0] at hg; cases hg; exact h2 _ _ h0
      | none =>
        by_cases hex : ∃ k ∈ m1.keys, Spec.Parent e.1 k
        · rw [made _ h0 hex] at hg
          obtain ⟨k, hk, y, hy⟩ := hex
          obtain ⟨x, hx⟩ := get_some hk
          have hnk : '\x00' ∉ k := by
            have := (h2 k x hx).1
            rwa [(g1.file k x hx).2] at this
          have hne : '\x00' ∉ e.1 := fun hc => hnk (by rw [hy]; simp [hc])
          have hg' := Option.some.inj hg
          rw [← hg']
          refine ⟨hne, _, [], rfl, rfl, .inr ⟨rfl, rfl⟩, ?_, ?_, rfl, rfl, rfl⟩
          · show (0 : Int) ≤ 0o755; decide
          · show (0o755 : Int) ≤ 0o777; decide
        · rw [others _ h0 hex] at hg; cases hg
    have hu : '\x00' ∉ p.uname ∧ '\x00' ∉ p.gname := by
      have hinit : p.uname = plat.uname ∧ p.gname = plat.gname := by
        unfold sanitizePlatform at hsan
        split at hsan
        · cases hsan
        · rename_i q hq
          cases hsan
          simp only
          exact init_names hq
      rw [hinit.1, hinit.2]
      exact ⟨hz.nul.1, hz.nul.2.1⟩
    obtain ⟨layer, hl⟩ := layerOf_sound hsort hacc hu (t := maxTime.getD (defaultMaxTime w.now zip)) hall
    rw [e5] at hl
    cases hl
/-! ### the property -/

/-- **C148**: `InstallWheel` makes a layer of every wheel with which nothing is wrong (`Spec.SoundWheel`), for every order in which maps are
visited: provided that files of its data directory do not get into each other's way (as in C44 and C87), that compiler and hook work,
and that the tar writer takes ordinary headers. -/
theorem C148_installs (w : World) (hsort : SortSlice w.sortSlice) (hc : Spec.OrderlyCompiler w.toEnv)
    (hacc : ∀ h, Spec.Writable h → w.accepts h = true) (plat : Platform) (hp : Spec.ProperScheme plat.scheme) (minTime maxTime : Option Int)
    (hook : Hook) (hh : Spec.OrderlyHook hook) (hhw : Spec.WorkingHook hook) (zip : List ZFile) (hcw : Spec.CompilesWheel w.toEnv plat minTime zip)
    (hn : Spec.WheelNoClash w.toEnv plat zip) (hz : Spec.SoundWheel w plat zip) :
    (∃ layer, InstallRun w plat minTime maxTime hook zip (.ok layer)) ∧
    ∀ r, InstallRun w plat minTime maxTime hook zip r → ∃ layer, r = .ok layer := by
  have noerr := install_noerr hsort (orderly_tidy hc) hcw hacc hp (maxTime := maxTime) hn hz (hook := hook)
    (fun p t m d _ _ _ hg hs => by
      obtain ⟨a, h1, h2⟩ := hhw t m d hg hs
      exact ⟨a, h1, orderly_hook hh _ _ _ _ hg h1, h2⟩)
  have hret := C87_returns_partial w hsort hc plat hp minTime maxTime hook hh zip hn
  have hall : ∀ r, InstallRun w plat minTime maxTime hook zip r → ∃ layer, r = .ok layer :=
    fun r h => (hret.2 r h).resolve_left (noerr r h)
  refine ⟨?_, hall⟩
  obtain ⟨r, h⟩ := hret.1
  obtain ⟨layer, rfl⟩ := hall r h
  exact ⟨layer, h⟩

/-! ### the command -/

namespace Spec

/-- entry_points.txt, as it is installed from `zip` in any run, is a valid configuration, the scripts it declares are function references,
and their names have no NUL -/
def SoundScripts (env : Env) (decode : Bytes → Str) (plat : Platform) (zip : List ZFile) : Prop :=
  ∀ p t m dir r c, sanitizePlatform plat = .ok p → VfsRun env p none t zip (.ok (m, dir)) →
    m.get? (pathJoin [dir, "entry_points.txt".toList]) = some r → r.content = some c →
    ∃ cfg, parseConfig entryParser (decode c) = .ok cfg ∧
      ∀ key val i, Declares plat cfg key val i → (∃ mod attr, FuncRef val mod attr) ∧ '\x00' ∉ key

end Spec

theorem memFile_sound {t : Int} {name : Str} {mode : Int} {c : Bytes} (hn : '\x00' ∉ name) (hm : 0 ≤ mode ∧ mode ≤ 0o777) :
    Spec.SoundRef (memFile t name mode c) :=
  ⟨hn, _, c, rfl, rfl, .inl ⟨rfl, rfl⟩, hm.1, hm.2, rfl, rfl, rfl⟩

theorem set_sound {m : Map Ref} {n : Str} {r : Ref} (hm : Spec.AllSound m) (hr : Spec.SoundRef r) : Spec.AllSound (m.set n r) := by
  intro k x hx
  rw [Map.get?_set] at hx
  split at hx
  · cases hx; exact hr
  · exact hm k x hx

theorem name_nul {dir x : Str} (hd : '\x00' ∉ dir) (hx : '\x00' ∉ x) : '\x00' ∉ pathJoin [dir, x] := by
  apply pathJoin_nul
  intro s hs
  simp only [List.mem_cons, List.not_mem_nil, or_false] at hs
  rcases hs with rfl | rfl
  · exact hd
  · exact hx

theorem scripts_sound {env : HookEnv} {guiFirst : Bool} {order : List (Str × Str) → List (Str × Str)} (ho : ∀ l, (order l).Perm l)
    {plat q : Platform} (hq : plat.init = .ok q) (hnul : '\x00' ∉ plat.scheme.scripts) {t : Int} {m : Map Ref} {dir : Str} (hm : Spec.AllSound m)
    (hs : ∀ r c, m.get? (pathJoin [dir, "entry_points.txt".toList]) = some r → r.content = some c →
      ∃ cfg, parseConfig entryParser (env.decode c) = .ok cfg ∧
        ∀ key val i, Spec.Declares plat cfg key val i → (∃ mod attr, Spec.FuncRef val mod attr) ∧ '\x00' ∉ key) :
    ∃ a, scriptsHook env guiFirst order plat t m dir = .ok a ∧ Spec.AllSound a := by
  cases h : scriptsHook env guiFirst order plat t m dir with
  | error e =>
    exfalso
    cases e
    rcases (C52_error env guiFirst order ho plat t m dir).mp h with h | ⟨r, hr, h | ⟨c, hc, h⟩⟩
    · rw [hq] at h; cases h
    · obtain ⟨_, _, c, _, hc, _⟩ := hm _ _ hr
      rw [h] at hc; cases hc
    · obtain ⟨cfg, h1, h2⟩ := hs r c hr hc
      rcases h with h | ⟨cfg', h, key, val, i, h3, h4⟩
      · rw [h1] at h; cases h
      · rw [h1] at h; cases h
        exact h4 (h2 key val i h3).1
  | ok a =>
    refine ⟨a, rfl, ?_⟩
    rcases C52_scripts env guiFirst order ho plat q hq t m a dir h with ⟨_, rfl⟩ | ⟨cfg, ⟨r, c, hr, hc, hcfg⟩, hall⟩
    · exact hm
    · obtain ⟨cfg', h1, h2⟩ := hs r c hr hc
      rw [hcfg] at h1
      cases h1
      intro n x hx
      rcases hall n with ⟨key, val, i, hd, hk, mod, attr, _, hget⟩ | ⟨_, hget⟩
      · rw [hx] at hget
        cases hget
        refine memFile_sound ?_ ⟨by decide, by decide⟩
        have hkey : '\x00' ∉ key := by
          rcases hd with ⟨d, a1, a2, _⟩ | ⟨d, a1, a2, _⟩
          · exact (h2 key val _ (.inl ⟨d, a1, a2, rfl⟩)).2
          · exact (h2 key val _ (.inr ⟨d, a1, a2, rfl⟩)).2
        rw [← hk, init_scheme hq]
        exact name_nul (fun hc => hnul (List.mem_of_mem_drop hc)) hkey
      · rw [hget] at hx
        exact hm n x hx

theorem record_sound {env : HookEnv} {order : Map Ref → Map Ref} (ho : ∀ m, (order m).Perm m) {installer : Str} {t : Int} {m : Map Ref} {dir : Str}
    (hwf : m.WF) (hm : Spec.AllSound m) (hd : '\x00' ∉ dir) :
    ∃ a, recordHook env order "sha256".toList installer none t m dir = .ok a ∧ Spec.AllSound a := by
  have h1 : Spec.AllSound (m.set (pathJoin [dir, "INSTALLER".toList]) (memFile t (pathJoin [dir, "INSTALLER".toList]) 0o644 (enc (installer ++ ['\n'])))) :=
    set_sound hm (memFile_sound (name_nul hd (by decide)) ⟨by decide, by decide⟩)
  unfold recordHook recordMeta
  simp only
  rw [if_neg (show ¬ "sha256".toList = [] by decide), if_neg (show ¬ "sha256".toList ∉ guaranteed by decide)]
  split
  · rename_i e he
    cases e
    obtain ⟨x, hx, _, hf⟩ := recordRows_error.mp he
    exfalso
    obtain ⟨_, _, c, _, hc, _⟩ := h1 x.1 x.2 (Map.get?_of_mem (hwf.set _ _) ((ho _).mem_iff.mp hx))
    unfold recordFile at hf
    simp only at hf
    split at hf
    · cases hf
    · split at hf
      · cases hf
      · rw [hc] at hf; cases hf
  · exact ⟨_, rfl, set_sound h1 (memFile_sound (name_nul hd (by decide)) ⟨by decide, by decide⟩)⟩

/-- **C148** for the command: `ocibuild layer wheel` makes a layer of every wheel with which nothing is wrong and whose entry_points.txt, if
there is one, is valid, whatever the orders in which maps are visited. -/
theorem C148_command (w : World) (hsort : SortSlice w.sortSlice) (hacc : ∀ h, Spec.Writable h → w.accepts h = true) (env : HookEnv) (hrows : SortSlice env.sortRows) (plat : Platform) (zip : List ZFile)
    (hcw : Spec.CompilesWheel w.toEnv plat none zip) (ho : Spec.Ordinary w env plat zip) (hz : Spec.SoundWheel w plat zip) (hs : Spec.SoundScripts w.toEnv env.decode plat zip) :
    (∃ layer, CommandRun w env plat zip (.ok layer)) ∧ ∀ r, CommandRun w env plat zip r → ∃ layer, r = .ok layer := by
  have hall : ∀ r, CommandRun w env plat zip r → ∃ layer, r = .ok layer := by
    intro r hr
    refine (C90_reproducible_partial w hsort env hrows env.sortRows hrows plat zip ho r r hr hr).2.resolve_left ?_
    obtain ⟨gui, oS, oR, hoS, hoR, h⟩ := hr
    refine install_noerr hsort ho.compiler.tidy hcw hacc (clean_proper ho.scheme) ho.apart hz ?_ r h
    intro p t m d hsan hv hd hg hsound
    obtain ⟨q, hq, _⟩ := sanitize_init hsan
    have hsc : '\x00' ∉ plat.scheme.scripts := hz.nul.2.2 "scripts".toList _ (by unfold Spec.schemeDirs; simp)
    obtain ⟨a, e, ha⟩ := scripts_sound (env := env) (guiFirst := gui) hoS hq hsc (t := t) hsound (fun r c => hs p t m d r c hsan hv)
    obtain ⟨cs, info, hdir, hh⟩ := handed ho.scheme hsan ho.compiler ho.down hv
    have hfit : ∀ cfg, Spec.EntryPoints env.decode m d cfg → Spec.Fits q d cfg := fun cfg hc => ho.fits p q t m d cfg hsan hq hv hc
    have hwf := scripts_wf e hh.tame.good.wf
    obtain ⟨b, eb, hb⟩ := record_sound (env := env) hoR (installer := "ocibuild layer wheel".toList) (t := t) hwf ha hd
    refine ⟨b, by rw [command_eq e]; exact eb, ?_, hb⟩
    subst hdir
    have ha' := scripts_handed ho.scheme hq hoS hh hfit e hwf
    rcases C51_order env env.sortRows hrows hrows oR oR hoR hoR "sha256".toList "ocibuild layer wheel".toList none t a a ha'.tame ha'.tame (Map.Same.refl _) cs info
      hh.plain ha'.noRecord with ⟨hx, _⟩ | ⟨b', _, hb', _, _, tb, _⟩
    · rw [eb] at hx; cases hx
    · rw [eb] at hb'; cases hb'
      exact tb.good
  refine ⟨?_, hall⟩
  obtain ⟨r, hr⟩ := C90_returns w env plat zip
  obtain ⟨layer, rfl⟩ := hall r hr
  exact ⟨layer, hr⟩

/-! ### Samples -/

/-- a wheel with a module, data, a script, entry points and byte code is sound -/
theorem cmd_sound : Spec.SoundWheel cmdWorld toyPlat cmdZip where
  platform := .inl (by decide)
  nul := by
    refine ⟨by decide, by decide, ?_⟩
    intro kind dir h
    have : ∀ e ∈ Spec.schemeDirs toyPlat.scheme, '\x00' ∉ e.2 := by decide +kernel
    exact this _ h
  whole := (C41_exact _ _ _).mp (by decide +kernel)
  wheel := by
    have hv : ∃ v, Pep440.parseVersion "1.0".toList = .ok v ∧ v.toPubVer.major ≤ 1 := by
      have : (match Pep440.parseVersion "1.0".toList with | .ok v => decide (v.toPubVer.major ≤ 1) | .error _ => false) = true := by decide +kernel
      split at this
      · rename_i v e; exact ⟨v, e, of_decide_eq_true this⟩
      · cases this
    obtain ⟨v, h1, h2⟩ := hv
    exact ⟨"x.dist-info".toList, sampleFile "x.dist-info/WHEEL" [3], [3], _, v, (C50_dist_info _ _).mp (by decide +kernel),
      ⟨cmdZip.take 4, cmdZip.drop 5, rfl, by decide +kernel, by decide +kernel⟩, rfl, rfl, h1, h2⟩
  kinds := by
    intro p dir get hp hw f hf hin
    rw [toy_platform] at hp
    cases hp
    have hw' : ∃ get, parseWheel cmdWorld.toEnv cmdZip = .ok ("x.dist-info".toList, get) ∧ get "Root-Is-Purelib".toList = "true".toList := ⟨_, rfl, rfl⟩
    obtain ⟨get', hw', hroot⟩ := hw'
    rw [hw'] at hw
    cases hw
    unfold rootDir at hin ⊢
    rw [if_pos hroot] at hin ⊢
    rw [← hasPrefix_in] at hin
    have hall : ∀ f ∈ cmdZip, hasPrefix (pathJoin ["l/pure".toList, f.hdr.name]) (dataDir "l/pure".toList "x.dist-info".toList ++ ['/']) = true →
        pathJoin ["l/pure".toList, f.hdr.name] = dataDir "l/pure".toList "x.dist-info".toList ++ '/' :: "scripts".toList ++ '/' :: "run".toList ∨
        pathJoin ["l/pure".toList, f.hdr.name] = dataDir "l/pure".toList "x.dist-info".toList ++ '/' :: "data".toList ++ '/' :: "e/f".toList := by
      decide +kernel
    rcases hall f hf hin with e | e
    · exact ⟨_, "scripts".toList, "run".toList, "bin".toList, .inr (by rw [e]; simp), by simp [Spec.schemeDirs], rfl⟩
    · exact ⟨_, "data".toList, "e/f".toList, "d".toList, .inr (by rw [e]; simp), by simp [Spec.schemeDirs], rfl⟩
  files := by
    intro f hf
    have h1 : ∀ f ∈ cmdZip, '\x00' ∉ f.hdr.name ∧ f.content.map (fun c => (c.length : Int)) = some f.hdr.size := by decide +kernel
    obtain ⟨a, b⟩ := h1 f hf
    refine ⟨a, ?_⟩
    cases hc : f.content with
    | none => rw [hc] at b; cases b
    | some c => rw [hc] at b; exact ⟨c, rfl, fun _ => Option.some.inj b⟩

theorem cmd_works : Spec.CompilesWheel cmdWorld.toEnv toyPlat none cmdZip := by
  intro p dir get t srcs _ _ _ _
  refine ⟨[cmdCode], rfl, ?_⟩
  intro o ho
  rw [List.mem_singleton.mp ho]
  exact memFile_sound (by decide) ⟨by decide, by decide⟩

theorem cmd_scripts : Spec.SoundScripts cmdWorld.toEnv toyHookEnv.decode toyPlat cmdZip := by
  intro p t m dir r c hp hv h1 h2
  have he : cmdEntry = true := by decide +kernel
  unfold cmdEntry at he
  rw [hp] at he
  simp only at he
  have hrun := vfsOnce_run chooses_head cmdWorld.toEnv p none 0 cmdZip
  split at he
  · rename_i m0 dir0 h0
    rw [h0] at hrun
    obtain ⟨rfl, hc⟩ := of_decide_eq_true he
    have hdet := vfsRun_det (sanitize_rel (clean_proper toy_clean) hp) cmd_compiler.orderly
      (fun dir get hw => before_inside toy_clean hp cmd_down hw) (fun dir get hw => cmd_apart p dir get hp hw)
      (cmd_time (t' := 0) hv) hrun
    rcases hdet with ⟨e, _⟩ | ⟨a, a', d, e, e', hsame⟩
    · cases e
    · cases e; cases e'
      rw [hsame] at h1
      rw [h1] at hc
      simp only [Option.bind_some] at hc
      rw [h2] at hc
      cases hc
      refine ⟨entryConfig, by decide +kernel, ?_⟩
      intro key val i hd
      have : ∀ e ∈ declared toyPlat entryConfig, (match funcRef e.2.1 with | .ok _ => true | .error _ => false) = true ∧ '\x00' ∉ e.1 := by decide +kernel
      obtain ⟨x, y⟩ := this _ (mem_declared.mp hd)
      refine ⟨?_, y⟩
      simp only at x
      split at x
      · rename_i q hq
        exact ⟨q.1, q.2, (funcRef_iff _ _ _).mp hq⟩
      · cases x
  · cases he

/-- the hypotheses of `C148_command` are met -/
example : ∃ layer, CommandRun cmdWorld toyHookEnv toyPlat cmdZip (.ok layer) :=
  (C148_command cmdWorld sortSlice_exists (fun _ _ => rfl) toyHookEnv sortSlice_exists toyPlat cmdZip cmd_works cmd_ordinary cmd_sound cmd_scripts).1

theorem toy_works (zip : List ZFile) : Spec.CompilesWheel (toyEnv zip) toyPlat none zip :=
  fun _ _ _ _ _ _ _ _ _ => ⟨[], rfl, fun _ h => (nomatch h)⟩

/-- the sample archive is sound also without a compiler -/
theorem toy_sound : Spec.SoundWheel (toyWorld cmdZip) toyPlat cmdZip where
  platform := cmd_sound.platform
  nul := cmd_sound.nul
  whole := cmd_sound.whole
  wheel := cmd_sound.wheel
  kinds := fun p dir get hp hw => cmd_sound.kinds p dir get hp hw
  files := cmd_sound.files

/-- the hypotheses of `C148_installs` are met -/
example : ∃ layer, InstallRun (toyWorld cmdZip) toyPlat none none noHook cmdZip (.ok layer) :=
  (C148_installs (toyWorld cmdZip) sortSlice_exists (toy_orderly _) (fun _ _ => rfl) toyPlat (clean_proper toy_clean) none none noHook
    noHook_orderly (fun _ m _ _ hm => ⟨m, rfl, hm⟩) cmdZip (toy_works _) (fun p dir get hp hw => cmd_apart p dir get hp hw) toy_sound).1

end Bdist
