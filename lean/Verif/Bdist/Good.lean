import Verif.Bdist.Spread
import Verif.Bdist.PropsEntry
import Verif.Bdist.PropsParents
/-!
What holds for the map of files through all steps of `installToVFS`, whatever the order of the loops.
-/
namespace Bdist
open Go Fsutil Python

theorem rel_ne_nil {k : Str} (h : Spec.Rel k) : k ≠ [] := by
  rintro rfl
  exact absurd h.1 (by decide)

theorem rel_slash {k : Str} (h : Spec.Rel k) : clean (k ++ ['/']) = k := by
  rw [clean_snoc_slash (rel_ne_nil h), h.1]

theorem clean_rel {s : Str} (h : isRooted s = false) : Spec.Rel (clean s) := by
  obtain ⟨cs, hc, e⟩ := clean_shape s
  rw [h] at hc e
  refine ⟨clean_idem s, ?_⟩
  rw [e]
  exact isRooted_render (fun c hm => ⟨(hc.elem c hm).1, (hc.elem c hm).2.2⟩)

theorem join_two {d : Str} (hd : d ≠ []) (x : Str) : pathJoin [d, x] = if x = [] then clean d else clean (d ++ '/' :: x) := by
  unfold pathJoin
  by_cases hx : x = []
  · subst hx; simp [hd, join]
  · simp [hd, hx, join]

theorem rel_join {d : Str} (hd : d ≠ []) (hr : isRooted d = false) (x : Str) : Spec.Rel (pathJoin [d, x]) := by
  rw [join_two hd]
  split
  · exact clean_rel hr
  · exact clean_rel (by rw [isRooted_append hd]; exact hr)

theorem rel_noslash {k : Str} (h : Spec.Rel k) : hasSuffix k ['/'] = false := by
  rw [← h.1]
  refine clean_no_slash ?_
  rw [h.1]
  rintro rfl
  exact absurd h.2 (by decide)

/-- no directory of the scheme is empty or rooted -/
def RelScheme (s : Scheme) : Prop := ∀ kind dir, (kind, dir) ∈ Spec.schemeDirs s → dir ≠ [] ∧ isRooted dir = false

/-- a file as `create`, `rename` and `rewritePython` leave it at the name `k` -/
def Placed (k : Str) (r : Ref) : Prop :=
  ∃ h c rec, r = .zip h c rec ∧ h.creator = 0x300#16 ∧
    (h.name = k ++ ['/'] ∧ h.attrs = ZipAttrs.raw ⟨modeFmtDir ||| 0o755#16, 0#8, 0#8⟩ ∨
     h.name = k ∧ (h.attrs = ZipAttrs.raw ⟨modeFmtRegular ||| 0o755#16, 0#8, 0#8⟩ ∨ h.attrs = ZipAttrs.raw ⟨modeFmtRegular ||| 0o644#16, 0#8, 0#8⟩))

/-- not rewritten yet -/
def Plainly (r : Ref) : Prop := ∃ h c, r = .zip h c none

theorem placed_fullName {k : Str} {r : Ref} (hk : Spec.Rel k) (h : Placed k r) : r.fullName = k := by
  obtain ⟨h, c, rec, rfl, _, hn⟩ := h
  show clean h.name = k
  rcases hn with ⟨hn, _⟩ | ⟨hn, _⟩
  · rw [hn, rel_slash hk]
  · rw [hn, hk.1]

theorem placed_isDir {k : Str} {h : ZHdr} (hk : Spec.Rel k) (hc : h.creator = 0x300#16) :
    (h.name = k ++ ['/'] → h.attrs = ZipAttrs.raw ⟨modeFmtDir ||| 0o755#16, 0#8, 0#8⟩ → h.isDir = true) ∧
    (h.name = k → (h.attrs = ZipAttrs.raw ⟨modeFmtRegular ||| 0o755#16, 0#8, 0#8⟩ ∨
      h.attrs = ZipAttrs.raw ⟨modeFmtRegular ||| 0o644#16, 0#8, 0#8⟩) → h.isDir = false) := by
  unfold ZHdr.isDir
  rw [mode_unix h hc]
  constructor
  · intro h1 h2
    rw [h1, h2, if_pos ((hasSuffix_iff _ _).mpr ⟨k, rfl⟩)]
    decide +kernel
  · intro h1 h2
    rw [h1, rel_noslash hk, if_neg (by decide)]
    rcases h2 with h2 | h2 <;> (rw [h2]; decide +kernel)

theorem placed_rename {k n : Str} {r : Ref} (hk : Spec.Rel k) (h : Placed k r) : Placed n (renameRef n r) := by
  obtain ⟨h, c, rec, rfl, hc, hn⟩ := h
  obtain ⟨d1, d2⟩ := placed_isDir hk hc
  refine ⟨_, c, rec, rfl, hc, ?_⟩
  rcases hn with ⟨hn, ha⟩ | ⟨hn, ha⟩
  · refine Or.inl ⟨?_, ha⟩
    simp only [d1 hn ha, if_true]
  · refine Or.inr ⟨?_, ha⟩
    simp only [d2 hn ha, Bool.false_eq_true, if_false]

theorem placed_create {k : Str} (mt : Option Int) (h : ZHdr) (c : Option Bytes) : Placed k (.zip (createHdr mt k h) c none) := by
  refine ⟨_, c, none, rfl, rfl, ?_⟩
  unfold createHdr
  simp only
  by_cases hs : hasSuffix h.name ['/'] = true
  · exact Or.inl ⟨by rw [if_pos hs], by rw [if_pos hs]⟩
  · refine Or.inr ⟨by rw [if_neg hs], ?_⟩
    rw [if_neg hs]
    by_cases he : isExecutable h = true
    · exact Or.inl (by rw [if_pos he])
    · exact Or.inr (by rw [if_neg he])

theorem placed_rewrite {k : Str} {h : ZHdr} {c : Option Bytes} {rec : Option (Str × Int)} (hp : Placed k (.zip h c rec)) (digest : Str → Bytes → Str)
    (shebang : Str) (skip : Nat) (b : Bytes) : Placed k (rewriteZip digest shebang skip h b) := by
  obtain ⟨h', c', rec', e, hc, hn⟩ := hp
  cases e
  refine ⟨_, _, _, rfl, hc, ?_⟩
  simp only
  rcases hn with ⟨hn, ha⟩ | ⟨hn, ha | ha⟩
  · refine Or.inl ⟨hn, ?_⟩
    rw [ha, C73_parse_raw]; decide +kernel
  · refine Or.inr ⟨hn, Or.inl ?_⟩
    rw [ha, C73_parse_raw]; decide +kernel
  · refine Or.inr ⟨hn, Or.inl ?_⟩
    rw [ha, C73_parse_raw]; decide +kernel

/-- the map before `rewritePython` -/
structure ZGood (m : Map Ref) : Prop where
  wf : m.WF
  file : ∀ k r, m.get? k = some r → Spec.Rel k ∧ Placed k r ∧ Plainly r

/-- the map after it -/
structure PGood (m : Map Ref) : Prop where
  wf : m.WF
  file : ∀ k r, m.get? k = some r → Spec.Rel k ∧ Placed k r

/-- every file is in the map under its own name, which is clean and relative -/
structure Good (m : Map Ref) : Prop where
  wf : m.WF
  file : ∀ k r, m.get? k = some r → Spec.Rel k ∧ r.fullName = k

theorem ZGood.toP {m : Map Ref} (h : ZGood m) : PGood m := ⟨h.wf, fun k r hr => ⟨(h.file k r hr).1, (h.file k r hr).2.1⟩⟩
theorem PGood.toGood {m : Map Ref} (h : PGood m) : Good m :=
  ⟨h.wf, fun k r hr => ⟨(h.file k r hr).1, placed_fullName (h.file k r hr).1 (h.file k r hr).2⟩⟩

theorem renameRef_plainly {n : Str} {r : Ref} (h : Plainly r) : Plainly (renameRef n r) := by
  obtain ⟨h, c, rfl⟩ := h
  exact ⟨_, c, rfl⟩

theorem ZGood.set {m : Map Ref} (h : ZGood m) {k : Str} {r : Ref} (h1 : Spec.Rel k) (h2 : Placed k r) (h3 : Plainly r) : ZGood (m.set k r) := by
  refine ⟨h.wf.set k r, ?_⟩
  intro j s hs
  rw [Map.get?_set] at hs
  split at hs
  · rename_i e; cases hs; rw [e]; exact ⟨h1, h2, h3⟩
  · exact h.file j s hs

theorem ZGood.del {m : Map Ref} (h : ZGood m) (k : Str) : ZGood (m.del k) := by
  refine ⟨h.wf.del k, ?_⟩
  intro j s hs
  rw [Map.get?_del] at hs
  split at hs
  · cases hs
  · exact h.file j s hs

theorem PGood.set {m : Map Ref} (h : PGood m) {k : Str} {r : Ref} (h1 : Spec.Rel k) (h2 : Placed k r) : PGood (m.set k r) := by
  refine ⟨h.wf.set k r, ?_⟩
  intro j s hs
  rw [Map.get?_set] at hs
  split at hs
  · rename_i e; cases hs; rw [e]; exact ⟨h1, h2⟩
  · exact h.file j s hs

theorem PGood.del {m : Map Ref} (h : PGood m) (k : Str) : PGood (m.del k) := by
  refine ⟨h.wf.del k, ?_⟩
  intro j s hs
  rw [Map.get?_del] at hs
  split at hs
  · cases hs
  · exact h.file j s hs

theorem Good.set {m : Map Ref} (h : Good m) {k : Str} {r : Ref} (h1 : Spec.Rel k) (h2 : r.fullName = k) : Good (m.set k r) := by
  refine ⟨h.wf.set k r, ?_⟩
  intro j s hs
  rw [Map.get?_set] at hs
  split at hs
  · rename_i e; cases hs; rw [e]; exact ⟨h1, h2⟩
  · exact h.file j s hs

/-! ### the steps -/

theorem unpack_good {dst : Str} (hd : dst ≠ []) (hr : isRooted dst = false) (mt : Option Int) (zip : List ZFile) : ZGood (unpack mt dst zip) := by
  unfold unpack
  suffices ∀ m : Map Ref, ZGood m → ZGood (zip.foldl (fun vfs f =>
      vfs.set (pathJoin [dst, f.hdr.name]) (.zip (createHdr mt (pathJoin [dst, f.hdr.name]) f.hdr) f.content none)) m) from
    this [] ⟨Map.WF.nil, fun k r h => by cases h⟩
  induction zip with
  | nil => exact fun m h => h
  | cons f zip ih =>
    intro m hm
    exact ih _ (hm.set (rel_join hd hr _) (placed_create mt f.hdr f.content) ⟨_, _, rfl⟩)

theorem schemeDir_rel {s : Scheme} (hs : RelScheme s) {d k n kind : Str} (h : Spec.Moves s d k n kind) : Spec.Rel n := by
  obtain ⟨rest, dir, _, hd, rfl⟩ := h
  exact rel_join (hs kind dir hd).1 (hs kind dir hd).2 rest

theorem spread_good {s : Scheme} (hs : RelScheme s) {d : Str} {m : Map Ref} (hm : ZGood m) {r : Except Unit (Map Ref × Map Str)}
    (h : RangeRun (spreadBody s d) (RangeState.start m) [] r) {m' : Map Ref} {types : Map Str} (he : r = .ok (m', types)) :
    ZGood m' ∧ types.WF := by
  refine RangeRun.inv (fun m x => ZGood m ∧ Map.WF x) ?_ h (RangeState.Pending.start m) ⟨hm, Map.WF.nil⟩ m' types he
  intro k m x ops x' hk ⟨hm, hx⟩ hb
  by_cases hin : Spec.In d k
  · by_cases hmv : ∃ n kind, Spec.Moves s d k n kind
    · obtain ⟨n, kind, hmv⟩ := hmv
      rw [Map.mem_keys_iff] at hk
      cases hr : m.get? k with
      | none => exact absurd hr hk
      | some r =>
        rw [spreadBody_moves hmv hr] at hb
        simp only [Except.ok.injEq, Prod.mk.injEq] at hb
        obtain ⟨rfl, rfl⟩ := hb
        obtain ⟨f1, f2, f3⟩ := hm.file k r hr
        exact ⟨(hm.del k).set (schemeDir_rel hs hmv) (placed_rename f1 f2) (renameRef_plainly f3), hx.set n kind⟩
    · rw [spreadBody_fails hin hmv] at hb; cases hb
  · rw [spreadBody_skip hin] at hb
    cases hb
    exact ⟨hm, hx⟩

/-- what happens to one file is a function of that file -/
theorem rewriteScript_placed {digest : Str → Bytes → Str} {plat : Platform} {k : Str} {r r' : Ref} (hp : Placed k r)
    (h : rewriteScript digest plat (some r) = some (.ok r')) : Placed k r' := by
  unfold rewriteScript at h
  simp only at h
  cases hc : r.content with
  | none => rw [hc] at h; cases h
  | some c =>
    rw [hc] at h
    simp only at h
    split at h
    · cases h; exact hp
    · split at h
      · split at h
        · cases h; exact placed_rewrite hp _ _ _ _
        · cases h; exact placed_rewrite hp _ _ _ _
      · cases h

/-- the result of `rewritePython`, file by file -/
theorem rewritePython_get {digest : Str → Bytes → Str} {plat : Platform} {order : List (Str × Str)} (hnd : (order.map (·.1)).Nodup)
    {m m' : Map Ref} (h : rewritePython digest plat order m = some (.ok m')) (n : Str) :
    ((n, "scripts".toList) ∈ order → ∃ r', m'.get? n = some r' ∧ rewriteScript digest plat (m.get? n) = some (.ok r')) ∧
    ((n, "scripts".toList) ∉ order → m'.get? n = m.get? n) := by
  induction order generalizing m with
  | nil => cases h; exact ⟨fun h => (nomatch h), fun _ => rfl⟩
  | cons e order ih =>
    obtain ⟨a, key⟩ := e
    rw [List.map_cons, List.nodup_cons] at hnd
    rw [rewritePython] at h
    split at h
    · rename_i hk
      obtain ⟨i1, i2⟩ := ih hnd.2 h
      constructor
      · intro hm
        rcases List.mem_cons.mp hm with hm | hm
        · cases hm; exact absurd rfl hk
        · exact i1 hm
      · intro hm
        exact i2 (fun x => hm (List.mem_cons_of_mem _ x))
    · rename_i hk
      have hk : key = "scripts".toList := Classical.not_not.mp hk
      subst hk
      cases hw : rewriteScript digest plat (m.get? a) with
      | none => rw [hw] at h; cases h
      | some x =>
        rw [hw] at h
        cases x with
        | error u => cases h
        | ok r =>
          simp only at h
          obtain ⟨i1, i2⟩ := ih hnd.2 h
          by_cases hn : n = a
          · subst hn
            have hno : (n, "scripts".toList) ∉ order := fun x => hnd.1 (List.mem_map.mpr ⟨_, x, rfl⟩)
            refine ⟨fun _ => ⟨r, ?_, hw⟩, fun h => absurd (List.mem_cons_self ..) h⟩
            rw [i2 hno, Map.get?_set, if_pos rfl]
          · rw [Map.get?_set, if_neg hn] at i1 i2
            constructor
            · intro hm
              rcases List.mem_cons.mp hm with hm | hm
              · cases hm; exact absurd rfl hn
              · exact i1 hm
            · intro hm
              exact i2 (fun x => hm (List.mem_cons_of_mem _ x))

theorem rewritePython_wf {digest : Str → Bytes → Str} {plat : Platform} {order : List (Str × Str)} {m m' : Map Ref} (hw : m.WF)
    (h : rewritePython digest plat order m = some (.ok m')) : m'.WF := by
  induction order generalizing m with
  | nil => cases h; exact hw
  | cons e order ih =>
    obtain ⟨a, key⟩ := e
    rw [rewritePython] at h
    split at h
    · exact ih hw h
    · split at h
      · cases h
      · cases h
      · exact ih (hw.set _ _) h

theorem rewrite_good {digest : Str → Bytes → Str} {plat : Platform} {order : List (Str × Str)} (hnd : (order.map (·.1)).Nodup)
    {m m' : Map Ref} (hm : PGood m) (h : rewritePython digest plat order m = some (.ok m')) : PGood m' := by
  refine ⟨rewritePython_wf hm.wf h, ?_⟩
  intro k r hr
  obtain ⟨g1, g2⟩ := rewritePython_get hnd h k
  by_cases hk : (k, "scripts".toList) ∈ order
  · obtain ⟨r', h1, h2⟩ := g1 hk
    rw [hr] at h1
    cases h1
    cases hg : m.get? k with
    | none => rw [hg] at h2; cases h2
    | some r0 =>
      rw [hg] at h2
      obtain ⟨f1, f2⟩ := hm.file k r0 hg
      exact ⟨f1, rewriteScript_placed f2 h2⟩
  · rw [g2 hk] at hr
    exact hm.file k r hr

theorem remove_good {dst dir : Str} {m : Map Ref} (hm : PGood m) : PGood (removeRecords dst dir m) :=
  (((hm.del _).del _).del _).del _

theorem addOuts_good {m : Map Ref} (hm : Good m) {outs : List Ref} (ho : ∀ o ∈ outs, Spec.Rel o.fullName) :
    Good (outs.foldl (fun m r => m.set r.fullName r) m) := by
  induction outs generalizing m with
  | nil => exact hm
  | cons o outs ih =>
    exact ih (hm.set (ho o (by simp)) rfl) (fun x hx => ho x (by simp [hx]))

/-- files as `installToVFS` gives them to the compiler: with distinct names that are clean, relative and end in `.py` -/
def Spec.Sources (srcs : List Ref) : Prop :=
  (srcs.map (·.fullName)).Nodup ∧ ∀ s ∈ srcs, Spec.Rel s.fullName ∧ ∃ b, pathBase s.fullName = b ++ ".py".toList

/-- a compiler whose results have clean relative names -/
def Spec.TidyCompiler (env : Env) : Prop :=
  ∀ t dirs srcs outs, Spec.Sources srcs → env.compile t dirs srcs = .ok outs → ∀ o ∈ outs, Spec.Rel o.fullName

/-- a compiler whose results have distinct names -/
def Spec.DistinctCompiler (env : Env) : Prop :=
  ∀ t dirs srcs outs, Spec.Sources srcs → env.compile t dirs srcs = .ok outs → (outs.map (·.fullName)).Nodup

theorem py_iff {n : Str} {r : Ref} (h : r.fullName = n) : isPython (n, r) = true ↔ ∃ b, pathBase n = b ++ ".py".toList := by
  unfold isPython Ref.baseName
  simp only [h]
  unfold hasSuffix
  rw [List.isSuffixOf_iff_suffix]
  constructor
  · rintro ⟨b, e⟩; exact ⟨b, e.symm⟩
  · rintro ⟨b, e⟩; exact ⟨b, e.symm⟩

/-- what `installToVFS` gives to the compiler -/
theorem sources_of {m srcs : Map Ref} (hm : PGood m) (h : srcs.Perm (m.filter isPython)) : Spec.Sources (srcs.map (·.2)) := by
  have hfull : ∀ e ∈ srcs, Spec.Rel e.1 ∧ e.2.fullName = e.1 ∧ isPython e = true := by
    intro e he
    obtain ⟨he1, he2⟩ := List.mem_filter.mp (h.mem_iff.mp he)
    have := hm.toGood.file _ _ (Map.get?_of_mem hm.wf he1)
    exact ⟨this.1, this.2, he2⟩
  constructor
  · have e : (srcs.map (·.2)).map (·.fullName) = srcs.map (·.1) := by
      rw [List.map_map]
      exact List.map_congr_left (fun e he => (hfull e he).2.1)
    rw [e]
    refine ((h.map (fun e : Str × Ref => e.1)).nodup_iff).mpr ?_
    have hw : (m.map (·.1)).Nodup := hm.wf
    exact hw.sublist (List.filter_sublist.map _)
  · intro s hs
    obtain ⟨e, he, rfl⟩ := List.mem_map.mp hs
    obtain ⟨h1, h2, h3⟩ := hfull e he
    rw [h2]
    exact ⟨h1, (py_iff h2).mp h3⟩

theorem nodup_perm {order types : Map Str} (h : types.WF) (hp : order.Perm types) : (order.map (·.1)).Nodup :=
  (hp.map (fun e : Str × Str => e.1)).nodup_iff.mpr h

/-- the names of the files in the map when `installToVFS` calls the compiler are of a kind `S` -/
def BeforeCompile (S : Str → Prop) (env : Env) (plat : Platform) (dst dir : Str) (m : Map Ref) : Prop :=
  ∀ (m1 : Map Ref) (types order : Map Str) (m2 : Map Ref),
    RangeRun (spreadBody plat.scheme (dataDir dst dir)) (RangeState.start m) [] (.ok (m1, types)) → order.Perm types →
    rewritePython env.digest plat order m1 = some (.ok m2) → ∀ n ∈ (removeRecords dst dir m2).keys, S n

/-- the steps of `installToVFS`, with what holds in between -/
theorem spreadRun_inv {env : Env} {plat : Platform} (hs : RelScheme plat.scheme) {maxTime : Int} {dst dir : Str} {m m' : Map Ref} (hm : ZGood m)
    (h : SpreadRun env plat maxTime dst dir m (.ok m')) :
    ∃ m1 types m2 outs, RangeRun (spreadBody plat.scheme (dataDir dst dir)) (RangeState.start m) [] (.ok (m1, types)) ∧
      ZGood m1 ∧ PGood m2 ∧ (∃ order : Map Str, order.Perm types ∧ (order.map (·.1)).Nodup ∧ rewritePython env.digest plat order m1 = some (.ok m2)) ∧
      (∃ srcs : Map Ref, srcs.Perm ((removeRecords dst dir m2).filter isPython) ∧
        env.compile maxTime [plat.scheme.pureLib, plat.scheme.platLib] (srcs.map (·.2)) = .ok outs) ∧
      m' = outs.foldl (fun m r => m.set r.fullName r) (removeRecords dst dir m2) := by
  cases h with
  | @done vfs1 vfs2 srcs types order outs h1 h2 h3 h4 h5 =>
    obtain ⟨g1, g2⟩ := spread_good hs hm h1 rfl
    have hnd := nodup_perm g2 h2
    exact ⟨vfs1, types, vfs2, outs, h1, g1, rewrite_good hnd g1.toP h3, ⟨order, h2, hnd, h3⟩, ⟨srcs, h4, h5⟩, rfl⟩

theorem rootDir_mem (plat : Platform) (get : Str → Str) : ∃ kind, (kind, rootDir plat get) ∈ Spec.schemeDirs plat.scheme := by
  unfold rootDir Spec.schemeDirs
  split
  · exact ⟨_, List.mem_cons_self ..⟩
  · exact ⟨_, List.mem_cons_of_mem _ (List.mem_cons_self ..)⟩

theorem vfsRun_good {env : Env} (hc : Spec.TidyCompiler env) {plat : Platform} (hs : RelScheme plat.scheme) {minTime : Option Int} {maxTime : Int}
    {zip : List ZFile} {m : Map Ref} {dir : Str} (h : VfsRun env plat minTime maxTime zip (.ok (m, dir))) : Good m := by
  cases h with
  | @done dir get vfs h1 h2 h3 =>
    obtain ⟨kind, hk⟩ := rootDir_mem plat get
    obtain ⟨hd, hr⟩ := hs kind _ hk
    obtain ⟨m1, types, m2, outs, _, g1, g2, _, ⟨srcs, hsrcs, hcomp⟩, rfl⟩ := spreadRun_inv hs (unpack_good hd hr minTime zip) h3
    exact addOuts_good (remove_good g2).toGood (hc _ _ _ _ (sources_of (remove_good g2) hsrcs) hcomp)

/-! ### the layer -/

theorem mapM_chown {plat : Platform} {l : Map Ref} {refs : List FileRef} (h : l.mapM (fun e => chown plat e.2) = some refs) :
    refs.map (·.name) = l.map (·.2.fullName) ∧ (∀ f ∈ refs, ∃ e ∈ l, chown plat e.2 = some f) ∧ ∀ e ∈ l, ∃ f ∈ refs, chown plat e.2 = some f := by
  induction l generalizing refs with
  | nil =>
    simp only [List.mapM_nil] at h
    cases h
    exact ⟨rfl, fun f h => (nomatch h), fun f h => (nomatch h)⟩
  | cons e l ih =>
    rw [List.mapM_cons] at h
    cases he : chown plat e.2 with
    | none => rw [he] at h; cases h
    | some f =>
      rw [he] at h
      cases hl : l.mapM (fun e => chown plat e.2) with
      | none => rw [hl] at h; cases h
      | some fs =>
        rw [hl] at h
        cases h
        obtain ⟨h1, h2, h3⟩ := ih hl
        have hf : f.name = e.2.fullName := by
          unfold chown at he
          cases hi : e.2.info with
          | none => rw [hi] at he; cases he
          | some i => rw [hi] at he; cases he; rfl
        refine ⟨by rw [List.map_cons, List.map_cons, h1, hf], ?_, ?_⟩
        · intro g hg
          rcases List.mem_cons.mp hg with rfl | hg
          · exact ⟨e, List.mem_cons_self .., he⟩
          · obtain ⟨x, hx, hx2⟩ := h2 g hg
            exact ⟨x, List.mem_cons_of_mem _ hx, hx2⟩
        · intro x hx
          rcases List.mem_cons.mp hx with rfl | hx
          · exact ⟨f, List.mem_cons_self .., he⟩
          · obtain ⟨g, hg, hg2⟩ := h3 x hx
            exact ⟨g, List.mem_cons_of_mem _ hg, hg2⟩

/-- the header in the layer for a file of the map -/
def Spec.layerHdr (plat : Platform) (maxTime : Int) (name : Str) (h : Hdr) : Hdr :=
  { h with name := name, uid := plat.uid, gid := plat.gid, uname := plat.uname, gname := plat.gname,
           modTime := min h.modTime maxTime, accessTime := min h.accessTime maxTime, changeTime := min h.changeTime maxTime }

theorem Good.names {m : Map Ref} (h : Good m) : m.map (·.2.fullName) = m.keys := by
  unfold Map.keys
  refine List.map_congr_left ?_
  rintro ⟨k, r⟩ hm
  exact (h.file k r (Map.get?_of_mem h.wf hm)).2

theorem Good.perm {m m' : Map Ref} (h : Good m) (hp : m'.Perm m) : Good m' := by
  have hw : m'.WF := (hp.map (fun e : Str × Ref => e.1)).nodup_iff.mpr h.wf
  refine ⟨hw, ?_⟩
  intro k r hr
  exact h.file k r (Map.get?_of_mem h.wf (hp.mem_iff.mp (Map.mem_of_get? hr)))

/-- the entries of the layer are the files of the map -/
theorem layer_entries {w : World} (hsort : SortSlice w.sortSlice) {plat : Platform} {maxTime : Int} {m order : Map Ref} (hm : Good m)
    (hp : order.Perm m) {layer : List (Hdr × Bytes)} (h : layerOf w plat maxTime order = .ok layer) :
    (layer.map (·.1.name)).Perm m.keys ∧
    ∀ e ∈ layer, ∃ r i, m.get? e.1.name = some r ∧ r.info = some i ∧ e.1 = Spec.layerHdr plat maxTime e.1.name i ∧
      (i.typeflag = typeReg → r.content = some e.2 ∧ (e.2.length : Int) = i.size) ∧ (i.typeflag ≠ typeReg → e.2 = []) := by
  unfold layerOf at h
  cases hr : order.mapM (fun e => chown plat e.2) with
  | none => rw [hr] at h; cases h
  | some refs =>
    rw [hr] at h
    simp only at h
    obtain ⟨h1, h2, _⟩ := mapM_chown hr
    constructor
    · refine (C54_entries_are_the_files hsort h).trans ?_
      rw [h1, (hm.perm hp).names]
      exact hp.map _
    · intro e he
      obtain ⟨f, hf, i, hi, hE, hreg, hno⟩ := C55_clamped_refs_partial hsort h e he
      obtain ⟨x, hx, hch⟩ := h2 f hf
      have hg := (hm.perm hp).file x.1 x.2 (Map.get?_of_mem (hm.perm hp).wf hx)
      unfold chown at hch
      cases hxi : x.2.info with
      | none => rw [hxi] at hch; cases hch
      | some j =>
        rw [hxi] at hch
        simp only [Option.some.injEq] at hch
        subst hch
        simp only [Option.some.injEq] at hi
        subst hi
        have hname : e.1.name = x.1 := by rw [hE]; exact hg.2
        refine ⟨x.2, j, ?_, hxi, ?_, hreg, hno⟩
        · rw [hname]
          exact Map.get?_of_mem hm.wf (hp.mem_iff.mp hx)
        · rw [hname]
          rw [hE]
          unfold Spec.layerHdr
          simp only [hg.2]

end Bdist
