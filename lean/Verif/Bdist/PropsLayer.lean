import Verif.Bdist.Good
import Verif.Python.PropsPlatformInit
/-!
C46: parent directories in the layer.  C43: where files are installed.
-/
namespace Bdist
open Go Fsutil Python

/-- every directory of the scheme is given as "/" and a name that does not begin with another "/" -/
def Spec.ProperScheme (s : Scheme) : Prop := ∀ kind dir, (kind, dir) ∈ Spec.schemeDirs s → ∃ c p, dir = '/' :: c :: p ∧ c ≠ '/'

/-- `d` without the "/" in front -/
theorem trim_slash (c : Char) (p : Str) : trimPrefix ('/' :: c :: p) ['/'] = c :: p := by
  unfold trimPrefix
  rw [if_pos (by rw [Python.hasPrefix_iff]; exact ⟨c :: p, rfl⟩)]; rfl

theorem init_scheme {p q : Platform} (h : p.init = .ok q) : q.scheme = p.scheme := by
  rw [((C86_init p q).mp h).2.2]

/-- the directories as they are used -/
theorem sanitize_scheme {plat p : Platform} (h : sanitizePlatform plat = .ok p) (kind dir : Str) :
    (kind, dir) ∈ Spec.schemeDirs p.scheme ↔ ∃ d, (kind, d) ∈ Spec.schemeDirs plat.scheme ∧ dir = trimPrefix d ['/'] := by
  unfold sanitizePlatform at h
  cases hi : plat.init with
  | error e => rw [hi] at h; cases h
  | ok q =>
    rw [hi] at h
    cases h
    unfold Spec.schemeDirs
    rw [← init_scheme hi]
    simp only [List.mem_cons, Prod.mk.injEq, List.not_mem_nil, or_false]
    constructor
    · rintro (⟨rfl, rfl⟩ | ⟨rfl, rfl⟩ | ⟨rfl, rfl⟩ | ⟨rfl, rfl⟩ | ⟨rfl, rfl⟩)
      · exact ⟨_, Or.inl ⟨rfl, rfl⟩, rfl⟩
      · exact ⟨_, Or.inr (Or.inl ⟨rfl, rfl⟩), rfl⟩
      · exact ⟨_, Or.inr (Or.inr (Or.inl ⟨rfl, rfl⟩)), rfl⟩
      · exact ⟨_, Or.inr (Or.inr (Or.inr (Or.inl ⟨rfl, rfl⟩))), rfl⟩
      · exact ⟨_, Or.inr (Or.inr (Or.inr (Or.inr ⟨rfl, rfl⟩))), rfl⟩
    · rintro ⟨d, (⟨rfl, rfl⟩ | ⟨rfl, rfl⟩ | ⟨rfl, rfl⟩ | ⟨rfl, rfl⟩ | ⟨rfl, rfl⟩), rfl⟩
      · exact Or.inl ⟨rfl, rfl⟩
      · exact Or.inr (Or.inl ⟨rfl, rfl⟩)
      · exact Or.inr (Or.inr (Or.inl ⟨rfl, rfl⟩))
      · exact Or.inr (Or.inr (Or.inr (Or.inl ⟨rfl, rfl⟩)))
      · exact Or.inr (Or.inr (Or.inr (Or.inr ⟨rfl, rfl⟩)))

theorem sanitize_rel {plat p : Platform} (hp : Spec.ProperScheme plat.scheme) (h : sanitizePlatform plat = .ok p) : RelScheme p.scheme := by
  intro kind dir hm
  obtain ⟨d, hd, rfl⟩ := (sanitize_scheme h kind dir).mp hm
  obtain ⟨c, q, rfl, hc⟩ := hp kind d hd
  rw [trim_slash]
  refine ⟨by simp, ?_⟩
  simpa [isRooted] using hc

/-- a hook that keeps the files under their own, clean and relative names -/
def Spec.TidyHook (hook : Hook) : Prop := ∀ t m d m', Good m → hook t m d = .ok m' → Good m'

/-- `InstallWheel` brings the file `n` about, in some run, before parent directories are added, and not as a directory -/
def Spec.Supplied (w : World) (plat : Platform) (minTime maxTime : Option Int) (hook : Hook) (zip : List ZFile) (n : Str) : Prop :=
  ∃ p vfs dir vfs1 r, sanitizePlatform plat = .ok p ∧
    VfsRun w.toEnv p minTime (maxTime.getD (defaultMaxTime w.now zip)) zip (.ok (vfs, dir)) ∧
    hook (maxTime.getD (defaultMaxTime w.now zip)) vfs dir = .ok vfs1 ∧ vfs1.get? n = some r ∧
    ∀ i, r.info = some i → i.typeflag ≠ typeDir

/-- all that a successful run goes through, for a hook that leaves proper names behind for this wheel -/
theorem install_inv_hook {w : World} (hsort : SortSlice w.sortSlice) (hc : Spec.TidyCompiler w.toEnv) {plat : Platform}
    (hp : Spec.ProperScheme plat.scheme) {minTime maxTime : Option Int} {hook : Hook} {zip : List ZFile}
    (hh : ∀ p t vfs dir a, sanitizePlatform plat = .ok p → VfsRun w.toEnv p minTime t zip (.ok (vfs, dir)) → Good vfs →
      hook t vfs dir = .ok a → Good a)
    {layer : List (Hdr × Bytes)} (h : InstallRun w plat minTime maxTime hook zip (.ok layer)) :
    ∃ p vfs dir vfs1 vfs2, sanitizePlatform plat = .ok p ∧ integrityCheck w.digest w.csv zip = .ok () ∧
      VfsRun w.toEnv p minTime (maxTime.getD (defaultMaxTime w.now zip)) zip (.ok (vfs, dir)) ∧
      hook (maxTime.getD (defaultMaxTime w.now zip)) vfs dir = .ok vfs1 ∧ Good vfs ∧ Good vfs1 ∧ Good vfs2 ∧
      (∀ n ref, vfs1.get? n = some ref → vfs2.get? n = some ref) ∧
      (∀ n, vfs1.get? n = none → (∃ k ∈ vfs1.keys, Spec.Parent n k) →
        vfs2.get? n = some (parentRef (maxTime.getD (defaultMaxTime w.now zip)) n)) ∧
      (∀ n, vfs1.get? n = none → (¬ ∃ k ∈ vfs1.keys, Spec.Parent n k) → vfs2.get? n = none) ∧
      (layer.map (·.1.name)).Perm vfs2.keys ∧
      ∀ e ∈ layer, ∃ r i, vfs2.get? e.1.name = some r ∧ r.info = some i ∧
        e.1 = Spec.layerHdr p (maxTime.getD (defaultMaxTime w.now zip)) e.1.name i ∧
        (i.typeflag = typeReg → r.content = some e.2 ∧ (e.2.length : Int) = i.size) ∧ (i.typeflag ≠ typeReg → e.2 = []) := by
  cases h with
  | @run p r hsan hint h =>
  cases h with
  | @done vfs vfs1 vfs2 order dir layer hv hk hr ho hl =>
  have hs := sanitize_rel hp hsan
  have g0 : Good vfs := vfsRun_good hc hs hv
  have g1 : Good vfs1 := hh _ _ _ _ _ hsan hv g0 hk
  obtain ⟨m', he, kept, made, others⟩ := C46_loop _ vfs1 (fun k hkk => by
    rw [Map.mem_keys_iff] at hkk
    cases hg : vfs1.get? k with
    | none => exact absurd hg hkk
    | some r => exact (g1.file k r hg).1) _ hr
  cases he
  have hparent : ∀ n, (∃ k ∈ vfs1.keys, Spec.Parent n k) → Spec.Rel n := by
    rintro n ⟨k, hk, hpk⟩
    rw [Map.mem_keys_iff] at hk
    cases hg : vfs1.get? k with
    | none => exact absurd hg hk
    | some r => exact parent_rel hpk (g1.file k r hg).1
  have hwf : vfs2.WF :=
    RangeRun.inv (fun m _ => m.WF) (fun k m x ops x' _ hm _ => MapOp.foldl_wf hm ops) hr (RangeState.Pending.start vfs1) g1.wf vfs2 () rfl
  have g2 : Good vfs2 := by
    refine ⟨hwf, ?_⟩
    intro k r hr
    cases hg : vfs1.get? k with
    | some r1 =>
      rw [kept k r1 hg] at hr
      cases hr
      exact g1.file k r hg
    | none =>
      by_cases hex : ∃ j ∈ vfs1.keys, Spec.Parent k j
      · rw [made k hg hex] at hr
        cases hr
        exact ⟨hparent k hex, rfl⟩
      · rw [others k hg hex] at hr
        cases hr
  obtain ⟨hnames, hents⟩ := layer_entries hsort g2 ho hl
  exact ⟨p, vfs, dir, vfs1, vfs2, hsan, hint, hv, hk, g0, g1, g2, kept, made, others, hnames, hents⟩

/-- all that a successful run goes through -/
theorem install_inv {w : World} (hsort : SortSlice w.sortSlice) (hc : Spec.TidyCompiler w.toEnv) {plat : Platform}
    (hp : Spec.ProperScheme plat.scheme) {minTime maxTime : Option Int} {hook : Hook} (hh : Spec.TidyHook hook) {zip : List ZFile}
    {layer : List (Hdr × Bytes)} (h : InstallRun w plat minTime maxTime hook zip (.ok layer)) :
    ∃ p vfs dir vfs1 vfs2, sanitizePlatform plat = .ok p ∧ integrityCheck w.digest w.csv zip = .ok () ∧
      VfsRun w.toEnv p minTime (maxTime.getD (defaultMaxTime w.now zip)) zip (.ok (vfs, dir)) ∧
      hook (maxTime.getD (defaultMaxTime w.now zip)) vfs dir = .ok vfs1 ∧ Good vfs ∧ Good vfs1 ∧ Good vfs2 ∧
      (∀ n ref, vfs1.get? n = some ref → vfs2.get? n = some ref) ∧
      (∀ n, vfs1.get? n = none → (∃ k ∈ vfs1.keys, Spec.Parent n k) →
        vfs2.get? n = some (parentRef (maxTime.getD (defaultMaxTime w.now zip)) n)) ∧
      (∀ n, vfs1.get? n = none → (¬ ∃ k ∈ vfs1.keys, Spec.Parent n k) → vfs2.get? n = none) ∧
      (layer.map (·.1.name)).Perm vfs2.keys ∧
      ∀ e ∈ layer, ∃ r i, vfs2.get? e.1.name = some r ∧ r.info = some i ∧
        e.1 = Spec.layerHdr p (maxTime.getD (defaultMaxTime w.now zip)) e.1.name i ∧
        (i.typeflag = typeReg → r.content = some e.2 ∧ (e.2.length : Int) = i.size) ∧ (i.typeflag ≠ typeReg → e.2 = []) :=
  install_inv_hook hsort hc hp (fun _ _ _ _ _ _ _ g hk => hh _ _ _ _ g hk) h

/-- **C46** for the layers that `InstallWheel` returns, whatever the order of its loops: for every entry and every proper
parent of its name, the layer has an entry with that name, which is a directory unless the wheel, the compiler or the hook
supplied something else there.  For directories of the scheme that are not "/" and do not begin with "//". -/
theorem C46_parents_partial (w : World) (hsort : SortSlice w.sortSlice) (hc : Spec.TidyCompiler w.toEnv) (plat : Platform)
    (hp : Spec.ProperScheme plat.scheme) (minTime maxTime : Option Int) (hook : Hook) (hh : Spec.TidyHook hook) (zip : List ZFile)
    (layer : List (Hdr × Bytes)) (h : InstallRun w plat minTime maxTime hook zip (.ok layer)) :
    ∀ e ∈ layer, ∀ n, Spec.Parent n e.1.name →
      ∃ e' ∈ layer, e'.1.name = n ∧ (e'.1.typeflag = typeDir ∨ Spec.Supplied w plat minTime maxTime hook zip n) := by
  obtain ⟨p, vfs, dir, vfs1, vfs2, hsan, _, hv, hk, _, g1, g2, kept, made, others, hnames, hents⟩ := install_inv hsort hc hp hh h
  have hin : ∀ k, k ∈ vfs2.keys → ∃ e ∈ layer, e.1.name = k := by
    intro k hk
    obtain ⟨e, he, hn⟩ := List.mem_map.mp (hnames.mem_iff.mpr hk)
    exact ⟨e, he, hn⟩
  intro e he n hn
  -- the entry is a file of `vfs1`, or a parent of one
  obtain ⟨r, i, hg, _⟩ := hents e he
  have hup : ∃ k ∈ vfs1.keys, Spec.Parent n k := by
    cases hg1 : vfs1.get? e.1.name with
    | some r1 => exact ⟨e.1.name, by rw [Map.mem_keys_iff, hg1]; simp, hn⟩
    | none =>
      by_cases hex : ∃ j ∈ vfs1.keys, Spec.Parent e.1.name j
      · obtain ⟨j, hj, hpj⟩ := hex
        exact ⟨j, hj, parent_trans hn hpj⟩
      · rw [others _ hg1 hex] at hg; cases hg
  cases hgn : vfs1.get? n with
  | none =>
    have hm := made n hgn hup
    obtain ⟨e', he', hn'⟩ := hin n (by rw [Map.mem_keys_iff, hm]; simp)
    refine ⟨e', he', hn', Or.inl ?_⟩
    obtain ⟨r', i', hg', hi', hE, _⟩ := hents e' he'
    rw [hn', hm] at hg'
    cases hg'
    cases hi'
    rw [hE]; rfl
  | some rn =>
    obtain ⟨e', he', hn'⟩ := hin n (by rw [Map.mem_keys_iff, kept n rn hgn]; simp)
    obtain ⟨r', i', hg', hi', hE, _⟩ := hents e' he'
    rw [hn', kept n rn hgn] at hg'
    cases hg'
    by_cases hd : i'.typeflag = typeDir
    · refine ⟨e', he', hn', Or.inl ?_⟩
      rw [hE]; exact hd
    · refine ⟨e', he', hn', Or.inr ⟨p, vfs, dir, vfs1, rn, hsan, hv, hk, hgn, ?_⟩⟩
      intro i hi
      rw [hi'] at hi
      cases hi
      exact hd

end Bdist
