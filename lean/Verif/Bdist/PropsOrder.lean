import Verif.Bdist.Orders
import Verif.Bdist.PropsBad
/-!
C44: the result does not depend on the order in which maps are visited.  C45: where files are installed.
C87: an installation ends.  C88: wheels of a later format are refused.
-/
namespace Bdist
open Go Fsutil Python

namespace Spec

/-- `f` is the last file in the archive that is unpacked as `k` in the directory `dst` -/
def LastAt (dst : Str) (zip : List ZFile) (k : Str) (f : ZFile) : Prop :=
  ∃ pre post, zip = pre ++ f :: post ∧ pathJoin [dst, f.hdr.name] = k ∧ ∀ g ∈ post, pathJoin [dst, g.hdr.name] ≠ k

/-- files of the data directory `d` do not get into each other's way: none is moved into the data directory again, and no
two that are unpacked at different names are moved to the same name -/
structure NoClash (s : Scheme) (dst d : Str) (zip : List ZFile) : Prop where
  outside : ∀ f ∈ zip, ∀ n kind, Moves s d (pathJoin [dst, f.hdr.name]) n kind → ¬ In d n
  distinct : ∀ f ∈ zip, ∀ g ∈ zip, ∀ n kind kind', Moves s d (pathJoin [dst, f.hdr.name]) n kind →
    Moves s d (pathJoin [dst, g.hdr.name]) n kind' → pathJoin [dst, f.hdr.name] = pathJoin [dst, g.hdr.name]

/-- the same for a wheel and a platform as given to `InstallWheel` -/
def WheelNoClash (env : Env) (plat : Platform) (zip : List ZFile) : Prop :=
  ∀ p dir get, sanitizePlatform plat = .ok p → parseWheel env zip = .ok (dir, get) →
    NoClash p.scheme (rootDir p get) (dataDir (rootDir p get) dir) zip

/-- the file of the archive, as it is installed under the name `n` if it is not a script -/
def copy (minTime : Option Int) (n : Str) (f : ZFile) : Ref := .zip (createHdr minTime n f.hdr) f.content none

end Spec

theorem unpack_from (mt : Option Int) (dst : Str) (zip : List ZFile) (m : Map Ref) (k : Str) (r : Ref) :
    (zip.foldl (fun vfs f => vfs.set (pathJoin [dst, f.hdr.name]) (.zip (createHdr mt (pathJoin [dst, f.hdr.name]) f.hdr) f.content none)) m).get? k
        = some r ↔
      (∃ f, Spec.LastAt dst zip k f ∧ r = Spec.copy mt k f) ∨ ((∀ f ∈ zip, pathJoin [dst, f.hdr.name] ≠ k) ∧ m.get? k = some r) := by
  induction zip generalizing m with
  | nil =>
    constructor
    · intro h; exact Or.inr ⟨fun f hf => (nomatch hf), h⟩
    · rintro (⟨f, ⟨pre, post, h, _⟩, _⟩ | ⟨_, h⟩)
      · simp at h
      · exact h
  | cons g zip ih =>
    rw [List.foldl_cons, ih]
    constructor
    · rintro (⟨f, ⟨pre, post, h1, h2, h3⟩, h4⟩ | ⟨h1, h2⟩)
      · exact Or.inl ⟨f, ⟨g :: pre, post, by rw [h1]; rfl, h2, h3⟩, h4⟩
      · rw [Map.get?_set] at h2
        split at h2
        · rename_i hk
          cases h2
          exact Or.inl ⟨g, ⟨[], zip, rfl, hk.symm, h1⟩, by rw [hk]; rfl⟩
        · rename_i hk
          refine Or.inr ⟨?_, h2⟩
          intro f hf
          rcases List.mem_cons.mp hf with rfl | hf
          · exact fun e => hk e.symm
          · exact h1 f hf
    · rintro (⟨f, ⟨pre, post, h1, h2, h3⟩, h4⟩ | ⟨h1, h2⟩)
      · cases pre with
        | nil =>
          cases h1
          refine Or.inr ⟨h3, ?_⟩
          rw [Map.get?_set, if_pos h2.symm, h4, ← h2]; rfl
        | cons x pre =>
          cases h1
          exact Or.inl ⟨f, ⟨pre, post, rfl, h2, h3⟩, h4⟩
      · refine Or.inr ⟨fun f hf => h1 f (List.mem_cons_of_mem _ hf), ?_⟩
        rw [Map.get?_set, if_neg (fun e : k = pathJoin [dst, g.hdr.name] => h1 g (List.mem_cons_self ..) e.symm)]
        exact h2

/-- what is unpacked: the last file of each name -/
theorem unpack_get (mt : Option Int) (dst : Str) (zip : List ZFile) (k : Str) (r : Ref) :
    (unpack mt dst zip).get? k = some r ↔ ∃ f, Spec.LastAt dst zip k f ∧ r = Spec.copy mt k f := by
  unfold unpack
  rw [unpack_from]
  constructor
  · rintro (h | ⟨_, h⟩)
    · exact h
    · cases h
  · exact Or.inl

theorem lastAt_mem {dst : Str} {zip : List ZFile} {k : Str} {f : ZFile} (h : Spec.LastAt dst zip k f) :
    f ∈ zip ∧ pathJoin [dst, f.hdr.name] = k := by
  obtain ⟨pre, post, rfl, h2, _⟩ := h
  exact ⟨by simp, h2⟩

theorem lastAt_exists (dst : Str) {zip : List ZFile} {f : ZFile} (h : f ∈ zip) : ∃ g, Spec.LastAt dst zip (pathJoin [dst, f.hdr.name]) g := by
  induction zip with
  | nil => cases h
  | cons g zip ih =>
    by_cases hz : ∃ x ∈ zip, pathJoin [dst, x.hdr.name] = pathJoin [dst, f.hdr.name]
    · have : ∀ (l : List ZFile) (k : Str), (∃ x ∈ l, pathJoin [dst, x.hdr.name] = k) → ∃ y, Spec.LastAt dst l k y := by
        intro l k
        induction l with
        | nil => rintro ⟨x, hx, _⟩; cases hx
        | cons a l ihl =>
          rintro ⟨x, hx, hk⟩
          by_cases hl : ∃ x ∈ l, pathJoin [dst, x.hdr.name] = k
          · obtain ⟨y, pre, post, rfl, h2, h3⟩ := ihl hl
            exact ⟨y, a :: pre, post, rfl, h2, h3⟩
          · rcases List.mem_cons.mp hx with rfl | hx
            · exact ⟨x, [], l, rfl, hk, fun z hz e => hl ⟨z, hz, e⟩⟩
            · exact absurd ⟨x, hx, hk⟩ hl
      obtain ⟨y, pre, post, e, h2, h3⟩ := this zip _ hz
      exact ⟨y, g :: pre, post, by rw [e]; rfl, h2, h3⟩
    · rcases List.mem_cons.mp h with rfl | h
      · exact ⟨f, [], zip, rfl, rfl, fun z hz' e => hz ⟨z, hz', e⟩⟩
      · exact absurd ⟨f, h, rfl⟩ hz

theorem unpack_keys (mt : Option Int) (dst : Str) (zip : List ZFile) (k : Str) :
    k ∈ (unpack mt dst zip).keys ↔ ∃ f ∈ zip, pathJoin [dst, f.hdr.name] = k := by
  constructor
  · intro h
    obtain ⟨r, hr⟩ := get_some h
    obtain ⟨f, hf, _⟩ := (unpack_get mt dst zip k r).mp hr
    exact ⟨f, lastAt_mem hf⟩
  · rintro ⟨f, hf, rfl⟩
    obtain ⟨g, hg⟩ := lastAt_exists dst hf
    exact some_key ((unpack_get mt dst zip _ _).mpr ⟨g, hg, rfl⟩)

theorem noClash_apart {s : Scheme} {dst d : Str} {zip : List ZFile} (h : Spec.NoClash s dst d zip) (mt : Option Int) :
    Spec.Apart s d (unpack mt dst zip) := by
  constructor
  · intro k hk n kind hm
    obtain ⟨f, hf, rfl⟩ := (unpack_keys mt dst zip k).mp hk
    exact h.outside f hf n kind hm
  · intro k hk k' hk' n kind kind' hm hm'
    obtain ⟨f, hf, rfl⟩ := (unpack_keys mt dst zip k).mp hk
    obtain ⟨g, hg, rfl⟩ := (unpack_keys mt dst zip k').mp hk'
    exact h.distinct f hf g hg n kind kind' hm hm'

/-- `installToVFS` always fails, or always gives the same files -/
theorem vfsRun_det {S : Str → Prop} {env : Env} {plat : Platform} (hs : RelScheme plat.scheme) (hc : Spec.OrderlyOn S env) {minTime : Option Int}
    {maxTime : Int} {zip : List ZFile}
    (hS : ∀ dir get, parseWheel env zip = .ok (dir, get) → BeforeCompile S env plat (rootDir plat get) dir (unpack minTime (rootDir plat get) zip))
    (hn : ∀ dir get, parseWheel env zip = .ok (dir, get) → Spec.NoClash plat.scheme (rootDir plat get) (dataDir (rootDir plat get) dir) zip)
    {r r' : Outcome (Map Ref × Str)} (h : VfsRun env plat minTime maxTime zip r) (h' : VfsRun env plat minTime maxTime zip r') :
    (r = .error ∧ r' = .error) ∨ ∃ a a' d, r = .ok (a, d) ∧ r' = .ok (a', d) ∧ Map.Same a a' := by
  have first : ∀ {r}, VfsRun env plat minTime maxTime zip r →
      (((parseWheel env zip = .error ()) ∨ ∃ dir get, parseWheel env zip = .ok (dir, get) ∧ versionOK (get "Wheel-Version".toList) = false) ∧ r = .error) ∨
      ∃ dir get x, parseWheel env zip = .ok (dir, get) ∧ versionOK (get "Wheel-Version".toList) = true ∧
        SpreadRun env plat maxTime (rootDir plat get) dir (unpack minTime (rootDir plat get) zip) x ∧
        ((x = .error ∧ r = .error) ∨ (x = .panic ∧ r = .panic) ∨ ∃ a, x = .ok a ∧ r = .ok (a, pathJoin [rootDir plat get, dir])) := by
    intro r h
    cases h with
    | noWheel h => exact Or.inl ⟨Or.inl h, rfl⟩
    | badVersion h1 h2 => exact Or.inl ⟨Or.inr ⟨_, _, h1, h2⟩, rfl⟩
    | fails h1 h2 h3 => exact Or.inr ⟨_, _, _, h1, h2, h3, Or.inl ⟨rfl, rfl⟩⟩
    | panics h1 h2 h3 => exact Or.inr ⟨_, _, _, h1, h2, h3, Or.inr (Or.inl ⟨rfl, rfl⟩)⟩
    | done h1 h2 h3 => exact Or.inr ⟨_, _, _, h1, h2, h3, Or.inr (Or.inr ⟨_, rfl, rfl⟩)⟩
  rcases first h with ⟨c, e⟩ | ⟨dir, get, x, h1, h2, h3, h4⟩
  · rcases first h' with ⟨_, e'⟩ | ⟨dir', get', x', h1', h2', _⟩
    · exact Or.inl ⟨e, e'⟩
    · rcases c with c | ⟨_, _, c, c2⟩
      · rw [c] at h1'; cases h1'
      · rw [c] at h1'; cases h1'; rw [c2] at h2'; cases h2'
  · rcases first h' with ⟨c, e'⟩ | ⟨dir', get', x', h1', h2', h3', h4'⟩
    · rcases c with c | ⟨_, _, c, c2⟩
      · rw [c] at h1; cases h1
      · rw [c] at h1; cases h1; rw [c2] at h2; cases h2
    · rw [h1] at h1'
      cases h1'
      obtain ⟨kind, hk⟩ := rootDir_mem plat get
      obtain ⟨hd, hr⟩ := hs kind _ hk
      rcases spreadRun_det hs hc (unpack_good hd hr minTime zip) (hS dir get h1) (noClash_apart (hn dir get h1) minTime) h3 h3' with ⟨rfl, rfl⟩ | ⟨a, a', rfl, rfl, hsame⟩
      · rcases h4 with ⟨_, e⟩ | ⟨q, _⟩ | ⟨_, q, _⟩
        · rcases h4' with ⟨_, e'⟩ | ⟨q, _⟩ | ⟨_, q, _⟩
          · exact Or.inl ⟨e, e'⟩
          · cases q
          · cases q
        · cases q
        · cases q
      · rcases h4 with ⟨q, _⟩ | ⟨q, _⟩ | ⟨_, q, e⟩
        · cases q
        · cases q
        rcases h4' with ⟨q', _⟩ | ⟨q', _⟩ | ⟨_, q', e'⟩
        · cases q'
        · cases q'
        cases q; cases q'
        exact Or.inr ⟨_, _, _, e, e', hsame⟩

/-- how an installation ends with one of two hooks that do the same to the files of this wheel: any two runs end alike, and with a
layer or an error -/
theorem install_det_hooks {S : Str → Prop} {w : World} (hsort : SortSlice w.sortSlice) (hc : Spec.OrderlyOn S w.toEnv) {plat : Platform}
    (hp : Spec.ProperScheme plat.scheme) {minTime maxTime : Option Int} {hook hook' : Hook} {zip : List ZFile}
    (hh : ∀ p t vfs vfs' dir, sanitizePlatform plat = .ok p → VfsRun w.toEnv p minTime t zip (.ok (vfs, dir)) →
      VfsRun w.toEnv p minTime t zip (.ok (vfs', dir)) → Map.Same vfs vfs' →
      (hook t vfs dir = .error () ∧ hook' t vfs' dir = .error ()) ∨
      ∃ a a', hook t vfs dir = .ok a ∧ hook' t vfs' dir = .ok a' ∧ Map.Same a a' ∧ Good a ∧ Good a')
    (hS : ∀ p dir get, sanitizePlatform plat = .ok p → parseWheel w.toEnv zip = .ok (dir, get) →
      BeforeCompile S w.toEnv p (rootDir p get) dir (unpack minTime (rootDir p get) zip))
    (hn : Spec.WheelNoClash w.toEnv plat zip) {r r' : Outcome (List (Hdr × Bytes))}
    (h : InstallRun w plat minTime maxTime hook zip r) (h' : InstallRun w plat minTime maxTime hook' zip r') :
    r = r' ∧ (r = .error ∨ ∃ layer, r = .ok layer) := by
  cases h with
  | badPlatform e =>
    cases h' with
    | badPlatform _ => exact ⟨rfl, Or.inl rfl⟩
    | badWheel e' _ => rw [e] at e'; cases e'
    | run e' _ _ => rw [e] at e'; cases e'
  | badWheel e e2 =>
    cases h' with
    | badPlatform e' => rw [e] at e'; cases e'
    | badWheel e' _ => exact ⟨rfl, Or.inl rfl⟩
    | run _ e' _ => rw [e2] at e'; cases e'
  | @run p _ hsan hint h =>
  cases h' with
  | badPlatform e' => rw [hsan] at e'; cases e'
  | badWheel _ e' => rw [hint] at e'; cases e'
  | @run p' _ hsan' _ h' =>
  rw [hsan] at hsan'
  cases hsan'
  have hs := sanitize_rel hp hsan
  generalize maxTime.getD (defaultMaxTime w.now zip) = t at h h'
  have hv : ∀ {x x'}, VfsRun w.toEnv p minTime t zip x → VfsRun w.toEnv p minTime t zip x' →
      (x = .error ∧ x' = .error) ∨ ∃ a a' d, x = .ok (a, d) ∧ x' = .ok (a', d) ∧ Map.Same a a' :=
    fun h h' => vfsRun_det hs hc (fun dir get hw => hS p dir get hsan hw) (fun dir get hw => hn p dir get hsan hw) h h'
  have first : ∀ {hook : Hook} {r}, InstallRunAt w p minTime t hook zip r →
      (VfsRun w.toEnv p minTime t zip .error ∧ r = .error) ∨ VfsRun w.toEnv p minTime t zip .panic ∨
      ∃ vfs dir, VfsRun w.toEnv p minTime t zip (.ok (vfs, dir)) ∧
        ((hook t vfs dir = .error () ∧ r = .error) ∨
         ∃ vfs1 x, hook t vfs dir = .ok vfs1 ∧ RangeRun (parentsBody t) (RangeState.start vfs1) () x ∧
          (x = .error () ∨ ∃ vfs2 order : Map Ref, x = .ok (vfs2, ()) ∧ order.Perm vfs2 ∧
            ((layerOf w p t order = .error () ∧ r = .error) ∨ ∃ layer, layerOf w p t order = .ok layer ∧ r = .ok layer))) := by
    intro hook r h
    cases h with
    | fails h => exact Or.inl ⟨h, rfl⟩
    | panics h => exact Or.inr (Or.inl h)
    | hookFails h1 h2 => exact Or.inr (Or.inr ⟨_, _, h1, Or.inl ⟨h2, rfl⟩⟩)
    | hangs h1 h2 h3 => exact Or.inr (Or.inr ⟨_, _, h1, Or.inr ⟨_, _, h2, h3, Or.inl rfl⟩⟩)
    | layerFails h1 h2 h3 h4 h5 => exact Or.inr (Or.inr ⟨_, _, h1, Or.inr ⟨_, _, h2, h3, Or.inr ⟨_, _, rfl, h4, Or.inl ⟨h5, rfl⟩⟩⟩⟩)
    | done h1 h2 h3 h4 h5 => exact Or.inr (Or.inr ⟨_, _, h1, Or.inr ⟨_, _, h2, h3, Or.inr ⟨_, _, rfl, h4, Or.inr ⟨_, h5, rfl⟩⟩⟩⟩)
  have nopanic : ¬ VfsRun w.toEnv p minTime t zip .panic := by
    intro h
    rcases hv h h with ⟨e, _⟩ | ⟨_, _, _, e, _⟩ <;> cases e
  rcases first h with ⟨h1, e⟩ | h1 | ⟨vfs, dir, h1, h2⟩
  · rcases first h' with ⟨_, e'⟩ | h1' | ⟨_, _, h1', _⟩
    · rw [e, e']; exact ⟨rfl, Or.inl rfl⟩
    · exact absurd h1' nopanic
    · rcases hv h1 h1' with ⟨_, e⟩ | ⟨_, _, _, e, _⟩ <;> cases e
  · exact absurd h1 nopanic
  rcases first h' with ⟨h1', _⟩ | h1' | ⟨vfs', dir', h1', h2'⟩
  · rcases hv h1 h1' with ⟨e, _⟩ | ⟨_, _, _, _, e, _⟩ <;> cases e
  · exact absurd h1' nopanic
  have hsame : Map.Same vfs vfs' ∧ dir = dir' := by
    rcases hv h1 h1' with ⟨e, _⟩ | ⟨_, _, _, e, e', hsm⟩
    · cases e
    · cases e; cases e'; exact ⟨hsm, rfl⟩
  obtain ⟨hsame, rfl⟩ := hsame
  rcases hh p t vfs vfs' dir hsan h1 h1' hsame with ⟨q, q'⟩ | ⟨a, a', q, q', hsm, ga, ga'⟩
  · rcases h2 with ⟨_, e⟩ | ⟨_, _, x, _⟩
    · rcases h2' with ⟨_, e'⟩ | ⟨_, _, x, _⟩
      · rw [e, e']; exact ⟨rfl, Or.inl rfl⟩
      · rw [q'] at x; cases x
    · rw [q] at x; cases x
  rcases h2 with ⟨x, _⟩ | ⟨_, y, x, hr, h3⟩
  · rw [q] at x; cases x
  rcases h2' with ⟨x', _⟩ | ⟨_, y', x', hr', h3'⟩
  · rw [q'] at x'; cases x'
  rw [q] at x; cases x
  rw [q'] at x'; cases x'
  obtain ⟨b, b', e, e', hb, gb, gb'⟩ := parents_det ga ga' hsm hr hr'
  subst e; subst e'
  rcases h3 with z | ⟨_, order, z, ho, h4⟩
  · cases z
  rcases h3' with z' | ⟨_, order', z', ho', h4'⟩
  · cases z'
  cases z; cases z'
  have hl := layerOf_perm hsort p t (gb.perm ho) (ho.trans ((Map.Same.perm gb.wf gb'.wf hb).trans ho'.symm))
  rcases h4 with ⟨l, e⟩ | ⟨layer, l, e⟩
  · rcases h4' with ⟨l', e'⟩ | ⟨_, l', e'⟩
    · rw [e, e']; exact ⟨rfl, Or.inl rfl⟩
    · rw [hl, l'] at l; cases l
  · rcases h4' with ⟨l', e'⟩ | ⟨_, l', e'⟩
    · rw [hl, l'] at l; cases l
    · rw [hl, l'] at l; cases l
      rw [e, e']; exact ⟨rfl, Or.inr ⟨_, rfl⟩⟩

/-- the same for one hook that does not depend on the order -/
theorem install_det {w : World} (hsort : SortSlice w.sortSlice) (hc : Spec.OrderlyCompiler w.toEnv) {plat : Platform}
    (hp : Spec.ProperScheme plat.scheme) {minTime maxTime : Option Int} {hook : Hook} (hh : Spec.OrderlyHook hook) {zip : List ZFile}
    (hn : Spec.WheelNoClash w.toEnv plat zip) {r r' : Outcome (List (Hdr × Bytes))}
    (h : InstallRun w plat minTime maxTime hook zip r) (h' : InstallRun w plat minTime maxTime hook zip r') :
    r = r' ∧ (r = .error ∨ ∃ layer, r = .ok layer) :=
  install_det_hooks hsort hc hp (fun _ t vfs vfs' dir hsan h1 h1' hsame => hh t vfs vfs' dir (vfsRun_good (orderly_tidy hc) (sanitize_rel hp hsan) h1)
    (vfsRun_good (orderly_tidy hc) (sanitize_rel hp hsan) h1') hsame) (fun _ _ _ _ _ _ _ _ _ _ _ _ _ _ => trivial) hn h h'

/-- **C44** for wheels whose data files do not get into each other's way (`C44_violated` shows what happens otherwise):
whatever the orders in which the maps are visited, `InstallWheel` returns the same layer, or always an error.  The compiler
and the hook must not depend on the order either. -/
theorem C44_order_partial (w : World) (hsort : SortSlice w.sortSlice) (hc : Spec.OrderlyCompiler w.toEnv) (plat : Platform)
    (hp : Spec.ProperScheme plat.scheme) (minTime maxTime : Option Int) (hook : Hook) (hh : Spec.OrderlyHook hook) (zip : List ZFile)
    (hn : Spec.WheelNoClash w.toEnv plat zip) (r r' : Outcome (List (Hdr × Bytes)))
    (h : InstallRun w plat minTime maxTime hook zip r) (h' : InstallRun w plat minTime maxTime hook zip r') : r = r' :=
  (install_det hsort hc hp hh hn h h').1

/-- **C87** under the same conditions: `InstallWheel` returns, a layer or an error; it neither panics nor runs for ever. -/
theorem C87_returns_partial (w : World) (hsort : SortSlice w.sortSlice) (hc : Spec.OrderlyCompiler w.toEnv) (plat : Platform)
    (hp : Spec.ProperScheme plat.scheme) (minTime maxTime : Option Int) (hook : Hook) (hh : Spec.OrderlyHook hook) (zip : List ZFile)
    (hn : Spec.WheelNoClash w.toEnv plat zip) :
    (∃ r, InstallRun w plat minTime maxTime hook zip r) ∧
    ∀ r, InstallRun w plat minTime maxTime hook zip r → r = .error ∨ ∃ layer, r = .ok layer :=
  ⟨⟨_, installOnce_run chooses_head w plat minTime maxTime hook zip⟩, fun _ h => (install_det hsort hc hp hh hn h h).2⟩

end Bdist
