import Verif.Bdist.Install
/-!
One of the runs of `InstallWheel`, computed: the loops over maps take the keys in an order given by `pick`, and do not
visit keys created on the way.  Only used to show that there are runs, and what some of them do.
-/
namespace Bdist
open Go Fsutil Python

/-- a rule choosing a member of a list -/
def Chooses (pick : List Str → Str) : Prop := ∀ l, l ≠ [] → pick l ∈ l

/-- a `range` over a map that visits the keys `pick` chooses and none that are created on the way -/
def rangePick {α σ : Type} (pick : List Str → Str) (body : Str → Map α → σ → Except Unit (List (MapOp α) × σ)) :
    Nat → RangeState α → σ → Except Unit (Map α × σ)
  | 0, s, x => .ok (s.m, x)
  | n + 1, s, x =>
    match s.must with
    | [] => .ok (s.m, x)
    | _ :: _ =>
      match body (pick s.must) s.m x with
      | .error _ => .error ()
      | .ok (ops, x') => rangePick pick body n (ops.foldl RangeState.apply (s.visit (pick s.must))) x'

theorem must_foldl {α : Type} (ops : List (MapOp α)) (s : RangeState α) : (ops.foldl RangeState.apply s).must.length ≤ s.must.length := by
  induction ops generalizing s with
  | nil => exact Nat.le_refl _
  | cons op ops ih =>
    rw [List.foldl_cons]
    refine Nat.le_trans (ih _) ?_
    cases op with
    | set k v => exact Nat.le_refl _
    | del k => exact List.length_filter_le ..

theorem must_visit {α : Type} (s : RangeState α) {k : Str} (h : k ∈ s.must) : (s.visit k).must.length < s.must.length := by
  unfold RangeState.visit
  refine List.length_filter_lt_length_iff_exists.mpr ⟨k, h, by simp⟩

theorem rangePick_run {α σ : Type} {pick : List Str → Str} (hp : Chooses pick) (body : Str → Map α → σ → Except Unit (List (MapOp α) × σ)) (n : Nat)
    (s : RangeState α) (x : σ) (hn : s.must.length ≤ n) : RangeRun body s x (rangePick pick body n s x) := by
  induction n generalizing s x with
  | zero => exact RangeRun.done (List.eq_nil_of_length_eq_zero (by omega))
  | succ n ih =>
    unfold rangePick
    cases hm : s.must with
    | nil => exact RangeRun.done hm
    | cons k ks =>
      simp only
      rw [← hm]
      have hk : pick s.must ∈ s.must := hp _ (by rw [hm]; simp)
      cases hb : body (pick s.must) s.m x with
      | error u => exact RangeRun.fail (Or.inl hk) hb
      | ok r =>
        obtain ⟨ops, x'⟩ := r
        refine RangeRun.step (Or.inl hk) hb (ih _ _ ?_)
        have := must_foldl ops (s.visit (pick s.must))
        have := must_visit s hk
        omega

/-- the whole loop -/
def rangeAll {α σ : Type} (pick : List Str → Str) (body : Str → Map α → σ → Except Unit (List (MapOp α) × σ)) (m : Map α) (x : σ) :
    Except Unit (Map α × σ) := rangePick pick body m.length (RangeState.start m) x

theorem rangeAll_run {α σ : Type} {pick : List Str → Str} (hp : Chooses pick) (body : Str → Map α → σ → Except Unit (List (MapOp α) × σ))
    (m : Map α) (x : σ) : RangeRun body (RangeState.start m) x (rangeAll pick body m x) :=
  rangePick_run hp body _ _ _ (by simp [RangeState.start, Map.keys])

/-- a run of `SpreadRun` (binary_distribution_format.go:223-364), computed -/
def spreadOnce (pick : List Str → Str) (env : Env) (plat : Platform) (maxTime : Int) (dst dir : Str) (vfs : Map Ref) : Outcome (Map Ref) :=
  match rangeAll pick (spreadBody plat.scheme (dataDir dst dir)) vfs [] with
  | .error _ => .error
  | .ok (vfs1, types) =>
    match rewritePython env.digest plat types vfs1 with
    | none => .panic
    | some (.error _) => .error
    | some (.ok vfs2) =>
      match env.compile maxTime [plat.scheme.pureLib, plat.scheme.platLib] (((removeRecords dst dir vfs2).filter isPython).map (·.2)) with
      | .error _ => .error
      | .ok outs => .ok (outs.foldl (fun m r => m.set r.fullName r) (removeRecords dst dir vfs2))

theorem spreadOnce_run {pick : List Str → Str} (hp : Chooses pick) (env : Env) (plat : Platform) (maxTime : Int) (dst dir : Str) (vfs : Map Ref) :
    SpreadRun env plat maxTime dst dir vfs (spreadOnce pick env plat maxTime dst dir vfs) := by
  have h1 := rangeAll_run hp (spreadBody plat.scheme (dataDir dst dir)) vfs []
  unfold spreadOnce
  cases hr : rangeAll pick (spreadBody plat.scheme (dataDir dst dir)) vfs [] with
  | error u => rw [hr] at h1; exact .spreadFails h1
  | ok x =>
    obtain ⟨vfs1, types⟩ := x
    rw [hr] at h1
    simp only
    cases hw : rewritePython env.digest plat types vfs1 with
    | none => exact .rewritePanics h1 (List.Perm.refl _) hw
    | some y =>
      cases y with
      | error u => exact .rewriteFails h1 (List.Perm.refl _) hw
      | ok vfs2 =>
        simp only
        cases hc : env.compile maxTime [plat.scheme.pureLib, plat.scheme.platLib] (((removeRecords dst dir vfs2).filter isPython).map (·.2)) with
        | error u => exact .compileFails h1 (List.Perm.refl _) hw (List.Perm.refl _) hc
        | ok outs => exact .done h1 (List.Perm.refl _) hw (List.Perm.refl _) hc

/-- a run of `VfsRun` (binary_distribution_format.go:223-364), computed -/
def vfsOnce (pick : List Str → Str) (env : Env) (plat : Platform) (minTime : Option Int) (maxTime : Int) (zip : List ZFile) :
    Outcome (Map Ref × Str) :=
  match parseWheel env zip with
  | .error _ => .error
  | .ok (dir, get) =>
    match versionOK (get "Wheel-Version".toList) with
    | false => .error
    | true =>
      match spreadOnce pick env plat maxTime (rootDir plat get) dir (unpack minTime (rootDir plat get) zip) with
      | .ok vfs => .ok (vfs, pathJoin [rootDir plat get, dir])
      | .error => .error
      | .panic => .panic
      | .hangs => .hangs

theorem spreadRun_ends {env : Env} {plat : Platform} {maxTime : Int} {dst dir : Str} {vfs : Map Ref}
    (h : SpreadRun env plat maxTime dst dir vfs .hangs) : False := by cases h

theorem vfsOnce_run {pick : List Str → Str} (hp : Chooses pick) (env : Env) (plat : Platform) (minTime : Option Int) (maxTime : Int)
    (zip : List ZFile) : VfsRun env plat minTime maxTime zip (vfsOnce pick env plat minTime maxTime zip) := by
  unfold vfsOnce
  cases hw : parseWheel env zip with
  | error u => exact .noWheel hw
  | ok x =>
    obtain ⟨dir, get⟩ := x
    simp only
    cases hv : versionOK (get "Wheel-Version".toList) with
    | false => exact .badVersion hw hv
    | true =>
      simp only
      have h1 := spreadOnce_run hp env plat maxTime (rootDir plat get) dir (unpack minTime (rootDir plat get) zip)
      cases hs : spreadOnce pick env plat maxTime (rootDir plat get) dir (unpack minTime (rootDir plat get) zip) with
      | ok vfs => rw [hs] at h1; exact .done hw hv h1
      | error => rw [hs] at h1; exact .fails hw hv h1
      | panic => rw [hs] at h1; exact .panics hw hv h1
      | hangs => rw [hs] at h1; exact (spreadRun_ends h1).elim

/-- a run of `InstallRun` (binary_distribution_format.go:88-186), computed -/
def installOnce (pick : List Str → Str) (w : World) (plat : Platform) (minTime maxTime : Option Int) (hook : Hook) (zip : List ZFile) :
    Outcome (List (Hdr × Bytes)) :=
  match sanitizePlatform plat with
  | .error _ => .error
  | .ok p =>
    match integrityCheck w.digest w.csv zip with
    | .error _ => .error
    | .ok _ =>
      let t := maxTime.getD (defaultMaxTime w.now zip)
      match vfsOnce pick w.toEnv p minTime t zip with
      | .error => .error
      | .panic => .panic
      | .hangs => .hangs
      | .ok (vfs, dir) =>
        match hook t vfs dir with
        | .error _ => .error
        | .ok vfs1 =>
          match rangeAll pick (parentsBody t) vfs1 () with
          | .error _ => .hangs
          | .ok (vfs2, _) =>
            match layerOf w p t vfs2 with
            | .error _ => .error
            | .ok layer => .ok layer

theorem vfsRun_ends {env : Env} {plat : Platform} {minTime : Option Int} {maxTime : Int} {zip : List ZFile}
    (h : VfsRun env plat minTime maxTime zip .hangs) : False := by cases h

/-- the run computed is one -/
theorem installOnce_run {pick : List Str → Str} (hp : Chooses pick) (w : World) (plat : Platform) (minTime maxTime : Option Int) (hook : Hook)
    (zip : List ZFile) : InstallRun w plat minTime maxTime hook zip (installOnce pick w plat minTime maxTime hook zip) := by
  unfold installOnce
  cases hs : sanitizePlatform plat with
  | error u => exact .badPlatform hs
  | ok p =>
    simp only
    cases hi : integrityCheck w.digest w.csv zip with
    | error u => exact .badWheel hs hi
    | ok u =>
      simp only
      have h1 := vfsOnce_run hp w.toEnv p minTime (maxTime.getD (defaultMaxTime w.now zip)) zip
      cases hv : vfsOnce pick w.toEnv p minTime (maxTime.getD (defaultMaxTime w.now zip)) zip with
      | error => rw [hv] at h1; exact .run hs hi (.fails h1)
      | panic => rw [hv] at h1; exact .run hs hi (.panics h1)
      | hangs => rw [hv] at h1; exact (vfsRun_ends h1).elim
      | ok x =>
        obtain ⟨vfs, dir⟩ := x
        rw [hv] at h1
        simp only
        cases hh : hook (maxTime.getD (defaultMaxTime w.now zip)) vfs dir with
        | error u => exact .run hs hi (.hookFails h1 hh)
        | ok vfs1 =>
          simp only
          have h2 := rangeAll_run hp (parentsBody (maxTime.getD (defaultMaxTime w.now zip))) vfs1 ()
          cases hr : rangeAll pick (parentsBody (maxTime.getD (defaultMaxTime w.now zip))) vfs1 () with
          | error u => rw [hr] at h2; exact .run hs hi (.hangs h1 hh h2)
          | ok y =>
            obtain ⟨vfs2, u⟩ := y
            rw [hr] at h2
            simp only
            cases hl : layerOf w p (maxTime.getD (defaultMaxTime w.now zip)) vfs2 with
            | error u => exact .run hs hi (.layerFails h1 hh h2 (List.Perm.refl _) hl)
            | ok layer => exact .run hs hi (.done h1 hh h2 (List.Perm.refl _) hl)

theorem chooses_head : Chooses (fun l => l.headD []) := by
  intro l hl
  cases l with
  | nil => exact absurd rfl hl
  | cons a l => simp

theorem chooses_last : Chooses (fun l => l.getLastD []) := by
  intro l hl
  show l.getLastD [] ∈ l
  rcases List.eq_nil_or_concat l with rfl | ⟨a, b, rfl⟩
  · exact absurd rfl hl
  · rw [List.concat_eq_append]; simp [List.getLastD_eq_getLast?]

end Bdist
