import Verif.Bdist.PropsOrder
/-!
C45: where the files of a wheel are installed.  C87: an installation that panics.  C88: wheels of a later format.
-/
namespace Bdist
open Go Fsutil Python

/-- moving a file that has just been unpacked -/
theorem rename_copy (mt : Option Int) {k : Str} (hk : Spec.Rel k) (n : Str) (f : ZFile) :
    renameRef n (Spec.copy mt k f) = Spec.copy mt n f := by
  have h := placed_create (k := k) mt f.hdr f.content
  unfold Spec.copy renameRef createHdr
  by_cases hd : hasSuffix f.hdr.name ['/'] = true
  · have := (placed_isDir (h := createHdr mt k f.hdr) hk rfl).1 (by unfold createHdr; simp only [hd, if_true]) (by unfold createHdr; simp only [hd, if_true])
    unfold createHdr at this
    simp only [hd, if_true] at this ⊢
    rw [this]; rfl
  · have := (placed_isDir (h := createHdr mt k f.hdr) hk rfl).2 (by unfold createHdr; simp only [hd]; rfl) (by
      unfold createHdr; simp only [hd]
      by_cases he : isExecutable f.hdr = true
      · simp [he]
      · simp [he])
    unfold createHdr at this
    simp only [hd] at this ⊢
    simp only [Bool.false_eq_true, if_false] at this ⊢
    rw [this]; rfl

namespace Spec

/-- what `installToVFS` deletes: the three RECORD files of the `.dist-info` directory and the data directory -/
def Removed (dst dir n : Str) : Prop :=
  n = pathJoin [dst, dir, "RECORD".toList] ∨ n = pathJoin [dst, dir, "RECORD.jws".toList] ∨
  n = pathJoin [dst, dir, "RECORD.p7s".toList] ∨ n = dataDir dst dir

/-- `r` is what becomes of the last file of the archive that is unpacked as `k` in the data directory `d`, and moved to `n` -/
def FromData (digest : Str → Bytes → Str) (p : Platform) (minTime : Option Int) (dst d : Str) (zip : List ZFile) (n : Str) (r : Ref) : Prop :=
  ∃ k f kind, LastAt dst zip k f ∧ Moves p.scheme d k n kind ∧
    (kind ≠ "scripts".toList → r = copy minTime n f) ∧ (kind = "scripts".toList → Rewritten digest p (copy minTime n f) r)

/-- `r` is the last file of the archive that is unpacked as `n`, not in the data directory `d`, and not replaced -/
def FromRoot (s : Scheme) (minTime : Option Int) (dst d : Str) (zip : List ZFile) (n : Str) (r : Ref) : Prop :=
  ¬ In d n ∧ (¬ ∃ g ∈ zip, ∃ kind, Moves s d (pathJoin [dst, g.hdr.name]) n kind) ∧
  ∃ f, LastAt dst zip n f ∧ r = copy minTime n f

end Spec

theorem remove_get (dst dir : Str) (m : Map Ref) (n : Str) :
    (Spec.Removed dst dir n → (removeRecords dst dir m).get? n = none) ∧
    (¬ Spec.Removed dst dir n → (removeRecords dst dir m).get? n = m.get? n) := by
  unfold removeRecords Spec.Removed
  simp only [Map.get?_del]
  generalize pathJoin [dst, dir, "RECORD".toList] = a
  generalize pathJoin [dst, dir, "RECORD.jws".toList] = b
  generalize pathJoin [dst, dir, "RECORD.p7s".toList] = c
  generalize dataDir dst dir = d
  constructor
  · rintro (rfl | rfl | rfl | rfl) <;> simp
  · intro h
    simp only [not_or] at h
    rw [if_neg h.2.2.2, if_neg h.2.2.1, if_neg h.2.1, if_neg h.1]

/-- where the files come from that are there before the compiler runs -/
theorem removed_from {digest : Str → Bytes → Str} {p : Platform} {minTime : Option Int} {dst dir : Str} {zip : List ZFile}
    (hg : ZGood (unpack minTime dst zip)) (hA : Spec.Apart p.scheme (dataDir dst dir) (unpack minTime dst zip))
    {m1 m2 : Map Ref} {types order : Map Str}
    (hrun : RangeRun (spreadBody p.scheme (dataDir dst dir)) (RangeState.start (unpack minTime dst zip)) [] (.ok (m1, types)))
    (ho : order.Perm types) (hnd : (order.map (·.1)).Nodup) (hrw : rewritePython digest p order m1 = some (.ok m2))
    {n : Str} {r : Ref} (hm : (removeRecords dst dir m2).get? n = some r) :
    ¬ Spec.Removed dst dir n ∧ (Spec.FromData digest p minTime dst (dataDir dst dir) zip n r ∨
      Spec.FromRoot p.scheme minTime dst (dataDir dst dir) zip n r) := by
  rcases spread_exact hg.wf hA hrun with ⟨e, _⟩ | ⟨_, _, e, _, htw, hall, hm1, htypes⟩
  · cases e
  cases e
  have hscript : ∀ n kind, (n, kind) ∈ order ↔ ∃ k ∈ (unpack minTime dst zip).keys, Spec.Moves p.scheme (dataDir dst dir) k n kind := by
    intro n kind
    rw [← htypes n kind]
    constructor
    · intro h; exact Map.get?_of_mem htw (ho.mem_iff.mp h)
    · intro h; exact ho.mem_iff.mpr (Map.mem_of_get? h)
  obtain ⟨q1, q2⟩ := remove_get dst dir m2 n
  by_cases hrem : Spec.Removed dst dir n
  · rw [q1 hrem] at hm; cases hm
  rw [q2 hrem] at hm
  refine ⟨hrem, ?_⟩
  obtain ⟨a1, a2⟩ := C47_rewrite digest p order hnd m1 m2 hrw n
  have hcopy : ∀ {k r0}, (unpack minTime dst zip).get? k = some r0 →
      ∃ f, Spec.LastAt dst zip k f ∧ renameRef n r0 = Spec.copy minTime n f := by
    intro k r0 hr0
    obtain ⟨f, hf, rfl⟩ := (unpack_get _ _ _ _ _).mp hr0
    exact ⟨f, hf, rename_copy minTime (hg.file k _ hr0).1 n f⟩
  by_cases hsc : (n, "scripts".toList) ∈ order
  · obtain ⟨r1, r2, b1, b2, b3⟩ := a1 hsc
    rw [hm] at b2
    cases b2
    obtain ⟨k', hk', hmv'⟩ := (hscript n _).mp hsc
    rcases (hm1 n r1).mp b1 with ⟨k, r0, kind, c1, c2, rfl⟩ | ⟨_, c2, _⟩
    · have := hA.distinct k (some_key c1) k' hk' n kind _ c2 hmv'
      subst this
      obtain ⟨_, rfl⟩ := Moves.fun_ c2 hmv'
      obtain ⟨f, hf, hcp⟩ := hcopy c1
      rw [hcp] at b3
      exact Or.inl ⟨k, f, _, hf, c2, fun h => absurd rfl h, fun _ => b3⟩
    · exact absurd ⟨k', _, hk', hmv'⟩ c2
  · rw [a2 hsc] at hm
    rcases (hm1 n r).mp hm with ⟨k, r0, kind, c1, c2, rfl⟩ | ⟨c1, c2, c3⟩
    · obtain ⟨f, hf, hcp⟩ := hcopy c1
      refine Or.inl ⟨k, f, kind, hf, c2, fun _ => hcp, ?_⟩
      rintro rfl
      exact absurd ((hscript n _).mpr ⟨k, some_key c1, c2⟩) hsc
    · obtain ⟨f, hf, rfl⟩ := (unpack_get _ _ _ _ _).mp c3
      refine Or.inr ⟨c1, ?_, f, hf, rfl⟩
      rintro ⟨g, hgz, kind, hmv⟩
      exact c2 ⟨_, kind, (unpack_keys ..).mpr ⟨g, hgz, rfl⟩, hmv⟩

/-- **C45** for wheels whose data files do not get into each other's way, for every order of the loops.  If `installToVFS`
succeeds, then with `dst` the purelib or platlib directory, as WHEEL says:

* every file there is either one the compiler made, or comes from the archive: from the data directory, placed in the
  directory for its kind and rewritten if it is a script, or from elsewhere, placed in `dst` under its own name;
* no archive file is left out, except the three RECORD files and the data directory. -/
theorem C45_installed (env : Env) (hc : Spec.DistinctCompiler env) (p : Platform) (hs : RelScheme p.scheme) (minTime : Option Int)
    (maxTime : Int) (zip : List ZFile)
    (hn : ∀ dir get, parseWheel env zip = .ok (dir, get) → Spec.NoClash p.scheme (rootDir p get) (dataDir (rootDir p get) dir) zip)
    (m : Map Ref) (d : Str) (h : VfsRun env p minTime maxTime zip (.ok (m, d))) :
    ∃ dir get dst srcs outs, parseWheel env zip = .ok (dir, get) ∧
      (get "Root-Is-Purelib".toList = "true".toList → dst = p.scheme.pureLib) ∧
      (get "Root-Is-Purelib".toList ≠ "true".toList → dst = p.scheme.platLib) ∧ d = pathJoin [dst, dir] ∧
      env.compile maxTime [p.scheme.pureLib, p.scheme.platLib] srcs = .ok outs ∧
      (∀ n r, m.get? n = some r →
        (r ∈ outs ∧ r.fullName = n) ∨
        ¬ Spec.Removed dst dir n ∧ (Spec.FromData env.digest p minTime dst (dataDir dst dir) zip n r ∨
          Spec.FromRoot p.scheme minTime dst (dataDir dst dir) zip n r)) ∧
      (∀ f ∈ zip, ∀ n, ¬ Spec.Removed dst dir n →
        (∃ kind, Spec.Moves p.scheme (dataDir dst dir) (pathJoin [dst, f.hdr.name]) n kind) ∨
          n = pathJoin [dst, f.hdr.name] ∧ ¬ Spec.In (dataDir dst dir) n → n ∈ m.keys) ∧
      (∀ n, Spec.Removed dst dir n → (∀ o ∈ outs, o.fullName ≠ n) → n ∉ m.keys) ∧
      (∀ f ∈ zip, Spec.In (dataDir dst dir) (pathJoin [dst, f.hdr.name]) →
        ∃ n kind, Spec.Moves p.scheme (dataDir dst dir) (pathJoin [dst, f.hdr.name]) n kind) := by
  cases h with
  | @done dir get vfs h1 h2 h3 =>
  obtain ⟨kind, hk⟩ := rootDir_mem p get
  obtain ⟨hd, hr⟩ := hs kind _ hk
  have hg := unpack_good hd hr minTime zip
  have hA := noClash_apart (hn dir get h1) minTime
  obtain ⟨m1, types, m2, outs, hrun, g1, g2, ⟨order, ho, hnd, hrw⟩, ⟨srcs, hsrcs, hcomp⟩, rfl⟩ := spreadRun_inv hs hg h3
  have hon : (outs.map (·.fullName)).Nodup := hc _ _ _ _ (sources_of (remove_good g2) hsrcs) hcomp
  rcases spread_exact hg.wf hA hrun with ⟨e, _⟩ | ⟨_, _, e, _, htw, hall, hm1, htypes⟩
  · cases e
  cases e
  have hscript : ∀ n kind, (n, kind) ∈ order ↔ ∃ k ∈ (unpack minTime (rootDir p get) zip).keys, Spec.Moves p.scheme (dataDir (rootDir p get) dir) k n kind := by
    intro n kind
    rw [← htypes n kind]
    constructor
    · intro h; exact Map.get?_of_mem htw (ho.mem_iff.mp h)
    · intro h; exact ho.mem_iff.mpr (Map.mem_of_get? h)
  have hkeys2 : ∀ n, n ∈ m1.keys → n ∈ m2.keys := by
    intro n hn
    obtain ⟨a1, a2⟩ := rewritePython_get hnd hrw n
    by_cases h : (n, "scripts".toList) ∈ order
    · obtain ⟨r', hr', _⟩ := a1 h
      exact some_key hr'
    · rw [Map.mem_keys_iff, a2 h, ← Map.mem_keys_iff]; exact hn
  refine ⟨dir, get, rootDir p get, srcs.map (·.2), outs, h1, ?_, ?_, rfl, hcomp, ?_, ?_, ?_, ?_⟩
  · intro h; unfold rootDir; rw [if_pos h]
  · intro h; unfold rootDir; rw [if_neg h]
  · intro n r hm
    obtain ⟨o1, o2⟩ := addOuts_get hon (removeRecords (rootDir p get) dir m2) n
    by_cases hex : ∃ o ∈ outs, o.fullName = n
    · obtain ⟨o, hoo, hon'⟩ := hex
      rw [o1 o hoo hon'] at hm
      cases hm
      exact Or.inl ⟨hoo, hon'⟩
    · rw [o2 (fun o hoo e => hex ⟨o, hoo, e⟩)] at hm
      exact Or.inr (removed_from hg hA hrun ho hnd hrw hm)
  · intro f hf n hrem hcase
    have hin1 : n ∈ m1.keys := by
      have hfk : pathJoin [rootDir p get, f.hdr.name] ∈ (unpack minTime (rootDir p get) zip).keys := (unpack_keys ..).mpr ⟨f, hf, rfl⟩
      obtain ⟨r0, hr0⟩ := get_some hfk
      rcases hcase with ⟨kind, hmv⟩ | ⟨rfl, hnin⟩
      · exact some_key ((hm1 n _).mpr (Or.inl ⟨_, r0, kind, hr0, hmv, rfl⟩))
      · by_cases hex : ∃ k kind, k ∈ (unpack minTime (rootDir p get) zip).keys ∧ Spec.Moves p.scheme (dataDir (rootDir p get) dir) k (pathJoin [rootDir p get, f.hdr.name]) kind
        · obtain ⟨k, kind, hk, hmv⟩ := hex
          obtain ⟨r1, hr1⟩ := get_some hk
          exact some_key ((hm1 _ _).mpr (Or.inl ⟨k, r1, kind, hr1, hmv, rfl⟩))
        · exact some_key ((hm1 _ _).mpr (Or.inr ⟨hnin, hex, hr0⟩))
    have hin2 := hkeys2 n hin1
    obtain ⟨o1, o2⟩ := addOuts_get hon (removeRecords (rootDir p get) dir m2) n
    by_cases hex : ∃ o ∈ outs, o.fullName = n
    · obtain ⟨o, hoo, hon'⟩ := hex
      exact some_key (o1 o hoo hon')
    · rw [Map.mem_keys_iff, o2 (fun o hoo e => hex ⟨o, hoo, e⟩), (remove_get _ _ _ _).2 hrem, ← Map.mem_keys_iff]
      exact hin2
  · intro n hrem hout
    rw [Map.mem_keys_iff, (addOuts_get hon _ n).2 hout, (remove_get _ _ _ _).1 hrem]
    simp
  · intro f hf hin
    exact hall _ ((unpack_keys ..).mpr ⟨f, hf, rfl⟩) hin

theorem addOuts_other {outs : List Ref} {m : Map Ref} {n : Str} (h : ∀ o ∈ outs, o.fullName ≠ n) :
    (outs.foldl (fun m r => m.set r.fullName r) m).get? n = m.get? n := by
  induction outs generalizing m with
  | nil => rfl
  | cons o outs ih =>
    rw [List.foldl_cons, ih (fun x hx => h x (List.mem_cons_of_mem _ hx)), Map.get?_set, if_neg]
    exact fun e => h o List.mem_cons_self e.symm

theorem addOuts_last {as bs : List Ref} {o : Ref} {m : Map Ref} (h : ∀ b ∈ bs, b.fullName ≠ o.fullName) :
    ((as ++ o :: bs).foldl (fun m r => m.set r.fullName r) m).get? o.fullName = some o := by
  rw [List.foldl_append, List.foldl_cons, addOuts_other h, Map.get?_set, if_pos rfl]

/-- **C92**, for every wheel and every order of the loops: if `installToVFS` succeeds, the compiler was called with the upper bound for
times, with purelib and platlib, and with exactly the installed files whose names end in `.py`, each once; what it made is
installed under its names (the last of a name), and replaces nothing else. -/
theorem C92_compiled (env : Env) (p : Platform) (hs : RelScheme p.scheme) (minTime : Option Int) (maxTime : Int) (zip : List ZFile)
    (m : Map Ref) (d : Str) (h : VfsRun env p minTime maxTime zip (.ok (m, d))) :
    ∃ (m0 : Map Ref) (srcs outs : List Ref), env.compile maxTime [p.scheme.pureLib, p.scheme.platLib] srcs = .ok outs ∧
      (srcs.map (·.fullName)).Nodup ∧ (∀ n r, m0.get? n = some r → r.fullName = n) ∧
      (∀ r, r ∈ srcs ↔ m0.get? r.fullName = some r ∧ ∃ b, pathBase r.fullName = b ++ ".py".toList) ∧
      (∀ n, (∀ o ∈ outs, o.fullName ≠ n) → m.get? n = m0.get? n) ∧
      (∀ as o bs, outs = as ++ o :: bs → (∀ b ∈ bs, b.fullName ≠ o.fullName) → m.get? o.fullName = some o) := by
  cases h with
  | @done dir get vfs h1 h2 h3 =>
  obtain ⟨kind, hk⟩ := rootDir_mem p get
  obtain ⟨hd, hr⟩ := hs kind _ hk
  obtain ⟨m1, types, m2, outs, _, _, g2, _, ⟨srcs, hsrcs, hcomp⟩, rfl⟩ := spreadRun_inv hs (unpack_good hd hr minTime zip) h3
  have hg : Good (removeRecords (rootDir p get) dir m2) := by
    unfold removeRecords
    exact ((((g2.del _).del _).del _).del _).toGood
  have hfull : ∀ e ∈ srcs, e.2.fullName = e.1 ∧ (removeRecords (rootDir p get) dir m2).get? e.1 = some e.2 ∧ isPython e = true := by
    intro e he
    obtain ⟨he1, he2⟩ := List.mem_filter.mp (hsrcs.mem_iff.mp he)
    have := Map.get?_of_mem hg.wf he1
    exact ⟨(hg.file _ _ this).2, this, he2⟩
  refine ⟨removeRecords (rootDir p get) dir m2, srcs.map (·.2), outs, hcomp, ?_, fun n r hr => (hg.file n r hr).2, ?_, ?_, ?_⟩
  · have e : (srcs.map (·.2)).map (·.fullName) = srcs.map (·.1) := by
      rw [List.map_map]
      exact List.map_congr_left (fun e he => (hfull e he).1)
    rw [e]
    refine ((hsrcs.map (fun e : Str × Ref => e.1)).nodup_iff).mpr ?_
    have hw : ((removeRecords (rootDir p get) dir m2).map (·.1)).Nodup := hg.wf
    exact hw.sublist (List.filter_sublist.map _)
  · intro r
    rw [List.mem_map]
    constructor
    · rintro ⟨e, he, rfl⟩
      obtain ⟨e1, e2, e3⟩ := hfull e he
      rw [e1]
      exact ⟨e2, (py_iff e1).mp e3⟩
    · rintro ⟨hr, hb⟩
      refine ⟨(r.fullName, r), hsrcs.mem_iff.mpr (List.mem_filter.mpr ⟨Map.mem_of_get? hr, (py_iff rfl).mpr hb⟩), rfl⟩
  · intro n hn
    exact addOuts_other hn
  · rintro as o bs rfl hb
    exact addOuts_last hb

/-- **C45**, the error: a file in the data directory that is not of one of the five kinds makes `installToVFS` fail, in
every order of its loops, whatever else is in the wheel. -/
theorem C45_unknown_kind (env : Env) (p : Platform) (minTime : Option Int) (maxTime : Int) (zip : List ZFile) (dir : Str) (get : Str → Str)
    (hw : parseWheel env zip = .ok (dir, get)) (f : ZFile) (hf : f ∈ zip)
    (hin : Spec.In (dataDir (rootDir p get) dir) (pathJoin [rootDir p get, f.hdr.name]))
    (hno : ¬ ∃ n kind, Spec.Moves p.scheme (dataDir (rootDir p get) dir) (pathJoin [rootDir p get, f.hdr.name]) n kind)
    (r : Outcome (Map Ref × Str)) (h : VfsRun env p minTime maxTime zip r) : r = .error := by
  have key : ∀ {s : RangeState Ref} {x : Map Str} {r : Except Unit (Map Ref × Map Str)},
      RangeRun (spreadBody p.scheme (dataDir (rootDir p get) dir)) s x r → pathJoin [rootDir p get, f.hdr.name] ∈ s.must → r = .error () := by
    intro s x r h
    induction h with
    | done he => intro hm; rw [he] at hm; cases hm
    | fail _ _ => exact fun _ => rfl
    | @step s x j ops x' r hj hb _ ih =>
      intro hm
      apply ih
      have hjk : j ≠ pathJoin [rootDir p get, f.hdr.name] := by
        rintro rfl
        rw [spreadBody_fails hin hno] at hb; cases hb
      have hv : pathJoin [rootDir p get, f.hdr.name] ∈ (s.visit j).must := by
        unfold RangeState.visit
        simp [hm, Ne.symm hjk]
      by_cases hjin : Spec.In (dataDir (rootDir p get) dir) j
      · by_cases hmv : ∃ n kind, Spec.Moves p.scheme (dataDir (rootDir p get) dir) j n kind
        · obtain ⟨n, kind, hmv⟩ := hmv
          cases hr : s.m.get? j with
          | none =>
            exfalso
            obtain ⟨rest, dd, hk, hd, hn⟩ := hmv
            have hp := kind_plain hd
            have hkr : keyRest (trimPrefix j (dataDir (rootDir p get) dir ++ ['/'])) = (kind, rest) := by
              rcases hk with ⟨rfl, rfl⟩ | rfl
              · rw [trimPrefix_in, keyRest_plain hp]
              · rw [trimPrefix_in, keyRest_slash hp]
            unfold spreadBody at hb
            simp only [(hasPrefix_in _ _).mpr hjin, hkr, Bool.not_true, Bool.false_eq_true, if_false, (schemeDir_iff _ kind dd).mpr hd, rename, hr] at hb
            cases hb
          | some ref =>
            rw [spreadBody_moves hmv hr] at hb
            simp only [Except.ok.injEq, Prod.mk.injEq] at hb
            obtain ⟨rfl, _⟩ := hb
            simp only [List.foldl_cons, List.foldl_nil, RangeState.apply]
            simp [hv, Ne.symm hjk]
        · rw [spreadBody_fails hjin hmv] at hb; cases hb
      · rw [spreadBody_skip hjin] at hb
        cases hb
        exact hv
  have hstart : pathJoin [rootDir p get, f.hdr.name] ∈ (RangeState.start (unpack minTime (rootDir p get) zip)).must :=
    (unpack_keys ..).mpr ⟨f, hf, rfl⟩
  have hspread : ∀ {x}, SpreadRun env p maxTime (rootDir p get) dir (unpack minTime (rootDir p get) zip) x → x = .error := by
    intro x hx
    cases hx with
    | spreadFails _ => rfl
    | rewriteFails _ _ _ => rfl
    | compileFails _ _ _ _ _ => rfl
    | rewritePanics h1 _ _ => have := key h1 hstart; cases this
    | done h1 _ _ _ _ => have := key h1 hstart; cases this
  cases h with
  | noWheel _ => rfl
  | badVersion _ _ => rfl
  | fails _ _ _ => rfl
  | panics h1 _ h3 => rw [hw] at h1; cases h1; cases hspread h3
  | done h1 _ h3 => rw [hw] at h1; cases h1; cases hspread h3

/-- **C88**: a wheel is only ever installed if its WHEEL file has a Wheel-Version that is a PEP 440 version with a major
number of at most 1. -/
theorem C88_version (w : World) (plat : Platform) (minTime maxTime : Option Int) (hook : Hook) (zip : List ZFile) (layer : List (Hdr × Bytes))
    (h : InstallRun w plat minTime maxTime hook zip (.ok layer)) :
    ∃ dir text get v, distInfoDir zip = .ok dir ∧ openWheel zip (pathJoin [dir, "WHEEL".toList]) = some text ∧
      w.mime (text ++ enc "\r\n\r\n\r\n".toList) = some get ∧ Pep440.parseVersion (get "Wheel-Version".toList) = .ok v ∧
      v.toPubVer.major ≤ 1 := by
  cases h with
  | @run p r hsan hint h =>
  have hv : ∃ vfs dir, VfsRun w.toEnv p minTime (maxTime.getD (defaultMaxTime w.now zip)) zip (.ok (vfs, dir)) := by
    cases h with
    | done h1 _ _ _ _ => exact ⟨_, _, h1⟩
  obtain ⟨vfs, d, hv⟩ := hv
  cases hv with
  | @done dir get vfs h1 h2 h3 =>
  unfold parseWheel at h1
  cases hdir : distInfoDir zip with
  | error e => rw [hdir] at h1; cases h1
  | ok dir' =>
    rw [hdir] at h1
    simp only at h1
    cases ho : openWheel zip (pathJoin [dir', "WHEEL".toList]) with
    | none => rw [ho] at h1; cases h1
    | some text =>
      rw [ho] at h1
      simp only at h1
      cases hmi : w.mime (text ++ enc "\r\n\r\n\r\n".toList) with
      | none => rw [hmi] at h1; cases h1
      | some get' =>
        rw [hmi] at h1
        cases h1
        unfold versionOK at h2
        cases hpv : Pep440.parseVersion (get "Wheel-Version".toList) with
        | error e => rw [hpv] at h2; cases h2
        | ok v =>
          rw [hpv] at h2
          refine ⟨dir, text, get, v, rfl, ho, hmi, hpv, ?_⟩
          simpa using h2

/-! ### examples -/

/-- where a file of the data directory goes, computed -/
def moveTo (s : Scheme) (d k : Str) : Option (Str × Str) :=
  if hasPrefix k (d ++ ['/']) then
    let kr := keyRest (trimPrefix k (d ++ ['/']))
    (schemeDir s kr.1).map fun dir => (pathJoin [dir, kr.2], kr.1)
  else none

theorem moveTo_of {s : Scheme} {d k n kind : Str} (h : Spec.Moves s d k n kind) : moveTo s d k = some (n, kind) := by
  have hin := Moves.in_ h
  obtain ⟨rest, dir, hk, hd, rfl⟩ := h
  have hp := kind_plain hd
  have hkr : keyRest (trimPrefix k (d ++ ['/'])) = (kind, rest) := by
    rcases hk with ⟨rfl, rfl⟩ | rfl
    · rw [trimPrefix_in, keyRest_plain hp]
    · rw [trimPrefix_in, keyRest_slash hp]
  unfold moveTo
  rw [if_pos ((hasPrefix_in d k).mpr hin)]
  simp only [hkr, (schemeDir_iff s kind dir).mpr hd, Option.map_some]

theorem noClash_check {s : Scheme} {dst d : Str} {zip : List ZFile}
    (h : (zip.map (fun f => pathJoin [dst, f.hdr.name])).all (fun k => (zip.map (fun f => pathJoin [dst, f.hdr.name])).all (fun k' =>
      match moveTo s d k, moveTo s d k' with
      | some (n, _), some (n', _) => !hasPrefix n (d ++ ['/']) && (decide (k = k') || decide (n ≠ n'))
      | _, _ => true)) = true) : Spec.NoClash s dst d zip := by
  have key : ∀ f ∈ zip, ∀ g ∈ zip, ∀ n n' kind kind', Spec.Moves s d (pathJoin [dst, f.hdr.name]) n kind →
      Spec.Moves s d (pathJoin [dst, g.hdr.name]) n' kind' → ¬ Spec.In d n ∧ (pathJoin [dst, f.hdr.name] = pathJoin [dst, g.hdr.name] ∨ n ≠ n') := by
    intro f hf g hg n n' kind kind' h1 h2
    rw [List.all_eq_true] at h
    have h3 := h _ (List.mem_map.mpr ⟨f, hf, rfl⟩)
    rw [List.all_eq_true] at h3
    have h4 := h3 _ (List.mem_map.mpr ⟨g, hg, rfl⟩)
    rw [moveTo_of h1, moveTo_of h2] at h4
    simp only [Bool.and_eq_true, Bool.not_eq_true', Bool.or_eq_true, decide_eq_true_eq] at h4
    refine ⟨?_, h4.2⟩
    intro x
    rw [(hasPrefix_in d n).mpr x] at h4
    exact absurd h4.1 (by decide)
  constructor
  · intro f hf n kind hm
    exact (key f hf f hf n n kind kind hm hm).1
  · intro f hf g hg n kind kind' hm hm'
    exact (key f hf g hg n n kind kind' hm hm').2.resolve_right (fun x => x rfl)

theorem toy_orderly (zip : List ZFile) : Spec.OrderlyCompiler (toyEnv zip) := by
  intro t d s s' _ _ _
  exact Or.inr ⟨[], [], rfl, rfl, List.Perm.refl _, List.nodup_nil, fun o h => (nomatch h)⟩

theorem noHook_orderly : Spec.OrderlyHook noHook := by
  intro t m m' d hm hm' hs
  exact Or.inr ⟨m, m', rfl, rfl, hs, hm, hm'⟩

theorem toy_platform : sanitizePlatform toyPlat = .ok { toyPlat with scheme := ⟨"l/pure".toList, "l/plat".toList, "h".toList, "bin".toList, "d".toList⟩ } := by
  rfl

theorem toy_wheel : ∃ get, parseWheel (toyEnv toyZip) toyZip = .ok ("x.dist-info".toList, get) ∧ get "Root-Is-Purelib".toList = "true".toList :=
  ⟨_, rfl, rfl⟩

/-- the hypothesis of `C44_order_partial`, `C87_returns_partial` and `C45_installed` holds for the sample archive, which
has files for two directories besides purelib -/
theorem toy_noClash : Spec.WheelNoClash (toyEnv toyZip) toyPlat toyZip := by
  intro p dir get hp hw
  rw [toy_platform] at hp
  cases hp
  obtain ⟨get', hw', hroot⟩ := toy_wheel
  rw [hw'] at hw
  cases hw
  refine noClash_check ?_
  unfold rootDir
  rw [if_pos hroot]
  decide +kernel

example : ∃ layer, InstallRun (toyWorld toyZip) toyPlat none none noHook toyZip (.ok layer) ∧
    ∀ r, InstallRun (toyWorld toyZip) toyPlat none none noHook toyZip r → r = .ok layer := by
  obtain ⟨layer, h1, _⟩ := outline_ok (w := toyWorld toyZip) (plat := toyPlat) (minTime := none) (maxTime := none) (hook := noHook)
    (zip := toyZip) chooses_head (l := toyOutline) (by decide +kernel)
  exact ⟨layer, h1, fun r hr => C44_order_partial _ sortSlice_exists (toy_orderly _) _ (clean_proper toy_clean) _ _ _ noHook_orderly _ toy_noClash _ _ hr h1⟩

/-- what the sample archive is unpacked to -/
def toyVfs : Outcome (Map Ref × Str) :=
  match sanitizePlatform toyPlat with
  | .ok p => vfsOnce (fun l => l.headD []) (toyEnv toyZip) p none 0 toyZip
  | .error _ => .error

/-- the hypothesis of `C92_compiled` is met by the sample archive, which has a file to compile -/
example : ∃ p m d, sanitizePlatform toyPlat = .ok p ∧ RelScheme p.scheme ∧ VfsRun (toyEnv toyZip) p none 0 toyZip (.ok (m, d)) ∧
    "l/pure/m/a.py".toList ∈ m.keys := by
  have h : (match toyVfs with | .ok (m, _) => decide ("l/pure/m/a.py".toList ∈ m.keys) | _ => false) = true := by decide +kernel
  unfold toyVfs at h
  rw [toy_platform] at h
  have hr := vfsOnce_run chooses_head (toyEnv toyZip) { toyPlat with scheme := ⟨"l/pure".toList, "l/plat".toList, "h".toList, "bin".toList, "d".toList⟩ } none 0 toyZip
  simp only at h
  split at h
  · rename_i m d e
    rw [e] at hr
    exact ⟨_, m, d, toy_platform, sanitize_rel (clean_proper toy_clean) toy_platform, hr, of_decide_eq_true h⟩
  · cases h

/-- for `C45_unknown_kind`: an archive with a file of no known kind -/
example : ∃ get, parseWheel (toyEnv toyZip) (sampleFile "x.data/other/a" [1] :: toyZip) = .ok ("x.dist-info".toList, get) ∧
    Spec.In (dataDir (rootDir toyPlat get) "x.dist-info".toList) (pathJoin [rootDir toyPlat get, "x.data/other/a".toList]) ∧
    moveTo toyPlat.scheme (dataDir (rootDir toyPlat get) "x.dist-info".toList) (pathJoin [rootDir toyPlat get, "x.data/other/a".toList]) = none := by
  refine ⟨_, rfl, ?_, ?_⟩
  · rw [← hasPrefix_in]; decide +kernel
  · decide +kernel

/-! ### C87 -/

/-- scripts go to purelib, and one of them goes back into the data directory, where another file is waiting to be moved -/
def nestedZip : List ZFile :=
  [sampleFile "x.data/scripts/x.data/data/f" [1], sampleFile "x.data/data/f" [2], sampleFile "x.dist-info/WHEEL" [3],
   sampleFile "x.dist-info/RECORD" [4]]

/-- **C87** fails: `InstallWheel` can panic, depending on the order in which a map is visited, for a wheel that passes the
integrity check.  (`C46_violated` is a case where it does not return.) -/
theorem C87_violated : ∃ w plat zip, InstallRun w plat none none noHook zip .panic ∧ (∃ p, plat.init = .ok p) ∧ SortSlice w.sortSlice ∧
    Spec.CleanScheme plat.scheme ∧ Spec.OrderlyCompiler w.toEnv := by
  let plat : Platform := { toyPlat with scheme := { toyScheme with scripts := toyScheme.pureLib } }
  have hc : Spec.CleanScheme plat.scheme := by
    intro kind dir h
    unfold Spec.schemeDirs at h
    simp only [List.mem_cons, Prod.mk.injEq, List.not_mem_nil, or_false] at h
    rcases h with h | h | h | h | h <;> (rw [h.2]; decide +kernel)
  refine ⟨toyWorld nestedZip, plat, nestedZip, ?_, ⟨_, rfl⟩, sortSlice_exists, hc, toy_orderly _⟩
  have h : outline (installOnce (fun l => l.getLastD []) (toyWorld nestedZip) plat none none noHook nestedZip) = .panic := by decide +kernel
  have hr := installOnce_run chooses_last (toyWorld nestedZip) plat none none noHook nestedZip
  cases hi : installOnce (fun l => l.getLastD []) (toyWorld nestedZip) plat none none noHook nestedZip with
  | panic => rw [hi] at hr; exact hr
  | ok layer => rw [hi] at h; cases h
  | error => rw [hi] at h; cases h
  | hangs => rw [hi] at h; cases h

/-- the hypothesis of `C88_version` is met by the installation of the sample archive, whose version is 1.0 -/
example : ∃ layer, InstallRun (toyWorld toyZip) toyPlat none none noHook toyZip (.ok layer) := by
  obtain ⟨layer, h1, _⟩ := outline_ok (w := toyWorld toyZip) (plat := toyPlat) (minTime := none) (maxTime := none) (hook := noHook)
    (zip := toyZip) chooses_head (l := toyOutline) (by decide +kernel)
  exact ⟨layer, h1⟩

/-- and there are archives that are refused for their version alone: the same one when WHEEL says 2.0 -/
example : outline (installOnce (fun l => l.headD []) { toyWorld toyZip with mime := fun _ => some (fun k => if k = "Wheel-Version".toList then "2.0".toList else "true".toList) } toyPlat none none noHook toyZip) = .error := by
  decide +kernel

end Bdist
