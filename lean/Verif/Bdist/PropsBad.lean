import Verif.Bdist.Sample
/-!
Counterexamples to C43, C44 and C46 as stated, and examples for the theorems proved instead.
-/
namespace Bdist
open Go Fsutil Python

theorem outline_ok {w : World} {plat : Platform} {minTime maxTime : Option Int} {hook : Hook} {zip : List ZFile} {pick : List Str → Str}
    (hp : Chooses pick) {l : List (Str × Char × Int × Bytes)} (h : outline (installOnce pick w plat minTime maxTime hook zip) = .ok l) :
    ∃ layer, InstallRun w plat minTime maxTime hook zip (.ok layer) ∧ layer.map (fun e => (e.1.name, e.1.typeflag, e.1.mode, e.2)) = l := by
  have hr := installOnce_run hp w plat minTime maxTime hook zip
  cases hi : installOnce pick w plat minTime maxTime hook zip with
  | ok layer => rw [hi] at h hr; cases h; exact ⟨layer, hr, rfl⟩
  | error => rw [hi] at h; cases h
  | panic => rw [hi] at h; cases h
  | hangs => rw [hi] at h; cases h

/-- the files of the sample archive in the layer: the script's first line is rewritten, RECORD is gone and parents are there -/
def toyOutline : List (Str × Char × Int × Bytes) :=
  [("bin".toList, '5', 0o755, []), ("bin/run".toList, '0', 0o755, enc "#!/bin/python\n".toList), ("d".toList, '5', 0o755, []),
   ("d/e".toList, '5', 0o755, []), ("d/e/f".toList, '0', 0o644, [7]), ("l".toList, '5', 0o755, []), ("l/pure".toList, '5', 0o755, []),
   ("l/pure/m".toList, '5', 0o755, []), ("l/pure/m/a.py".toList, '0', 0o644, [1, 2]), ("l/pure/x.dist-info".toList, '5', 0o755, []),
   ("l/pure/x.dist-info/WHEEL".toList, '0', 0o644, [3])]

/-- the hypotheses of `C46_parents_partial` are met by the installation of the sample archive, which has parents to add -/
example : ∃ layer, InstallRun (toyWorld toyZip) toyPlat none none noHook toyZip (.ok layer) ∧
    layer.map (fun e => (e.1.name, e.1.typeflag, e.1.mode, e.2)) = toyOutline ∧ SortSlice (toyWorld toyZip).sortSlice ∧
    Spec.TidyCompiler (toyWorld toyZip).toEnv ∧ Spec.ProperScheme toyPlat.scheme ∧ Spec.TidyHook noHook := by
  obtain ⟨layer, h1, h2⟩ := outline_ok (w := toyWorld toyZip) (plat := toyPlat) (minTime := none) (maxTime := none) (hook := noHook)
    (zip := toyZip) chooses_head (l := toyOutline) (by decide +kernel)
  exact ⟨layer, h1, h2, sortSlice_exists, toy_tidy _, clean_proper toy_clean, noHook_tidy⟩

/-- **C46** fails: with the directory "//l" for purelib, which `Platform.Init` accepts, `InstallWheel` does not return. -/
theorem C46_violated : ∃ w plat zip, InstallRun w plat none none noHook zip .hangs ∧ (∃ p, plat.init = .ok p) ∧ SortSlice w.sortSlice ∧
    Spec.TidyCompiler w.toEnv := by
  refine ⟨toyWorld toyZip, { toyPlat with scheme := { toyScheme with pureLib := "//l".toList } }, toyZip, ?_, ⟨_, rfl⟩, sortSlice_exists,
    toy_tidy _⟩
  have h : outline (installOnce (fun l => l.headD []) (toyWorld toyZip) { toyPlat with scheme := { toyScheme with pureLib := "//l".toList } }
      none none noHook toyZip) = .hangs := by decide +kernel
  have hr := installOnce_run chooses_head (toyWorld toyZip) { toyPlat with scheme := { toyScheme with pureLib := "//l".toList } } none none
    noHook toyZip
  cases hi : installOnce (fun l => l.headD []) (toyWorld toyZip) { toyPlat with scheme := { toyScheme with pureLib := "//l".toList } }
      none none noHook toyZip with
  | hangs => rw [hi] at hr; exact hr
  | ok layer => rw [hi] at h; cases h
  | error => rw [hi] at h; cases h
  | panic => rw [hi] at h; cases h

/-! ### C43 -/

/-- an archive with a name that leads out of the directory it is unpacked in; RECORD lists the file -/
def upZip : List ZFile := sampleFile "../../etc/passwd" [9] :: toyZip

/-- **C43** fails: a file of the archive is installed as /etc/passwd, which is in no directory of the scheme.  The archive
passes the integrity check. -/
theorem C43_violated : ∃ layer, InstallRun (toyWorld upZip) toyPlat none none noHook upZip (.ok layer) ∧ Spec.CleanScheme toyPlat.scheme ∧
    ∃ e ∈ layer, e.1.name = "etc/passwd".toList ∧ e.2 = [9] ∧ ¬ Spec.InScheme toyPlat.scheme e.1.name := by
  obtain ⟨layer, h1, h2⟩ := outline_ok (w := toyWorld upZip) (plat := toyPlat) (minTime := none) (maxTime := none) (hook := noHook)
    (zip := upZip) chooses_head
    (l := toyOutline.take 5 ++ ("etc".toList, '5', 0o755, []) :: ("etc/passwd".toList, '0', 0o644, [9]) :: toyOutline.drop 5)
    (by decide +kernel)
  have hm : ("etc/passwd".toList, '0', (0o644 : Int), ([9] : Bytes)) ∈ layer.map (fun e => (e.1.name, e.1.typeflag, e.1.mode, e.2)) := by
    rw [h2]; simp
  obtain ⟨e, he, hen⟩ := List.mem_map.mp hm
  simp only [Prod.mk.injEq] at hen
  refine ⟨layer, h1, toy_clean, e, he, hen.1, hen.2.2.2, ?_⟩
  rw [hen.1]
  rintro ⟨kind, dir, hd, hin⟩
  have hall : ∀ x ∈ Spec.schemeDirs toyPlat.scheme, '/' :: "etc/passwd".toList ≠ x.2 ∧ hasPrefix ('/' :: "etc/passwd".toList) (x.2 ++ ['/']) = false := by
    decide +kernel
  obtain ⟨a1, a2⟩ := hall _ hd
  rcases hin with h | h
  · exact a1 h
  · have : hasPrefix ('/' :: "etc/passwd".toList) (dir ++ ['/']) = true := (hasPrefix_in _ _).mpr h
    rw [a2] at this
    cases this

/-- the hypotheses of `C43_inside_partial` are met by the sample archive, where files go to three directories -/
example : ∃ m dir p, sanitizePlatform toyPlat = .ok p ∧ VfsRun (toyEnv toyZip) p none 7 toyZip (.ok (m, dir)) ∧
    Spec.InsideCompiler (toyEnv toyZip) toyPlat.scheme ∧ (∀ f ∈ toyZip, Spec.Down f.hdr.name) ∧
    "bin/run".toList ∈ m.keys ∧ "d/e/f".toList ∈ m.keys ∧ "l/pure/m/a.py".toList ∈ m.keys := by
  have hs : ∃ p, sanitizePlatform toyPlat = .ok p := ⟨_, rfl⟩
  obtain ⟨p, hp⟩ := hs
  have hpe : p = (match sanitizePlatform toyPlat with | .ok p => p | .error _ => toyPlat) := by rw [hp]
  have hr := vfsOnce_run chooses_head (toyEnv toyZip) p none 7 toyZip
  have hk : (match vfsOnce (fun l => l.headD []) (toyEnv toyZip) p none 7 toyZip with
      | .ok (m, _) => decide ("bin/run".toList ∈ m.keys) && decide ("d/e/f".toList ∈ m.keys) && decide ("l/pure/m/a.py".toList ∈ m.keys)
      | _ => false) = true := by
    rw [hpe]; decide +kernel
  cases hv : vfsOnce (fun l => l.headD []) (toyEnv toyZip) p none 7 toyZip with
  | ok x =>
    obtain ⟨m, dir⟩ := x
    rw [hv] at hr hk
    simp only [Bool.and_eq_true, decide_eq_true_eq] at hk
    refine ⟨m, dir, p, hp, hr, ?_, ?_, hk.1.1, hk.1.2, hk.2⟩
    · intro t d s outs _ _ h; cases h; exact fun o ho => (nomatch ho)
    · intro f hf
      rw [down_iff]
      revert f hf
      decide +kernel
  | error => rw [hv] at hk; cases hk
  | panic => rw [hv] at hk; cases hk
  | hangs => rw [hv] at hk; cases hk

/-! ### C44 -/

/-- purelib and platlib are the same directory, as usual, and the wheel has files for the same place in both -/
def samePlat : Platform := { toyPlat with scheme := { toyScheme with platLib := toyScheme.pureLib } }

def twiceZip : List ZFile :=
  [sampleFile "x.data/purelib/a" [1], sampleFile "x.data/platlib/a" [2], sampleFile "x.dist-info/WHEEL" [3],
   sampleFile "x.dist-info/RECORD" [4]]

def twiceOutline (b : Bytes) : List (Str × Char × Int × Bytes) :=
  [("l".toList, '5', 0o755, []), ("l/pure".toList, '5', 0o755, []), ("l/pure/a".toList, '0', 0o644, b),
   ("l/pure/x.dist-info".toList, '5', 0o755, []), ("l/pure/x.dist-info/WHEEL".toList, '0', 0o644, [3])]

/-- **C44** fails: depending on the order in which a map is visited, `InstallWheel` returns different layers for the same
input. -/
theorem C44_violated : ∃ layer layer', InstallRun (toyWorld twiceZip) samePlat none none noHook twiceZip (.ok layer) ∧
    InstallRun (toyWorld twiceZip) samePlat none none noHook twiceZip (.ok layer') ∧ layer ≠ layer' := by
  obtain ⟨l1, h1, e1⟩ := outline_ok (w := toyWorld twiceZip) (plat := samePlat) (minTime := none) (maxTime := none) (hook := noHook)
    (zip := twiceZip) chooses_head (l := twiceOutline [1]) (by decide +kernel)
  obtain ⟨l2, h2, e2⟩ := outline_ok (w := toyWorld twiceZip) (plat := samePlat) (minTime := none) (maxTime := none) (hook := noHook)
    (zip := twiceZip) chooses_last (l := twiceOutline [2]) (by decide +kernel)
  refine ⟨l1, l2, h1, h2, ?_⟩
  rintro rfl
  rw [e1] at e2
  exact absurd e2 (by decide +kernel)

end Bdist
