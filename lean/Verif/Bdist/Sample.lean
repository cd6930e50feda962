import Verif.Bdist.PropsInside
/-!
Sample archives and a toy outside world, for the examples and counterexamples.
-/
namespace Bdist
open Go Fsutil Python

/-- a RECORD that lists all files of the archive, with their digests and sizes -/
def toyRecord (zip : List ZFile) : List (List Str) :=
  ["x.dist-info/RECORD".toList, [], []] :: (zip.filter (fun f => clean f.hdr.name ≠ "x.dist-info/RECORD".toList)).map (fun f =>
    [f.hdr.name, "sha256=".toList ++ toyDigest [] (f.content.getD []), itoa (f.content.getD []).length])

/-- toy readers: RECORD is what `toyRecord` says, and WHEEL says version 1.0 and purelib; there is no compiler -/
def toyEnv (zip : List ZFile) : Env :=
  { digest := toyDigest
    csv := fun _ => some (toyRecord zip)
    mime := fun _ => some (fun k => if k = "Wheel-Version".toList then "1.0".toList else "true".toList)
    compile := fun _ _ _ => .ok [] }

/-- the rest of the world for the examples -/
def toyWorld (zip : List ZFile) : World :=
  { toEnv := toyEnv zip, sortSlice := insertionSort, accepts := fun _ => true, now := 0 }

/-- a scheme for the examples -/
def toyScheme : Scheme := ⟨"/l/pure".toList, "/l/plat".toList, "/h".toList, "/bin".toList, "/".toList ++ "d".toList⟩

/-- a platform for the examples -/
def toyPlat : Platform := ⟨"/bin/python".toList, "/bin/pythonw".toList, toyScheme, 1, 2, "u".toList, "g".toList⟩

/-- no hook -/
def noHook : Hook := postInstallHooks []

/-- the names and contents of a layer -/
def outline : Outcome (List (Hdr × Bytes)) → Outcome (List (Str × Char × Int × Bytes))
  | .ok l => .ok (l.map (fun e => (e.1.name, e.1.typeflag, e.1.mode, e.2)))
  | .error => .error
  | .panic => .panic
  | .hangs => .hangs

deriving instance DecidableEq for Outcome

/-- an archive with a module, a script and the files of its `.dist-info` directory -/
def toyZip : List ZFile :=
  [sampleFile "m/a.py" [1, 2], sampleFile "x.data/scripts/run" (enc "#!python\n".toList), sampleFile "x.data/data/e/f" [7],
   sampleFile "x.dist-info/WHEEL" [3], sampleFile "x.dist-info/RECORD" [4]]

theorem toy_tidy (zip : List ZFile) : Spec.TidyCompiler (toyWorld zip).toEnv := by
  intro t d s outs _ h
  cases h
  exact fun o ho => (nomatch ho)

theorem noHook_tidy : Spec.TidyHook noHook := by
  intro t m d m' hm h
  cases h
  exact hm

theorem toy_clean : Spec.CleanScheme toyScheme := by
  intro kind dir h
  unfold Spec.schemeDirs toyScheme at h
  simp only [List.mem_cons, Prod.mk.injEq, List.not_mem_nil, or_false] at h
  rcases h with h | h | h | h | h <;> (rw [h.2]; decide +kernel)

end Bdist
