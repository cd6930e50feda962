import Verif.Python.Inspect
import Verif.Squash.Model
/-!
Model of pkg/python/pyinspect/fs_image.go on the file system that pkg/squash loads from the image's layers: `Stat` and `LookPath`, and
`Shebangs` (pyinspect.go) on top of it.  As in the model of pkg/squash, the outer `none` of a result means that the code does not
return (or panics), and the number `n` bounds the depth of recursion.
-/
namespace Python
open Go Squash

/-- vfs_fs.go:73-84 `Stat` of an open file, of which the nodes are given: the header that the returned `fs.FileInfo` is made from.  A nil
header of the second node would be a panic. -/
def statHandle (S : FS) (tgt lnk : Squash.Path) : Res Header :=
  match S.get? tgt with
  | some ⟨some h, _⟩ => match S.get? lnk with
    | some ⟨some hl, _⟩ => some (.ok { h with name := hl.name })
    | _ => none
  | _ => some (.error ())

/-- `fs.Stat` (standard library) of the loaded file system: `Open`, then `Stat` -/
def fsStat (n : Nat) (S : FS) (name : Str) : Res Header := (openFile n S name).bind fun x => statHandle S x.1 x.2

/-- `Mode().IsDir()` of `tar.Header.FileInfo` (archive/tar): from the type flag, or from the file type bits that may be in the mode -/
def isDirInfo (h : Header) : Bool := h.typeflag = typeDir || decide (h.mode - h.mode % 4096 = 0o40000)

/-- the permission bits of `Mode()` of `tar.Header.FileInfo` -/
def permOf (h : Header) : BitVec 32 := BitVec.ofInt 32 h.mode &&& 0o777#32

/-- an image: `ConfigFile()`, an error, nil or working directory and environment; and the entries of the layers that `Layers()`
returns -/
structure OciImage where
  config : Except Unit (Option (Str × List Str))
  layers : Except Unit (List (List Entry))

/-- fs_image.go:54-90 `ensureInitialized`: `imgWD`, `imgPATH` and `imgFS`.  (`sync.Once` keeps the error too, so every call gives the
same.) -/
def imageInit (n : Nat) (img : OciImage) : Res (Str × List Str × FS) :=
  match img.config with
  | .error e => some (.error e)
  | .ok cfg =>
    let wd := match cfg with
      | some (w, _) => if w ≠ [] then (if !hasPrefix w ['/'] then '/' :: w else w) else ['/']
      | none => ['/']
    let path := match cfg with
      | some (_, env) => (match lookupEnv env "PATH".toList with
        | some p => splitList p
        | none => [])
      | none => []
    match img.layers with
    | .error e => some (.error e)
    | .ok layers => (loadLayers n layers true).bind fun S => some (.ok (wd, path, S))

/-- fs_image.go:92-115 `Stat`: the header that the information is made from (with the ownership) -/
def OciImage.stat (n : Nat) (img : OciImage) (name : Str) : Res Header :=
  if !isRooted name then some (.error ())
  else (imageInit n img).bind fun i => fsStat n i.2.2 (name.drop 1)

/-- fs_image.go:117-126 `checkExecutable` -/
def checkExecutable (n : Nat) (img : OciImage) (name : Str) : Res Unit :=
  (img.stat n name).bind fun h => if isDirInfo h || permOf h &&& 0o111#32 = 0#32 then some (.error ()) else some (.ok ())

/-- fs_image.go:151-162: the loop over `imgPATH` -/
def lookIn (n : Nat) (img : OciImage) (wd filename : Str) : List Str → Res Str
  | [] => some (.error ())
  | dir :: dirs =>
    let full := pathJoin [dir, filename]
    let full := if !isRooted full then pathJoin [wd, full] else full
    match checkExecutable n img full with
    | none => none
    | some (.ok _) => some (.ok full)
    | some (.error _) => lookIn n img wd filename dirs

/-- fs_image.go:128-163 `LookPath` -/
def OciImage.lookPath (n : Nat) (img : OciImage) (filename : Str) : Res Str :=
  (imageInit n img).bind fun i =>
    if filename.contains '/' then
      let full := if !isRooted filename then pathJoin [i.1, filename] else filename
      (checkExecutable n img full).bind fun _ => some (.ok full)
    else lookIn n img i.1 filename i.2.1

/-- pyinspect.go:64-80: the second result of a `LookPath` is used only if there is no error -/
def orElse (r : Res Str) (dflt : Str) : Res Str :=
  match r with
  | none => none
  | some (.ok p) => some (.ok p)
  | some (.error _) => some (.ok dflt)

/-- pyinspect.go:56-80 `Shebangs` for an image -/
def OciImage.shebangs (n : Nat) (img : OciImage) (generic : Str) : Res (Str × Str) :=
  (img.lookPath n generic).bind fun generic =>
    let console : Res Str :=
      if hasPrefix (pathSplit generic).2 "pythonw".toList then
        orElse (img.lookPath n (pathJoin [(pathSplit generic).1, "python".toList ++ trimPrefix (pathSplit generic).2 "pythonw".toList])) generic
      else some (.ok generic)
    console.bind fun console =>
      let graphical : Res Str :=
        if hasPrefix (pathSplit console).2 "python".toList && !hasPrefix (pathSplit console).2 "pythonw".toList then
          orElse (img.lookPath n (pathJoin [(pathSplit console).1, "pythonw".toList ++ trimPrefix (pathSplit console).2 "python".toList])) generic
        else some (.ok generic)
      graphical.bind fun graphical => some (.ok (console, graphical))

end Python
