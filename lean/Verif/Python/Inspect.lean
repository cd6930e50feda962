import Verif.Go.Path
/-! Model of pkg/python/pyinspect: pyinspect.go `Shebangs` and fs_image.go.  `NativeFS` (fs_native.go) calls the operating system and
is not modelled. -/
namespace Python
open Go

/-- an image: the working directory and the environment of its config, and `fs.Stat` of the file system loaded from its layers
(whether it is a directory, and the mode bits; `none` for an error).  An image whose config or layers cannot be read gives
an error from every call; that is not modelled. -/
structure Image where
  workingDir : Str
  env : List Str
  stat : Str → Option (Bool × BitVec 32)

/-- fs_image.go:29-34 `linuxFilepathSplitList` -/
def splitList (path : Str) : List Str := if path = [] then [] else split ':' path

/-- fs_image.go:38-47 `lookupEnv` -/
def lookupEnv (environ : List Str) (key : Str) : Option Str :=
  match environ with
  | [] => none
  | kv :: rest => if hasPrefix kv (key ++ ['=']) then some (trimPrefix kv (key ++ ['='])) else lookupEnv rest key

/-- fs_image.go:57, 65-70: `imgWD` -/
def Image.wd (img : Image) : Str :=
  if img.workingDir = [] then ['/']
  else if hasPrefix img.workingDir ['/'] then img.workingDir else '/' :: img.workingDir

/-- fs_image.go:58, 71-73: `imgPATH` -/
def Image.path (img : Image) : List Str :=
  match lookupEnv img.env "PATH".toList with
  | some p => splitList p
  | none => []

/-- fs_image.go:92-115 `Stat`, without the ownership -/
def Image.statAbs (img : Image) (name : Str) : Option (Bool × BitVec 32) :=
  if isRooted name then img.stat (name.drop 1) else none

/-- fs_image.go:117-126 `checkExecutable` -/
def Image.executable (img : Image) (name : Str) : Bool :=
  match img.statAbs name with
  | none => false
  | some (dir, mode) => !(dir || mode &&& 0o111#32 = 0#32)

/-- fs_image.go:151-160: the loop over `imgPATH` -/
def lookLoop (img : Image) (filename : Str) : List Str → Option Str
  | [] => none
  | dir :: rest =>
    let full := pathJoin [dir, filename]
    let full := if isRooted full then full else pathJoin [img.wd, full]
    if img.executable full then some full else lookLoop img filename rest

/-- fs_image.go:128-163 `LookPath` -/
def Image.lookPath (img : Image) (filename : Str) : Option Str :=
  if filename.contains '/' then
    let full := if isRooted filename then filename else pathJoin [img.wd, filename]
    if img.executable full then some full else none
  else lookLoop img filename img.path

/-- pyinspect.go:56-80 `Shebangs`, with `lookPath` the method `LookPath` of the file system.  `Split` and `Join` are path.Split and
path.Join. -/
def shebangs (lookPath : Str → Option Str) (generic : Str) : Option (Str × Str) :=
  match lookPath generic with
  | none => none
  | some generic =>
    let console :=
      if hasPrefix (pathSplit generic).2 "pythonw".toList then
        (lookPath (pathJoin [(pathSplit generic).1, "python".toList ++ trimPrefix (pathSplit generic).2 "pythonw".toList])).getD generic
      else generic
    let graphical :=
      if hasPrefix (pathSplit console).2 "python".toList && !hasPrefix (pathSplit console).2 "pythonw".toList then
        (lookPath (pathJoin [(pathSplit console).1, "pythonw".toList ++ trimPrefix (pathSplit console).2 "python".toList])).getD generic
      else generic
    some (console, graphical)

end Python
