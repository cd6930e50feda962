import Verif.Python.Inspect
import Verif.Python.Platform
import Verif.Pep425.Model
/-!
Model of cmd_python_inspect.go, `ocibuild python inspect`.  Not modelled: opening the image, the text of the YAML (the fields are),
and what Python prints (pyinspect.go `Dynamic`), which is a parameter.
-/
namespace Python
open Go

/-- pyinspect.go:82-87 `DynamicInfo` -/
structure Dyn where
  magicB64 : Str
  tags : List Pep425.Tag
  version : VersionInfo
  scheme : Scheme

/-- the owner of a file, of `pyinspect.FileInfo` -/
structure Owner where
  uid : Int
  gid : Int
  uname : Str
  gname : Str
deriving DecidableEq

/-- what the command works with: the methods `LookPath` and `Stat` of the file system (of the image, or of the host), `Dynamic` for an
interpreter of the host, `Dynamic` for an interpreter in a container of the image (`none` if there is no image; the inner `none` for
an error, also of `dockerutil.WithImage`), `dexec.LookPath`, and base64 -/
structure InspectEnv where
  lookPath : Str → Option Str
  stat : Str → Option Owner
  native : Str → Option Dyn
  image : Option (Str → Option Dyn)
  hostLook : Str → Option Str
  decode : Str → Option (List UInt8)

/-- the fields of the YAML document -/
structure Report where
  consoleShebang : Str
  graphicalShebang : Str
  scheme : Scheme
  owner : Owner
  version : VersionInfo
  magicNumber : List UInt8
  tags : List Pep425.Tag
  pyCompile : List Str

/-- cmd_python_inspect.go:107-119: the owner of the first directory -/
def findOwner (stat : Str → Option Owner) : List Str → Option Owner
  | [] => none
  | dir :: dirs => match stat dir with
    | some o => some o
    | none => findOwner stat dirs

/-- cmd_python_inspect.go:132-154: the first interpreter of the host with the same magic number -/
def findCompiler (env : InspectEnv) (magicB64 : Str) : List Str → Option (List Str)
  | [] => none
  | name :: names => match env.hostLook name with
    | none => findCompiler env magicB64 names
    | some path => match env.native path with
      | none => findCompiler env magicB64 names
      | some d => if d.magicB64 = magicB64 then some [path, "-m".toList, "compileall".toList] else findCompiler env magicB64 names

/-- cmd_python_inspect.go:127-131: the names to look for -/
def compilerNames (v : VersionInfo) : List Str :=
  ["python".toList ++ itoa v.major ++ '.' :: itoa v.minor, "python".toList ++ itoa v.major, "python".toList]

/-- cmd_python_inspect.go:40-169 `RunE` -/
def inspect (env : InspectEnv) (interpreter : Str) : Option Report :=
  match shebangs env.lookPath interpreter with
  | none => none
  | some (console, graphical) =>
    match (match env.image with | none => env.native console | some run => run console) with
    | none => none
    | some dyn => match env.decode dyn.magicB64 with
      | none => none
      | some magic =>
        match findOwner env.stat [dyn.scheme.pureLib, dyn.scheme.platLib, dyn.scheme.headers, dyn.scheme.scripts, dyn.scheme.data] with
        | none => none
        | some owner =>
          match (match env.image with
            | none => some [console, "-m".toList, "compileall".toList]
            | some _ => findCompiler env dyn.magicB64 (compilerNames dyn.version)) with
          | none => none
          | some cmd => some ⟨console, graphical, dyn.scheme, owner, dyn.version, magic, dyn.tags, cmd⟩

end Python
