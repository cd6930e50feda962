import Verif.Bdist.Install
/-!
pkg/python/py_compile.go: `ExternalCompiler`, which writes the sources to a temporary directory, runs a command there and
collects the byte code.

The file system of the machine is a function from clean absolute paths (as lists of elements; `[]` is "/") to what is
there.  Not modelled: symbolic links on the way to a file, permissions, full disks; creating and removing the temporary
directory succeed.
-/
namespace Bdist
open Go Fsutil Python

/-- what is at a path: a directory, or something else, with what reading gives (`none` = error) and `tar.FileInfoHeader` of
its `Lstat` -/
inductive Node where
  | dir
  | leaf (content : Option Bytes) (info : Hdr)
deriving DecidableEq

/-- the file system -/
abbrev Host := List Str → Option Node

/-- the file system after something was put at a path (`os.WriteFile`, `os.Mkdir`; operating system) -/
def Host.set (h : Host) (p : List Str) (n : Node) : Host := fun q => if q = p then some n else h q

/-- the elements of an absolute path -/
def hostPath (p : Str) : List Str := cleanElems true (split '/' p)

/-- `exec.Cmd`: the executable, the arguments after it, and the environment -/
structure Cmd where
  exe : Str
  args : List Str
  env : List Str
deriving DecidableEq

/-- the machine: the name that `os.MkdirTemp` chooses, the information on a regular file written by this process (by its
size and the time set with `os.Chtimes`), the environment, the variable PYTHONPATH in it (empty = not set), what running a command does
(and whether it succeeds), and the paths that `fs.WalkDir` visits below the temporary directory, as seen from there (`none` =
error) -/
structure Machine where
  tmp : List Str
  info : Int → Int → Hdr
  environ : List Str
  pythonPath : Str
  run : Cmd → Host → Host × Bool
  walk : Host → Option (List (List Str))

/-- one directory of `os.MkdirAll`: made if nothing is there, fine if it is a directory, an error otherwise -/
def ensureDir (st : Host × Bool) (p : List Str) : Host × Bool :=
  if st.2 then
    match st.1 p with
    | none => (st.1.set p .dir, true)
    | some .dir => st
    | some (.leaf _ _) => (st.1, false)
  else st

/-- the beginnings of a path, shortest first -/
def beginnings (p : List Str) : List (List Str) := (List.range (p.length + 1)).map p.take

/-- `os.MkdirAll`: all directories on the way, from the root; whether it succeeds -/
def mkdirAll (h : Host) (p : List Str) : Host × Bool := (beginnings p).foldl ensureDir (h, true)

/-- ioutil.go:52 `ModTime` of a `*zipEntry`, and that of the other references (simplified: those without information have
none) -/
def Ref.modTime : Ref → Int
  | .zip h _ _ => h.modified
  | .other f => match f.info with
    | some i => i.modTime
    | none => zeroTime

/-- py_compile.go:69-119 `writeFile`: one source.  `os.Create` replaces what is there, except directories.  When reading fails, a file
with part of the content is left behind. -/
def writeFile (e : Machine) (h : Host) (r : Ref) : Host × Bool :=
  let name := pathJoin [render true e.tmp, r.fullName]
  match mkdirAll h (hostPath (pathDir name)) with
  | (h1, false) => (h1, false)
  | (h1, true) =>
    match h1 (hostPath name) with
    | some .dir => (h1, false)
    | _ =>
      match r.content with
      | none => (h1.set (hostPath name) (.leaf none (e.info 0 0)), false)
      | some c => (h1.set (hostPath name) (.leaf (some c) (e.info c.length r.modTime)), true)

/-- py_compile.go:121-125: all sources, until one fails -/
def writeFiles (e : Machine) : Host → List Ref → Host × Bool
  | h, [] => (h, true)
  | h, r :: rs =>
    match writeFile e h r with
    | (h1, true) => writeFiles e h1 rs
    | (h1, false) => (h1, false)

/-- py_compile.go:127-150: the command, for the command line given to `ExternalCompiler` (`exe` its first word, looked up) -/
def compileCmd (e : Machine) (exe : Str) (words : List Str) (clampTime : Int) (pythonPath : List Str) : Cmd :=
  { exe := exe
    args := words ++ ["-s".toList, render true e.tmp, "-p".toList, "/".toList, render true e.tmp]
    env := e.environ ++ ["PYTHONHASHSEED=0".toList] ++
      (if pythonPath = [] then [] else
        ["PYTHONPATH=".toList ++ join [':'] (pythonPath.map (fun d => pathJoin [render true e.tmp, d]) ++
          (if e.pythonPath = [] then [] else [e.pythonPath]))]) ++
      (if clampTime = zeroTime then [] else ["SOURCE_DATE_EPOCH=".toList ++ itoa (clampTime / 1000000000)]) }

/-- py_compile.go:156-187: the function given to `fs.WalkDir`, for all paths it visits -/
def collect (tmp : List Str) (h : Host) : List (List Str) → Except Unit (List Ref)
  | [] => .ok []
  | q :: qs =>
    match h (tmp ++ q) with
    | some (.leaf c i) =>
      if hasSuffix (render false q) ".pyc".toList then
        match c with
        | none => .error ()
        | some c =>
          match collect tmp h qs with
          | .error x => .error x
          | .ok rs => .ok (.other ⟨render false q, some i, some c⟩ :: rs)
      else collect tmp h qs
    | _ => collect tmp h qs

/-- `os.RemoveAll` -/
def removeAll (h : Host) (p : List Str) : Host := fun q => if p.isPrefixOf q then none else h q

/-- py_compile.go:48-188: the function that `ExternalCompiler` returns: what it leaves behind, and what it returns -/
def externalCompile (e : Machine) (exe : Str) (words : List Str) (clampTime : Int) (pythonPath : List Str) (srcs : List Ref) (h : Host) :
    Host × Except Unit (List Ref) :=
  match writeFiles e (h.set e.tmp .dir) srcs with
  | (h1, false) => (removeAll h1 e.tmp, .error ())
  | (h1, true) =>
    match e.run (compileCmd e exe words clampTime pythonPath) h1 with
    | (h2, false) => (removeAll h2 e.tmp, .error ())
    | (h2, true) =>
      match e.walk h2 with
      | none => (removeAll h2 e.tmp, .error ())
      | some qs => (removeAll h2 e.tmp, collect e.tmp h2 qs)

/-- the compiler for `InstallWheel` on such a machine -/
def externalCompiler (e : Machine) (exe : Str) (words : List Str) (h : Host) : Int → List Str → List Ref → Except Unit (List Ref) :=
  fun t dirs srcs => (externalCompile e exe words t dirs srcs h).2

end Bdist
