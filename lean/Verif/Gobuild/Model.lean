import Verif.Bdist.ExtCompile
/-!
pkg/gobuild/gobuild.go `LayerFromGo` and the whole of cmd_layer_gobuild.go.

The file system of the machine and commands are as in `Verif/Bdist/ExtCompile.lean`; the layer is made by the model of
pkg/dir in `Verif/Fsutil/Model.lean`.  Not modelled: the context (a cancelled context makes the command fail), compression
options of the layer.
-/
namespace Gobuild
open Go Fsutil Bdist

/-- the machine: the directory that `os.MkdirTemp` makes (`none` = error), the environment, what running a command does (and
whether it succeeds), what `filepath.Walk` reports for a directory, what `os.RemoveAll` does (and whether it succeeds), which
headers `tar.Writer.WriteHeader` takes, and the zero `time.Time` -/
structure GoMachine where
  tmp : Option (List Str)
  environ : List Str
  run : Cmd → Host → Host × Bool
  walk : Host → List Str → List WalkItem
  remove : Host → List Str → Host × Bool
  accepts : Hdr → Bool
  zeroTime : Int

/-- gobuild.go:37-48: the command -/
def goCmd (environ : List Str) (tmp : List Str) (pkgs : List Str) : Cmd :=
  { exe := "go".toList
    args := ["build".toList, "-trimpath".toList, "-o".toList, render true tmp, "--".toList] ++ pkgs
    env := environ ++ ["GOOS=linux".toList, "GOARCH=amd64".toList] }

/-- gobuild.go:54-59 -/
def goOwner : Ownership := ⟨0, "root".toList, 0, "root".toList⟩

/-- gobuild.go:60-64 -/
def goPrefix : Prefix := ⟨"usr/local/bin".toList, 0, goOwner⟩

/-- what a call leaves behind: the file system, the commands that it ran, and the result -/
structure GoOut where
  host : Host
  ran : List Cmd
  res : Except Unit (List (Hdr × Bytes))

/-- gobuild.go:22-26 and 32-34: the deferred function, on the result so far.  (When `os.RemoveAll` fails after all else went
well, the layer is returned together with the error; here there is only the error.) -/
def finish (m : GoMachine) (tmp : List Str) (cmd : Cmd) (h : Host) (r : Except Unit (List (Hdr × Bytes))) : GoOut :=
  { host := (m.remove h tmp).1, ran := [cmd], res := if (m.remove h tmp).2 then r else .error () }

/-- gobuild.go:16-65 `LayerFromGo`; `n` bounds the loop over the prefix (dir.go:56), `none` = it goes on -/
def layerFromGo (n : Nat) (m : GoMachine) (clampTime : Int) (pkgs : List Str) (h : Host) : Option GoOut :=
  match m.tmp with
  | none => some ⟨h, [], .error ()⟩
  | some t =>
    match m.run (goCmd m.environ t pkgs) (h.set t .dir) with
    | (h1, false) => some (finish m t (goCmd m.environ t pkgs) h1 (.error ()))
    | (h1, true) =>
      (layerFromDir n m.accepts (some goPrefix) (some goOwner) m.zeroTime clampTime (m.walk h1 t)).map
        (finish m t (goCmd m.environ t pkgs) h1)

/-- a layer made of these entries, as a `tar.Reader` delivers it (archive/tar, for headers without given format, as
here): the modification time is rounded to the second, access and change time are not recorded.  Simplified: times, sizes
and names that need PAX records. -/
def asRead (zeroTime : Int) (es : List (Hdr × Bytes)) : Arch :=
  { entries := es.map (fun e => ({ e.1 with modTime := roundSecond e.1.modTime, accessTime := zeroTime, changeTime := zeroTime },
      ⟨[e.2], .eof⟩))
    tail := .eof }

/-- where the command writes: to the standard output (and whether that works), or to the file given with `--output` (what
`OpenLayer` finds there, by the state of the file system; and whether it can be replaced) -/
inductive Dest where
  | stdout (works : Bool)
  | file (old : Host → Old) (writable : Bool)

/-- cmd_layer_gobuild.go:31-81: the command, on its arguments: what `LayerFromGo` leaves behind and the outcome.  `k` bounds
the reading when layers are compared. -/
def command (n k : Nat) (m : GoMachine) (now : Int) (args : List Str) (dest : Dest) (h : Host) : Option (Host × List Cmd × Outcome) :=
  if args.length < 1 then some (h, [], .failed)
  else
    (layerFromGo n m now args h).bind fun o =>
      match o.res with
      | .error _ => some (o.host, o.ran, .failed)
      | .ok es =>
        match dest with
        | .stdout works => some (o.host, o.ran, if works then .written else .failed)
        | .file old writable =>
          (gobuildOutput k (old o.host) (.ok (asRead m.zeroTime es, false)) writable).map fun r => (o.host, o.ran, r)

end Gobuild
