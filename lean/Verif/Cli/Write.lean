import Verif.Cli.Cobra
/-!
Model of pkg/fsutil/write.go and of the end of the `layer` commands: cmd_layer_dir.go:21-35, cmd_layer_gobuild.go,
cmd_layer_squash.go and cmd_layer_wheel.go each make a layer and then call `fsutil.WriteLayer(layer, os.Stdout)`.
-/
namespace Cobra
open Go

/-- what is read or written -/
abbrev Octets := List UInt8

/-- an uncompressed layer, as `ociv1.Layer.Uncompressed` gives it: whether opening fails; what the successive `Read`s
deliver; whether the last one fails (with an error other than `io.EOF`); whether `Close` fails -/
structure Source where
  openErr : Bool
  chunks : List Octets
  readErr : Bool
  closeErr : Bool

/-- an `io.Writer`: given what was written before and what is to be written, the count and whether there is an error -/
abbrev Writer := Octets → Octets → Nat × Bool

/-- `io.Copy` (library): the bytes written in the end, and whether there is an error.  A `Write` that is short without
error is an error (`io.ErrShortWrite`), as is an impossible count (`errInvalidWrite`). -/
def copy (w : Writer) (readErr : Bool) : Octets → List Octets → Octets × Bool
  | out, [] => (out, readErr)
  | out, c :: cs =>
    if c = [] then copy w readErr out cs
    else
      let (n, e) := w out c
      let out' := out ++ c.take n
      if e then (out', true)
      else if n ≠ c.length then (out', true)
      else copy w readErr out' cs

/-- write.go:9-23 `WriteLayer` -/
def writeLayer (w : Writer) (s : Source) : Octets × Bool :=
  if s.openErr then ([], true)
  else
    let (out, err) := copy w s.readErr [] s.chunks
    (out, err || s.closeErr)

/-- the `RunE` of a `layer` command: `make` is the making of the layer, `none` for an error; what is written to stdout
and whether there is an error -/
def runLayer (w : Writer) (make : Option Source) : Octets × Bool :=
  match make with
  | none => ([], true)
  | some s => writeLayer w s

/-- the whole program, for the `layer` commands: the status, and what they write to stdout (help texts apart).
`make c us as` is the layer made. -/
def layerProcess (isInt : Str → Bool) (w : Writer) (make : Cmd → List Use → List Str → Option Source)
    (args : List Str) : Nat × Option Octets :=
  let r := process isInt (fun c us as => !(runLayer w (make c us as)).2) args
  (r.status, r.ran.map fun (c, us, as) => (runLayer w (make c us as)).1)

end Cobra
