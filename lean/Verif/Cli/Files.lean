import Verif.Squash.Model
import Verif.Cli.Image
/-!
pkg/fsutil/open.go, and the commands cmd_layer_squash.go and cmd_image_build.go as wholes.

Files are bytes; what the libraries make of the bytes of an archive is a parameter (`Formats`).
-/
namespace Cli
open Go

/-- the bytes of a file -/
abbrev FileBytes := List UInt8

/-- what is at a path: a regular file, or a pipe, which delivers its bytes only once -/
inductive FileKind where
  | regular
  | pipe
deriving DecidableEq

/-- the files of the machine -/
abbrev Files := Str → Option (FileKind × FileBytes)

/-- reading a file to its end: a pipe is empty afterwards -/
def readFile (w : Files) (name : Str) : Files × Except Unit FileBytes :=
  match w name with
  | none => (w, .error ())
  | some (.regular, c) => (w, .ok c)
  | some (.pipe, c) => (fun f => if f = name then some (.pipe, []) else w f, .ok c)

/-- `ociv1tarball.Opener`, with all bytes read from what it opens -/
abbrev Opener := Files → Files × Except Unit FileBytes

/-- open.go:13-39 `PathOpener` -/
def pathOpener (name : Str) (w : Files) : Files × Opener :=
  match w name with
  | none => (w, fun w => (w, .error ()))
  | some (.regular, _) => (w, fun w => readFile w name)
  | some (.pipe, _) => ((readFile w name).1, fun w' => (w', (readFile w name).2))

/-- an image: the bytes of its layers, lowest first, and its config -/
structure Image (α : Type) where
  layers : List FileBytes
  config : ImgConfig α

/-- what go-containerregistry and archive/tar do with the bytes of a file: `isLayer` tells whether `LayerFromOpener` accepts
them; `entries` is what a tar reader delivers of the uncompressed layer; `image` the image in an archive, without looking
at its layers; `complete` tells whether all layers of that image are there -/
structure Formats (α : Type) where
  isLayer : FileBytes → Bool
  entries : FileBytes → Except Unit (List Squash.Entry)
  image : FileBytes → Except Unit (Image α)
  complete : FileBytes → Bool

/-- using an opener `k` times, until it fails -/
def useOpener (k : Nat) (op : Opener) (ok : FileBytes → Bool) (w : Files) : Files × Bool :=
  match k with
  | 0 => (w, true)
  | k + 1 =>
    match op w with
    | (w1, .error _) => (w1, false)
    | (w1, .ok c) => if ok c then useOpener k op ok w1 else (w1, false)

/-- open.go:53-63 `OpenLayer`.  `LayerFromOpener` (go-containerregistry) opens the file `k` times. -/
def openLayer {α : Type} (F : Formats α) (k : Nat) (name : Str) (w : Files) : Files × Except Unit Opener :=
  let (w1, op) := pathOpener name w
  match useOpener k op F.isLayer w1 with
  | (w2, true) => (w2, .ok op)
  | (w2, false) => (w2, .error ())

/-- open.go:41-51 `OpenImage`; likewise -/
def openImage {α : Type} (F : Formats α) (k : Nat) (name : Str) (w : Files) : Files × Except Unit Opener :=
  let (w1, op) := pathOpener name w
  match useOpener k op (fun c => match F.image c with | .ok _ => true | .error _ => false) w1 with
  | (w2, true) => (w2, .ok op)
  | (w2, false) => (w2, .error ())

/-- cmd_layer_squash.go:20-27 and cmd_image_build.go:148-155: all layers, until one fails -/
def openLayers {α : Type} (F : Formats α) (k : Nat) : List Str → Files → Files × Except Unit (List Opener)
  | [], w => (w, .ok [])
  | a :: as, w =>
    match openLayer F k a w with
    | (w1, .error x) => (w1, .error x)
    | (w1, .ok op) =>
      match openLayers F k as w1 with
      | (w2, .error x) => (w2, .error x)
      | (w2, .ok ops) => (w2, .ok (op :: ops))

/-- reading opened layers, one after the other -/
def readLayers : List Opener → Files → Files × Except Unit (List FileBytes)
  | [], w => (w, .ok [])
  | op :: ops, w =>
    match op w with
    | (w1, .error x) => (w1, .error x)
    | (w1, .ok c) =>
      match readLayers ops w1 with
      | (w2, .error x) => (w2, .error x)
      | (w2, .ok cs) => (w2, .ok (c :: cs))

/-- the entries of each layer -/
def untarAll {α : Type} (F : Formats α) : List FileBytes → Except Unit (List (List Squash.Entry))
  | [] => .ok []
  | c :: cs =>
    match F.entries c with
    | .error x => .error x
    | .ok l =>
      match untarAll F cs with
      | .error x => .error x
      | .ok ls => .ok (l :: ls)

/-- cmd_layer_squash.go:18-38: the entries of the layer that is written, for the given arguments.  Simplified: all layers are
read before the first is loaded (so if the second cannot be read there is an error even if loading the first would not
return). -/
def squashCommand {α : Type} (F : Formats α) (k n : Nat) (sortSlice : (Str → Str → Bool) → List Str → List Str)
    (order : Squash.Path → List Str → List Str) (args : List Str) (w : Files) : Squash.Res (List Squash.Entry) :=
  if args.length < 2 then some (.error ())
  else
    match openLayers F k args w with
    | (_, .error x) => some (.error x)
    | (w1, .ok ops) =>
      match readLayers ops w1 with
      | (_, .error x) => some (.error x)
      | (_, .ok cs) =>
        match untarAll F cs with
        | .error x => some (.error x)
        | .ok ls => Squash.squash n sortSlice order ls

/-- cmd_image_build.go:120-124: the flags.  An empty string stands for a flag that is not given. -/
structure BuildFlags where
  base : Str
  tag : Str
  config : ConfigFlags

/-- cmd_image_build.go:130-137: `none` is the empty image -/
def openBase {α : Type} (F : Formats α) (k : Nat) (base : Str) (w : Files) : Files × Except Unit (Option Opener) :=
  if base = [] then (w, .ok none)
  else
    match openImage F k base w with
    | (w1, .error x) => (w1, .error x)
    | (w1, .ok op) => (w1, .ok (some op))

/-- `empty.Image` (go-containerregistry) is `emptyImage`; an opened base image is read again when it is needed.  `none`: the
archive cannot be read to the end of its layers. -/
def readBase {α : Type} (F : Formats α) (emptyImage : Image α) (base : Option Opener) (w : Files) : Files × Option (Image α) :=
  match base with
  | none => (w, some emptyImage)
  | some op =>
    match op w with
    | (w1, .error _) => (w1, none)
    | (w1, .ok c) =>
      match F.image c with
      | .error _ => (w1, none)
      | .ok i => (w1, if F.complete c then some i else none)

/-- cmd_image_build.go:129-176: the image that is written, and its tag; `none` is a panic.  `mutate.AppendLayers` and
`mutate.Config` (go-containerregistry) compute the new image when it is asked for: if that fails, `ConfigFile` at 163 returns
nil and an error, which is ignored, and the nil pointer is followed at 165; without changes to the config it is `Write` that
fails. -/
def buildCommand {α : Type} (F : Formats α) (k : Nat) (emptyImage : Image α) (validTag : Str → Bool) (flags : BuildFlags) (args : List Str)
    (w : Files) : Squash.Res (Image α × Option Str) :=
  if args.length < 1 then some (.error ())
  else
    match openBase F k flags.base w with
    | (_, .error x) => some (.error x)
    | (w1, .ok base) =>
      if flags.tag ≠ [] ∧ validTag flags.tag = false then some (.error ())
      else
        match openLayers F k args w1 with
        | (_, .error x) => some (.error x)
        | (w2, .ok ops) =>
          match readLayers ops w2 with
          | (_, .error x) => some (.error x)
          | (w3, .ok cs) =>
            match readBase F emptyImage base w3 with
            | (_, none) => if flags.config.isZero then some (.error ()) else none
            | (_, some i) =>
              some (.ok (⟨i.layers ++ cs, buildConfig flags.config i.config⟩, if flags.tag = [] then none else some flags.tag))

end Cli
