import Verif.Go.Basic
/-! Model of cmd_image_build.go: what happens to the image config. -/
namespace Cli
open Go

/-- `ociv1.Config`.  The fields the program can change, and all others (type `α`) together.  A nil slice is `none`. -/
structure ImgConfig (α : Type) where
  env : Option (List Str)
  entrypoint : Option (List Str)
  cmd : Option (List Str)
  workingDir : Str
  others : α

/-- cmd_image_build.go:19-40 `configFlags` -/
structure ConfigFlags where
  envClear : Bool
  envAppend : Option (List Str)
  entrypoint : Option (List Str)
  cmd : Option (List Str)
  workingDir : Str
deriving DecidableEq

/-- cmd_image_build.go:70-74 `IsZero` -/
def ConfigFlags.isZero (f : ConfigFlags) : Bool :=
  !f.envClear && f.envAppend.isNone && f.entrypoint.isNone && f.cmd.isNone && f.workingDir.isEmpty

/-- `append(a, b...)` (built-in), with nil slices -/
def appendSlice (a b : Option (List Str)) : Option (List Str) :=
  match b with
  | none => a
  | some [] => a
  | some (x :: xs) => some (a.getD [] ++ x :: xs)

/-- cmd_image_build.go:76-117 `ApplyTo` -/
def ConfigFlags.applyTo {α : Type} (f : ConfigFlags) (c : ImgConfig α) : ImgConfig α :=
  let c := if f.envClear then { c with env := none } else c
  let c := { c with env := appendSlice c.env f.envAppend }
  let c := if f.entrypoint.isSome then { c with entrypoint := f.entrypoint } else c
  let c := if f.cmd.isSome then { c with cmd := f.cmd } else c
  if f.workingDir ≠ [] then { c with workingDir := f.workingDir } else c

/-- cmd_image_build.go:161-170: the config of the resulting image, given that of the base with the layers appended
(go-containerregistry's `mutate.AppendLayers` leaves it as it is, `mutate.Config` sets it) -/
def buildConfig {α : Type} (f : ConfigFlags) (c : ImgConfig α) : ImgConfig α :=
  if !f.isZero then f.applyTo c else c

/-- the values pflag stores for the flags given on the command line, in order: `StringArrayVar` gives nil if the flag does not
occur and otherwise the list of its values; `StringVar` the last value; `BoolVar` true when given -/
structure CmdLine where
  clear : Bool
  append : List Str
  entrypoint : List Str
  cmd : List Str
  workingDir : Option Str

/-- pflag leaves the variable of a `StringArray` flag that is not used nil -/
def nilIfEmpty (l : List Str) : Option (List Str) := if l = [] then none else some l

/-- cmd_image_build.go:42-68 `AddFlagsTo` -/
def CmdLine.flags (l : CmdLine) : ConfigFlags :=
  ⟨l.clear, nilIfEmpty l.append, nilIfEmpty l.entrypoint, nilIfEmpty l.cmd, l.workingDir.getD []⟩

end Cli
