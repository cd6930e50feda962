import Verif.Cli.Cobra
import Verif.Cli.Image
import Verif.Fsutil.Model
/-!
Model of the values the commands read: pflag's storage of the uses of flags, the variables of cmd_image_build.go and
cmd_layer_dir.go, and pkg/fsutil/write.go.
-/
namespace Cobra
open Go

/-- pflag's `stringValue`: every use overwrites the variable -/
def strVal (us : List Use) (name : String) (dflt : String) : Str :=
  us.foldl (fun v u => if u.1 = name.toList then u.2 else v) dflt.toList

/-- pflag's `boolValue`: every use overwrites the variable with `strconv.ParseBool` of the value -/
def boolVal (us : List Use) (name : String) : Bool :=
  us.foldl (fun v u => if u.1 = name.toList then trues.contains u.2 else v) false

/-- pflag's `intValue`: every use overwrites the variable with `strconv.ParseInt(value, 0, 64)`, the parameter
`parseInt`; values that it does not accept are not stored (the program ends) -/
def intVal (parseInt : Str → Option Int) (us : List Use) (name : String) (dflt : Int) : Int :=
  us.foldl (fun v u => if u.1 = name.toList then (parseInt u.2).getD v else v) dflt

/-- pflag's `stringArrayValue`, with default nil: the first use makes the list, every other one appends -/
def arrVal (us : List Use) (name : String) : Option (List Str) :=
  us.foldl (fun v u => if u.1 = name.toList then some (v.getD [] ++ [u.2]) else v) none

/-- cmd_image_build.go:42-68 `AddFlagsTo` with the prefix `config.` (cmd_image_build.go:181) -/
def configOf (us : List Use) : Cli.ConfigFlags :=
  ⟨boolVal us "config.Env.clear", arrVal us "config.Env.append", arrVal us "config.Entrypoint",
    arrVal us "config.Cmd", strVal us "config.WorkingDir" ""⟩

/-- cmd_layer_dir.go:15-16,38-58: the variables `flagPrefix` and `flagChOwn`, and cmd_layer_dir.go:22-26: the
arguments of `dir.LayerFromDir` -/
def dirOf (parseInt : Str → Option Int) (us : List Use) : Option Fsutil.Prefix × Fsutil.Ownership :=
  let p : Fsutil.Prefix :=
    ⟨strVal us "prefix" "", 0,
      ⟨intVal parseInt us "prefix-uid" 0, strVal us "prefix-uname" "root", intVal parseInt us "prefix-gid" 0,
        strVal us "prefix-gname" "root"⟩⟩
  (if p.dirName ≠ [] then some p else none,
    ⟨intVal parseInt us "chown-uid" (-1), strVal us "chown-uname" "", intVal parseInt us "chown-gid" (-1),
      strVal us "chown-gname" "root"⟩)

end Cobra
