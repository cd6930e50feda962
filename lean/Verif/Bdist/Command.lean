import Verif.Bdist.Hooks
/-!
Model of /repo/cmd_layer_wheel.go: the command `ocibuild layer wheel`, from the platform to the layer.

Not modelled: reading the platform file and writing the layer.
-/
namespace Bdist
open Go Fsutil Python

/-- cmd_layer_wheel.go:87-94: the hook; the parameters are the orders in which the hooks visit maps -/
def commandHook (env : HookEnv) (guiFirst : Bool) (orderS : List (Str × Str) → List (Str × Str)) (orderR : Map Ref → Map Ref) (plat : Platform) : Hook :=
  postInstallHooks [scriptsHook env guiFirst orderS plat, recordHook env orderR "sha256".toList "ocibuild layer wheel".toList none]

/-- cmd_layer_wheel.go:82-95: the call of `InstallWheel`, for every order in which maps are visited.  Neither a lower nor an upper
bound for times is given. -/
def CommandRun (w : World) (env : HookEnv) (plat : Platform) (zip : List ZFile) (r : Outcome (List (Hdr × Bytes))) : Prop :=
  ∃ guiFirst orderS orderR, (∀ l, (orderS l).Perm l) ∧ (∀ m, (orderR m).Perm m) ∧
    InstallRun w plat none none (commandHook env guiFirst orderS orderR plat) zip r

end Bdist
