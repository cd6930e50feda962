import Mathlib.Data.List.Forall2
import Verif.Python.Config
/-! What `Interpolate` is for: every value is replaced by what the function makes of it. -/
namespace Python.Spec
open Go

/-- going over the maps visits every option, given by section and key, once -/
def Visits (c : Config) (order : List (Str × Str)) : Prop :=
  order.Nodup ∧ ∀ s k, (s, k) ∈ order ↔ ∃ e ∈ c, e.1 = s ∧ ∃ o ∈ e.2, o.1 = k

/-- `c` has the sections and options of `raw`, with values that are related to the ones in `raw` by `R` -/
def Values (R : Str → Str → Prop) (raw c : Config) : Prop :=
  List.Forall₂ (fun e e' => e'.1 = e.1 ∧ List.Forall₂ (fun o o' => o'.1 = o.1 ∧ R o.2 o'.2) e.2 e'.2) raw c

/-- every value is replaced by what `interp` makes of it in the configuration as it is written -/
def Interpolated (interp : Config → Str → Except Unit Str) (raw c : Config) : Prop := Values (fun v v' => interp raw v = .ok v') raw c

/-- for the values written in it, `interp` gives the same when some of the values are replaced already -/
def Stable (interp : Config → Str → Except Unit Str) (raw : Config) : Prop :=
  ∀ c, Values (fun v v' => v' = v ∨ interp raw v = .ok v') raw c → ∀ e ∈ raw, ∀ o ∈ e.2, interp c o.2 = interp raw o.2

end Python.Spec
