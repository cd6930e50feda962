/-! Model of pkg/testutil/quick.go.  Values given to the functions under test are of an arbitrary type `V`; a function
is what it does for an argument list, `none` being a panic (also `reflect.Value.Call`'s own panic for an argument of the
wrong type).  Outer `none` is a panic of the checker. -/
namespace Testutil

/-- pkg/testutil/quick.go:17-22, 48-53: how `quick.Check` or `quick.CheckEqual` ended -/
inductive Random where
  | ok
  | setupError
  | counterexample
  deriving DecidableEq

/-- pkg/testutil/quick.go:18, 27, 36, 60, 71: what is reported to `t`; each report fails the test.  Simplified: not the
text, but the position and arguments it names. -/
inductive Report (V : Type) where
  | random
  | size (i : Nat)
  | static (i : Nat) (args : List V)
  deriving DecidableEq

/-- pkg/testutil/quick.go:31-34: `args` of static case `i`, all of them `tc[i]` as the code stands; an index that is out
of range panics, but only if there is an argument to fill -/
def checkArgs {V : Type} (i : Nat) (tc : List V) : Option (List V) :=
  if tc = [] then some [] else (tc[i]?).map (List.replicate tc.length)

/-- pkg/testutil/quick.go:25-41: the loop over the static cases of `QuickCheck`, at case `i` -/
def checkLoop {V : Type} (numIn : Nat) (fn : List V → Option Bool) : Nat → List (List V) → Option (List (Report V))
  | _, [] => some []
  | i, tc :: tcs =>
    if tc.length ≠ numIn then
      (checkLoop numIn fn (i + 1) tcs).map (Report.size i :: ·)
    else
      match checkArgs i tc with
      | none => none
      | some args =>
        match fn args with
        | none => none
        | some true => checkLoop numIn fn (i + 1) tcs
        | some false => (checkLoop numIn fn (i + 1) tcs).map (Report.static i args :: ·)

/-- pkg/testutil/quick.go:15-42 `QuickCheck`: the reports, given how the random part ended -/
def quickCheck {V : Type} (numIn : Nat) (fn : List V → Option Bool) (random : Random) (tcs : List (List V)) :
    Option (List (Report V)) :=
  match random with
  | .setupError => some [Report.random]
  | .counterexample => (checkLoop numIn fn 0 tcs).map (Report.random :: ·)
  | .ok => checkLoop numIn fn 0 tcs

/-- pkg/testutil/quick.go:57-79: the loop over the static cases of `QuickCheckEqual`, at case `i`.  The results are of
an arbitrary type `W`; simplified: `reflect.DeepEqual` is equality. -/
def equalLoop {V W : Type} [DecidableEq W] (numIn : Nat) (f g : List V → Option W) :
    Nat → List (List V) → Option (List (Report V))
  | _, [] => some []
  | i, tc :: tcs =>
    if tc.length ≠ numIn then
      (equalLoop numIn f g (i + 1) tcs).map (Report.size i :: ·)
    else
      match f tc, g tc with
      | some r1, some r2 =>
        if r1 = r2 then equalLoop numIn f g (i + 1) tcs
        else (equalLoop numIn f g (i + 1) tcs).map (Report.static i tc :: ·)
      | _, _ => none

/-- pkg/testutil/quick.go:46-80 `QuickCheckEqual` -/
def quickCheckEqual {V W : Type} [DecidableEq W] (numIn : Nat) (f g : List V → Option W) (random : Random)
    (tcs : List (List V)) : Option (List (Report V)) :=
  match random with
  | .setupError => some [Report.random]
  | .counterexample => (equalLoop numIn f g 0 tcs).map (Report.random :: ·)
  | .ok => equalLoop numIn f g 0 tcs

end Testutil
