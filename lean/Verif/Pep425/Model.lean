import Verif.Go.Basic
/-! Model of /repo/pkg/python/pep425/tags.go (compatibility tags). -/
namespace Pep425
open Go

/-- tags.go:11-15 `Tag` -/
structure Tag where
  python : Str
  abi : Str
  platform : Str
deriving DecidableEq, Repr

/-- tags.go:17-27 `Tag.Decompress` -/
def Tag.decompress (t : Tag) : List Tag :=
  (split '.' t.python).flatMap fun x => (split '.' t.abi).flatMap fun y => (split '.' t.platform).map fun z => ⟨x, y, z⟩

/-- tags.go:29-39 `ParseTag` (and 49-56 `UnmarshalText`) -/
def parseTag (str : Str) : Except Unit Tag :=
  match split '-' str with
  | [p, a, l] => .ok ⟨p, a, l⟩
  | _ => .error ()

/-- tags.go:41-43 `Tag.String` (and 45-47 `MarshalText`) -/
def Tag.string (t : Tag) : Str := t.python ++ '-' :: (t.abi ++ '-' :: t.platform)

/-- tags.go:60-73 `Intersect`; the four nested loops with early return as nested `any` -/
def intersect (a b : List Tag) : Bool :=
  a.any fun a1 => a1.decompress.any fun a2 => b.any fun b1 => b1.decompress.any fun b2 => a2 == b2

/-- tags.go:81-85 `Installer`, `Supports` -/
def supports (inst : List Tag) (t : Tag) : Bool := intersect inst [t]

/-- the loop of `Preference`, tags.go:91-95: `i` the index of the head of the list -/
def preferenceLoop (t : Tag) (len : Nat) : Nat → List Tag → Nat
  | _, [] => len + 1
  | i, it :: rest => if intersect [it] [t] then i + 1 else preferenceLoop t len (i + 1) rest

/-- tags.go:87-97 `Preference` -/
def preference (inst : List Tag) (t : Tag) : Nat := preferenceLoop t inst.length 0 inst

end Pep425
