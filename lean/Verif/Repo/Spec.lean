import Verif.Repo.Model
import Verif.Bdist.NameSpec
/-! Specification vocabulary for the simple repository client. -/
namespace Repo.Spec
open Go

/-- ASCII lower case -/
def asciiLower (c : Char) : Char := if 65 ≤ c.toNat ∧ c.toNat ≤ 90 then Char.ofNat (c.toNat + 32) else c

/-- equal up to ASCII case and the choice of separators: letter by letter, and a run of separators against a run of
separators -/
inductive SameName : Str → Str → Prop
  | nil : SameName [] []
  | letter {c d s t} : Bdist.Spec.IsSep c = false → Bdist.Spec.IsSep d = false → asciiLower c = asciiLower d →
      SameName s t → SameName (c :: s) (d :: t)
  | seps {w x s t} : w ≠ [] → x ≠ [] → (∀ c ∈ w, Bdist.Spec.IsSep c = true) → (∀ c ∈ x, Bdist.Spec.IsSep c = true) →
      (∀ c u, s = c :: u → Bdist.Spec.IsSep c = false) → (∀ c u, t = c :: u → Bdist.Spec.IsSep c = false) →
      SameName s t → SameName (w ++ s) (x ++ t)

/-- a project name: ASCII letters, digits, dot, dash, underscore -/
def ValidName (s : Str) : Prop := ∀ c ∈ s, c ∈ "abcdefghijklmnopqrstuvwxyzABCDEFGHIJKLMNOPQRSTUVWXYZ0123456789.-_".toList

mutual
/-- all nodes of a tree in document order -/
def nodes : Node → List Node
  | .mk k d a cs => .mk k d a cs :: nodesList cs
def nodesList : List Node → List Node
  | [] => []
  | n :: ns => nodes n ++ nodesList ns
end

/-- `n` is an element named `name` -/
def IsElem (name : String) (n : Node) : Prop := n.kind = .element ∧ n.data = name.toList

/-- the value of the first attribute with this (unprefixed) name -/
def attrVal (n : Node) (name : String) : Option Str :=
  (n.attrs.find? (fun a => a.ns = [] ∧ a.key = name.toList)).map (·.val)

/-- the repository version a node declares -/
def declares (n : Node) : Option Str :=
  if n.kind = .element ∧ n.data = "meta".toList ∧ attrVal n "name" = some "pypi:repository-version".toList then
    attrVal n "content"
  else none

end Repo.Spec
