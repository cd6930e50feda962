import Verif.Go.Basic
/-! Specification helpers for names: runs of separator characters, and the shape of wheel file names. -/
namespace Bdist.Spec
open Go

/-- `Replaced p r s t`: `t` is `s` with every maximal run of characters satisfying `p` replaced by the single
character `r` -/
inductive Replaced (p : Char → Bool) (r : Char) : Str → Str → Prop
  | nil : Replaced p r [] []
  | keep {c s t} : p c = false → Replaced p r s t → Replaced p r (c :: s) (c :: t)
  | run {w s t} : w ≠ [] → (∀ c ∈ w, p c = true) → (∀ c u, s = c :: u → p c = false) → Replaced p r s t →
      Replaced p r (w ++ s) (r :: t)

/-- dash, underscore or dot -/
def IsSep (c : Char) : Bool := c ∈ ['-', '_', '.']

/-- a component of a wheel file name: non-empty, no dash -/
def Component (w : Str) : Prop := w ≠ [] ∧ '-' ∉ w

/-- the build component: digits, then nothing or something that starts with neither digit nor dash -/
def BuildComponent (digits rest : Str) : Prop :=
  digits ≠ [] ∧ (∀ c ∈ digits, c ∈ "0123456789".toList) ∧ '-' ∉ rest ∧ ∀ c u, rest = c :: u → c ∉ "0123456789".toList

/-- a wheel file name: components joined by dashes, the build component optional, `.whl` at the end -/
def wheelName (components : List Str) : Str := join "-".toList components ++ ".whl".toList

end Bdist.Spec
