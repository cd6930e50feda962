import Verif.Squash.ViewSpec
/-! Where the entries of two layers meet. -/
namespace Squash.Spec
open Go

/-- the entry puts a file, directory or link at this path -/
def Puts (e : Entry) (q : List Str) : Prop := ¬ isMarkerEntry e ∧ q = pathOf e

/-- the entry removes what is at this path: it is an opaque marker in a directory above; or a whiteout of the path or of a directory above;
or a file, or link, above -/
def Removes (e : Entry) (q : List Str) : Prop :=
  (∃ d, pathOf e = d ++ [".wh..wh..opq".toList] ∧ d <+: q ∧ q ≠ d) ∨
  (∃ d x, pathOf e = d ++ [".wh.".toList ++ x] ∧ x ≠ ".wh..opq".toList ∧ d ++ [x] <+: q) ∨
  (¬ isMarkerEntry e ∧ isFile (nodeOf e) ∧ pathOf e <+: q ∧ q ≠ pathOf e)

/-- the path is that of a directory above the entry's -/
def Above (e : Entry) (q : List Str) : Prop := q <+: pathOf e ∧ q ≠ pathOf e

/-- what the first of two entries does is no different for the second, at every path -/
def Spares (e f : Entry) : Prop :=
  ∀ q, (Puts e q → Puts f q → nodeOf e = nodeOf f) ∧ (Puts e q → ¬ Removes f q) ∧
    (Puts e q → Above f q → ¬ isFile (nodeOf e)) ∧ (Removes e q → ¬ Above f q)

/-- two layers that get along: neither removes or replaces what the other one brings; both may have the same directories, and the same files -/
def GetAlong (a b : List Entry) : Prop := ∀ e ∈ a, ∀ f ∈ b, Spares e f ∧ Spares f e

/-- whatever `a` has, `b` has again: an entry at the same path, which is a directory only if that of `a` is one -/
def Shadows (b a : List Entry) : Prop :=
  ∀ e ∈ a, ∃ f ∈ b, pathOf f = pathOf e ∧ (isFile (nodeOf e) → isFile (nodeOf f))

end Squash.Spec
