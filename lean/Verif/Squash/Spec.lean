import Verif.Squash.Model
/-! Notions used to state the properties of pkg/squash. -/
namespace Squash.Spec
open Go

/-- the elements of a file name in a tar archive, "." being the root -/
def comps (name : Str) : List Str := (split '/' name).filter (fun c => c ≠ [] ∧ c ≠ ".".toList)

/-- whiteout markers are the names that start with ".wh." -/
def isMarker (c : Str) : Prop := ".wh.".toList <+: c

/-- the order of the entries of one directory: markers first, then by name -/
def sibBefore (c d : Str) : Prop := isMarker c ∧ ¬ isMarker d ∨ (isMarker c ↔ isMarker d) ∧ c < d

/-- the canonical order of a layer: a directory before its contents, siblings as above -/
def before : List Str → List Str → Prop
  | [], [] => False
  | [], _ :: _ => True
  | _ :: _, [] => False
  | c :: p, d :: q => sibBefore c d ∨ c = d ∧ before p q

/-- a name outside the image root, after cleaning -/
def Outside (name : Str) : Prop :=
  "/".toList <+: clean name ∨ clean name = "..".toList ∨ "../".toList <+: clean name

/-- a name as it should be in a layer: relative, clean (apart from one slash at the end of a directory's), without ".." -/
def GoodName (e : Entry) : Prop :=
  ∃ s, e.header.name = (if e.header.typeflag = '5' then s ++ "/".toList else s) ∧
    clean s = s ∧ ¬ "/".toList <+: s ∧ "..".toList ∉ split '/' s

end Squash.Spec
