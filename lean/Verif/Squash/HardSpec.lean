import Verif.Squash.ViewSpec
/-! The meaning of hard links in layers, independent of pkg/squash: extracting a layer, a hard link becomes another name
of the file that is at its target at that moment. -/
namespace Squash.Spec
open Go

/-- the path that a hard link names -/
def targetOf (h : Header) : List Str := comps (clean h.linkname)

/-- the entry is a hard link (`tar.TypeLink`) -/
def isHardLink (e : Entry) : Prop := e.header.typeflag = '1' ∧ ¬ isMarkerEntry e

instance (e : Entry) : Decidable (isHardLink e) := inferInstanceAs (Decidable (_ ∧ _))

/-- extracting one entry: a hard link puts the file at its target also at its own path, and fails if there is none.
Extracting replaces files and never writes into them, so two names of a file need not be told from two copies of it. -/
def extractEntry (V : View) (e : Entry) : Option View :=
  if isHardLink e then
    match V (targetOf e.header) with
    | some nd => if isFile nd then some (applyAt V (pathOf e) nd) else none
    | none => none
  else some (apply V e)

/-- extracting entries in order; `none` if extracting one of them fails -/
def extract : View → List Entry → Option View
  | V, [] => some V
  | V, e :: es => (extractEntry V e).bind (fun W => extract W es)

/-- extracting a layer, and layers one after another -/
def extractLayer (V : View) (l : List Entry) : Option View := extract V (inOrder l)
def extractLayers (V : View) (layers : List (List Entry)) : Option View := extract V (layers.flatMap inOrder)

/-- the node is that of a hard link -/
def isHardNode (nd : Node) : Prop := ∃ h, nd.header = some h ∧ h.typeflag = '1'

/-- an extracted file system: its root is a directory, and hard links have become files -/
structure Extracted (V : View) : Prop where
  root : ∃ nd, V [] = some nd ∧ ¬ isFile nd
  nohard : ∀ q nd, V q = some nd → ¬ isHardNode nd

end Squash.Spec
