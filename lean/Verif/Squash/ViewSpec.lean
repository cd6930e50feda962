import Verif.Squash.Spec
/-! The meaning of a stack of layers, independent of pkg/squash: a view gives the header and content at each path, and
each entry of a layer changes the view. -/
namespace Squash.Spec
open Go

/-- what is found at each path.  A directory that no entry described has no header. -/
abbrev View := List Str → Option Node

instance (c : Str) : Decidable (isMarker c) := inferInstanceAs (Decidable (_ <+: _))

/-- paths with no whiteout marker in them -/
def Visible (q : List Str) : Prop := ∀ c ∈ q, ¬ isMarker c

instance (q : List Str) : Decidable (Visible q) := inferInstanceAs (Decidable (∀ c ∈ q, ¬ isMarker c))

/-- not a directory -/
def isFile (nd : Node) : Prop := ∃ h, nd.header = some h ∧ h.typeflag ≠ '5'

instance (nd : Node) : Decidable (isFile nd) :=
  match e : nd.header with
  | none => .isFalse (by rintro ⟨h, h1, _⟩; rw [e] at h1; simp at h1)
  | some h => if hd : h.typeflag = '5' then .isFalse (by rintro ⟨h', h1, h2⟩; rw [e] at h1; injection h1 with h1; rw [h1] at hd; exact h2 hd)
    else .isTrue ⟨h, e, hd⟩

/-- an ancestor of an entry is a directory: it stays as it is if it is one, otherwise an undescribed one takes its place -/
def asDir (x : Option Node) : Node :=
  match x with
  | some nd => if isFile nd then ⟨none, []⟩ else nd
  | none => ⟨none, []⟩

/-- the effect of one entry with path `p`: its ancestors become directories; an opaque marker removes everything else in
its directory; a whiteout `.wh.x` removes `x` and everything below it; any other entry is put at its path, and removes
everything below unless it is a directory -/
def applyAt (V : View) (p : List Str) (nd : Node) : View := fun q =>
  if q <+: p ∧ q ≠ p then some (asDir (V q))
  else match p.getLast? with
    | some c =>
      if c = ".wh..wh..opq".toList then (if p.dropLast <+: q then none else V q)
      else if isMarker c then (if p.dropLast ++ [c.drop 4] <+: q then none else V q)
      else if q = p then some nd else if p <+: q ∧ isFile nd then none else V q
    | none => if q = p then some nd else if p <+: q ∧ isFile nd then none else V q

/-- the path of an entry -/
def pathOf (e : Entry) : List Str := comps (clean e.header.name)

/-- header and content of an entry, the name cleaned -/
def nodeOf (e : Entry) : Node := ⟨some { e.header with name := clean e.header.name }, e.body⟩

def apply (V : View) (e : Entry) : View := applyAt V (pathOf e) (nodeOf e)

/-- the entry is a whiteout or opaque marker -/
def isMarkerEntry (e : Entry) : Prop := ∃ c, (pathOf e).getLast? = some c ∧ isMarker c

instance (e : Entry) : Decidable (isMarkerEntry e) :=
  match h : (pathOf e).getLast? with
  | none => .isFalse (by rintro ⟨c, h1, _⟩; rw [h] at h1; simp at h1)
  | some c => if hm : isMarker c then .isTrue ⟨c, h, hm⟩
    else .isFalse (by rintro ⟨c', h1, h2⟩; rw [h] at h1; injection h1 with h1; rw [← h1] at h2; exact hm h2)

/-- a layer's entries in the order in which they take effect: the markers first -/
def inOrder (l : List Entry) : List Entry := l.filter (fun e => isMarkerEntry e) ++ l.filter (fun e => ¬ isMarkerEntry e)

def applyLayer (V : View) (l : List Entry) : View := (inOrder l).foldl apply V

/-- nothing but an undescribed root -/
def emptyView : View := fun q => if q = [] then some ⟨none, []⟩ else none

/-- the view after all layers, the first one being the lowest -/
def applyLayers (layers : List (List Entry)) : View := layers.foldl applyLayer emptyView

/-- no entry lies below the path of a symlink -/
def NoThrough (layers : List (List Entry)) : Prop :=
  ∀ l ∈ layers, ∀ e ∈ l, e.header.typeflag = '2' → ∀ l' ∈ layers, ∀ e' ∈ l', pathOf e <+: pathOf e' → pathOf e = pathOf e'

instance (e : Entry) (layers : List (List Entry)) :
    Decidable (∀ l' ∈ layers, ∀ e' ∈ l', pathOf e <+: pathOf e' → pathOf e = pathOf e') := inferInstance
instance (layers : List (List Entry)) : Decidable (NoThrough layers) := by unfold NoThrough; infer_instance

/-- entries without their content -/
def strip (e : Entry) : Entry := { e with body := [] }

end Squash.Spec
