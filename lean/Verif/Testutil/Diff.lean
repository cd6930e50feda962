import Verif.Go.Basic
/-! Model of pkg/testutil/diff.go: dumping layers, and the comparison of two layers in tests.  Headers are of an arbitrary type `H`; the
texts that go-spew and text/tabwriter make of headers and contents are parameters. -/
namespace Testutil
open Go

/-- the content of a file -/
abbrev Bytes := List UInt8

/-- what one reading of a layer gives (diff.go:38-75, 93-135): whether `Uncompressed` succeeds; the headers with what reading each
content to its end gives; whether the last `Next` is `io.EOF`; what is read behind the end of the archive; whether `Close` succeeds -/
structure Reading (H : Type) where
  opens : Bool
  items : List (H × Except Unit Bytes)
  ends : Bool
  rest : Except Unit Bytes
  closes : Bool

/-- the texts: `Sdump` of go-spew for a header and for a content (diff.go:29-34), and the table that text/tabwriter makes of the lines of
the listing (diff.go:101-131), of which each is made from one header -/
structure Texts (H : Type) where
  header : H → Str
  content : Bytes → Str
  table : List H → Str

/-- diff.go:59: what is written before a header -/
def tagHeader : Str := ['t','a','r','H','e','a','d','e','r',' ','=',' ']

/-- diff.go:67: what is written before a content -/
def tagContent : Str := ['t','a','r','C','o','n','t','e','n','t',' ','=']

/-- diff.go:76: what is written before what lies behind the end of the archive -/
def tagTail : Str := ['t','a','i','l',' ','=','\n']

/-- diff.go:46-69: the loop of `DumpLayerFull`, with what is written after it -/
def dumpItems {H : Type} (t : Texts H) (ends : Bool) (after : Except Unit Str) : List (H × Except Unit Bytes) → Except Unit Str
  | [] => if ends then after else .error ()
  | (h, c) :: items => match c with
    | .error e => .error e
    | .ok c => match dumpItems t ends after items with
      | .error e => .error e
      | .ok s => .ok (tagHeader ++ t.header h ++ (tagContent ++ t.content c) ++ s)

/-- diff.go:71-80: the end of `DumpLayerFull` -/
def dumpRest {H : Type} (t : Texts H) (rest : Except Unit Bytes) : Except Unit Str :=
  match rest with
  | .error e => .error e
  | .ok b => .ok (tagTail ++ t.content b)

/-- diff.go:21-81 `DumpLayerFull` -/
def dumpFull {H : Type} (t : Texts H) (r : Reading H) : Except Unit Str :=
  if !r.opens then .error ()
  else match dumpItems t r.ends (dumpRest t r.rest) r.items with
    | .error e => .error e
    | .ok s => if r.closes then .ok s else .error ()

/-- diff.go:109-135: the loop of `DumpLayerListing`: the headers, unless something cannot be read -/
def listItems {H : Type} (ends : Bool) : List (H × Except Unit Bytes) → Except Unit (List H)
  | [] => if ends then .ok [] else .error ()
  | (h, c) :: items => match c with
    | .error e => .error e
    | .ok _ => match listItems ends items with
      | .error e => .error e
      | .ok hs => .ok (h :: hs)

/-- diff.go:83-141 `DumpLayerListing`; nothing is read behind the end of the archive -/
def dumpListing {H : Type} (t : Texts H) (r : Reading H) : Except Unit Str :=
  if !r.opens then .error ()
  else match listItems r.ends r.items with
    | .error e => .error e
    | .ok hs => if r.closes then .ok (t.table hs) else .error ()

/-- diff.go:187-204: `keepGoing`: the difference of the listings, from its fourth line on, has one line that begins with `-` and one that
begins with `+` -/
def keepGoing (diff : Str) : Bool :=
  let lines := (split '\n' diff).drop 3
  (lines.filter (fun l => hasPrefix l ['-'])).length = 1 && (lines.filter (fun l => hasPrefix l ['+'])).length = 1

/-- diff.go:207-231: the second part of `AssertEqualLayers`: what it returns and how often it calls `t.Errorf` -/
def assertFull {H : Type} (t : Texts H) (exp act : Reading H) : Bool × Nat :=
  match dumpFull t exp with
  | .error _ => (false, 1)
  | .ok a => match dumpFull t act with
    | .error _ => (false, 1)
    | .ok b => if a ≠ b then (false, 1) else (true, 0)

/-- diff.go:160-231 `AssertEqualLayers`: what it returns and how often it calls `t.Errorf`.  Each layer is read twice (`exp`, `exp2`;
`act`, `act2`), and the second reading may go differently.  `saving` is the number of errors reported while the layers are saved
(diff.go:162-165), 0 if they are not; `diff` is `difflib.GetUnifiedDiffString`. -/
def assertEqualLayers {H : Type} (t : Texts H) (diff : Str → Str → Str) (saving : Nat) (exp exp2 act act2 : Reading H) : Bool × Nat :=
  match dumpListing t exp with
  | .error _ => (false, saving + 1)
  | .ok a => match dumpListing t act with
    | .error _ => (false, saving + 1)
    | .ok b =>
      if a ≠ b then
        if !keepGoing (diff a b) then (false, saving + 1)
        else ((assertFull t exp2 act2).1, saving + 1 + (assertFull t exp2 act2).2)
      else ((assertFull t exp2 act2).1, saving + (assertFull t exp2 act2).2)

end Testutil
