import Verif.Go.Basic
/-! Model of the part of archive/tar's `Writer.WriteHeader` (standard library) that decides whether a name can be written:
`Header.allowedFormats` and `splitUSTARPath`.  The standard library is not part of the code under study; pkg/squash and pkg/fsutil hand
their headers to it (squash/vfs.go:215, fsutil/fileref.go). -/
namespace Go.Tar
open Go

/-- the formats a header can ask for.  `tar.Reader` sets the format it found (`ustar` exactly for headers in plain USTAR, which are ASCII);
headers that programs make themselves have `unknown`, and the writer chooses. -/
inductive Format where
  | unknown
  | ustar
  | pax
  | gnu
deriving DecidableEq, Repr

/-- archive/tar `isASCII`: no byte from 0x80 on, and no NUL -/
def isASCII (s : Str) : Bool := s.all fun c => c.toNat < 128 && c.toNat ≠ 0

/-- archive/tar `hasNUL` -/
def hasNUL (s : Str) : Bool := s.any fun c => c.toNat = 0

/-- `strings.LastIndex(s, "/")`; `none` for -1 -/
def lastSlash : Str → Option Nat
  | [] => none
  | c :: s => match lastSlash s with
    | some i => some (i + 1)
    | none => if c = '/' then some 0 else none

/-- archive/tar `splitUSTARPath`: the name field has 100 bytes, the prefix field 155 -/
def splitUSTAR (name : Str) : Option (Str × Str) :=
  if name.length ≤ 100 || !isASCII name then none
  else
    let length := if 156 < name.length then 156 else if name.getLast? = some '/' then name.length - 1 else name.length
    match lastSlash (name.take length) with
    | none => none
    | some i =>
      let nlen := name.length - i - 1
      if i = 0 || 100 < nlen || nlen = 0 || 155 < i then none else some (name.take i, name.drop (i + 1))

/-- the `Name` of `Header.allowedFormats`: whether `WriteHeader` can write that name in the format asked for.  Lengths are bytes; for names
that are not ASCII the length does not matter. -/
def nameFits (f : Format) (name : Str) : Bool :=
  let short := isASCII name && decide (name.length ≤ 100)
  let asUSTAR := short || (splitUSTAR name).isSome
  match f with
  | .ustar => asUSTAR
  | .pax => short || !hasNUL name
  | .gnu => !hasNUL name
  | .unknown => asUSTAR || !hasNUL name

end Go.Tar
