import Verif.Pep440.Model
/-!
Model of the `GoString` methods in /repo/pkg/python/pep440/01_version_scheme.go and of the parts of `fmt` and `strconv` they use
(the verb `%#v` for the types involved).  A nil slice and an empty one are not told apart by the model of a version: the empty one is
printed as nil, which is what `ParseVersion` gives for the local part.
-/
namespace Pep440
open Go

/-- `strconv`'s `lowerhex` -/
def hexChar (n : Nat) : Char := if n < 10 then digChar n else Char.ofNat ('a'.toNat + (n - 10))

/-- the last `k` hexadecimal digits of a number, the loop at the end of `strconv.appendEscapedRune` -/
def hexDigits : Nat → Nat → Str
  | 0, _ => []
  | k + 1, n => hexDigits k (n / 16) ++ [hexChar (n % 16)]

/-- `strconv.IsPrint`; `isPrint` says which characters outside ASCII are printable -/
def printable (isPrint : Char → Bool) (c : Char) : Bool :=
  if c.toNat < 0x80 then decide (0x20 ≤ c.toNat ∧ c.toNat < 0x7f) else isPrint c

/-- `strconv.appendEscapedRune` with the quote `"`, not `ASCIIonly`; the delete character as since Go 1.18 (`\u007f` before) -/
def escapeRune (isPrint : Char → Bool) (c : Char) : Str :=
  if c = '"' ∨ c = '\\' then ['\\', c]
  else if printable isPrint c then [c]
  else if c.toNat = 7 then ['\\', 'a']
  else if c.toNat = 8 then ['\\', 'b']
  else if c.toNat = 12 then ['\\', 'f']
  else if c = '\n' then ['\\', 'n']
  else if c = '\r' then ['\\', 'r']
  else if c = '\t' then ['\\', 't']
  else if c.toNat = 11 then ['\\', 'v']
  else if c.toNat < 0x20 ∨ c.toNat = 0x7f then '\\' :: 'x' :: hexDigits 2 c.toNat
  else if c.toNat < 0x10000 then '\\' :: 'u' :: hexDigits 4 c.toNat
  else '\\' :: 'U' :: hexDigits 8 c.toNat

/-- `strconv.Quote`, what `%#v` gives for a string -/
def quoteGo (isPrint : Char → Bool) (s : Str) : Str := '"' :: (s.flatMap (escapeRune isPrint) ++ ['"'])

/-- the elements of a slice in `fmt`'s `%#v` -/
def goElems (l : List Str) : Str :=
  match l with
  | [] => []
  | x :: xs => x ++ xs.flatMap (fun y => ", ".toList ++ y)

/-- `fmt`'s `%#v` of a slice with elements of type `ty` that are printed as `l`; see above for the empty one -/
def goSlice (ty : String) (l : List Str) : Str :=
  if l = [] then "[]".toList ++ ty.toList ++ "(nil)".toList else "[]".toList ++ ty.toList ++ "{".toList ++ goElems l ++ "}".toList

/-- `fmt`'s `%#v` of a `PreRelease` (01_version_scheme.go:73-76) -/
def goPre (isPrint : Char → Bool) (p : Str × Int) : Str :=
  "pep440.PreRelease{L:".toList ++ quoteGo isPrint p.1 ++ ", N:".toList ++ itoa p.2 ++ "}".toList

/-- `fmt`'s `%#v` of an `intstr.IntOrString`: the fields `Type` (0 for a number, 1 for a string), `IntVal` and `StrVal` -/
def goSeg (isPrint : Char → Bool) (s : Seg) : Str :=
  let f (ty n : Int) (v : Str) : Str := "intstr.IntOrString{Type:".toList ++ itoa ty ++ ", IntVal:".toList ++ itoa n ++
    ", StrVal:".toList ++ quoteGo isPrint v ++ "}".toList
  match s with
  | .int n => f 0 n []
  | .str v => f 1 0 v

/-- 01_version_scheme.go:81-96 `PublicVersion.GoString` -/
def PubVer.goString (isPrint : Char → Bool) (ver : PubVer) : Str :=
  let pre := match ver.pre with | some p => "&".toList ++ goPre isPrint p | none => "nil".toList
  let post := match ver.post with | some n => "intPtr(".toList ++ itoa n ++ ")".toList | none => "nil".toList
  let dev := match ver.dev with | some n => "intPtr(".toList ++ itoa n ++ ")".toList | none => "nil".toList
  "pep440.PublicVersion{Epoch:".toList ++ itoa ver.epoch ++ ", Release:".toList ++ goSlice "int" (ver.release.map itoa) ++
    ", Pre:".toList ++ pre ++ ", Post:".toList ++ post ++ ", Dev:".toList ++ dev ++ "}".toList

/-- 01_version_scheme.go:196-199 `LocalVersion.GoString` -/
def Ver.goString (isPrint : Char → Bool) (ver : Ver) : Str :=
  "pep440.LocalVersion{PublicVersion:".toList ++ ver.toPubVer.goString isPrint ++ ", Local:".toList ++
    goSlice "intstr.IntOrString" (ver.loc.map (goSeg isPrint)) ++ "}".toList

end Pep440
