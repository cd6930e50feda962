/-!
Go's machine integers, strings, and decimal conversion, as far as the modelled code uses them.

* `int` is 64 bit two's complement (linux/amd64), `int32` is 32 bit; arithmetic wraps.
* A Go string is modelled as a list of Unicode code points (`Str`).  All strings in the modelled code are
  valid UTF-8; `<` on UTF-8 byte strings coincides with lexicographic `<` on code points.
* A Go panic is `none` in `Option`; an error return is `Except.error`.
-/
namespace Go

/-- a Go string, by its code points -/
abbrev Str := List Char

deriving instance DecidableEq for Except

/-- wrap a mathematical integer to Go's `int` (64 bit) -/
def wrap64 (x : Int) : Int := Int.bmod x (2 ^ 64)
/-- wrap a mathematical integer to Go's `int32` -/
def wrap32 (x : Int) : Int := Int.bmod x (2 ^ 32)

/-- Go `a - b` on `int` -/
def sub64 (a b : Int) : Int := wrap64 (a - b)
/-- Go `a - b` on `int32` -/
def sub32 (a b : Int) : Int := wrap32 (a - b)

/-- the sign of a Go comparison result, the only thing its users look at -/
def ordOf (d : Int) : Ordering := if d < 0 then .lt else if d = 0 then .eq else .gt

/-- ASCII digit, `[0-9]` -/
def isDig (c : Char) : Bool := '0' ≤ c && c ≤ '9'

/-- value of a digit -/
def digVal (c : Char) : Nat := c.toNat - '0'.toNat

/-- value of a digit string read most significant digit first -/
def digitsVal (s : Str) : Nat := s.foldl (fun acc c => acc * 10 + digVal c) 0

/-- the digit character of `n < 10` -/
def digChar (n : Nat) : Char := Char.ofNat ('0'.toNat + n)

/-- decimal digits of a natural number, as printed by `fmt`'s `%d` and `strconv.Itoa` -/
def itoaNat (n : Nat) : Str :=
  if n < 10 then [digChar n] else itoaNat (n / 10) ++ [digChar (n % 10)]
termination_by n

/-- `strconv.Itoa` / `%d` -/
def itoa (n : Int) : Str :=
  if n < 0 then '-' :: itoaNat n.natAbs else itoaNat n.natAbs

/-- unsigned part of `strconv.Atoi`: one or more digits -/
def atoiU (s : Str) : Option Nat :=
  if s ≠ [] ∧ s.all isDig then some (digitsVal s) else none

/-- `strconv.Atoi` (base 10, optional sign, 64 bit range check); `none` is the error return. -/
def atoi (s : Str) : Option Int :=
  match s with
  | '-' :: t => match atoiU t with
      | some n => if n ≤ 2 ^ 63 then some (-(n : Int)) else none
      | none => none
  | '+' :: t => match atoiU t with
      | some n => if n < 2 ^ 63 then some (n : Int) else none
      | none => none
  | t => match atoiU t with
      | some n => if n < 2 ^ 63 then some (n : Int) else none
      | none => none

/-- `strings.ToLower` on the characters that can reach it in the modelled code: ASCII, U+017F (unchanged) and
U+212A (Kelvin sign, mapped to `k`).  Simplification: no other Unicode case mapping. -/
def lowerC (c : Char) : Char :=
  if 'A' ≤ c && c ≤ 'Z' then Char.ofNat (c.toNat + 32) else if c = '\u212a' then 'k' else c

/-- `strings.ToLower`, see `lowerC` -/
def toLower (s : Str) : Str := s.map lowerC

/-- `unicode.IsSpace` -/
def isSpace (c : Char) : Bool :=
  c = '\t' || c = '\n' || c = '\x0b' || c = '\x0c' || c = '\r' || c = ' ' || c = '\u0085' || c = '\u00a0' ||
  c = '\u1680' || ('\u2000' ≤ c && c ≤ '\u200a') || c = '\u2028' || c = '\u2029' || c = '\u202f' ||
  c = '\u205f' || c = '\u3000'

/-- `strings.TrimSpace` -/
def trimSpace (s : Str) : Str :=
  ((s.dropWhile isSpace).reverse.dropWhile isSpace).reverse

/-- `strings.HasPrefix` -/
def hasPrefix (s p : Str) : Bool := p.isPrefixOf s
/-- `strings.HasSuffix` -/
def hasSuffix (s p : Str) : Bool := p.isSuffixOf s
/-- `strings.TrimSuffix` -/
def trimSuffix (s p : Str) : Str := if hasSuffix s p then s.take (s.length - p.length) else s
/-- `strings.TrimPrefix` -/
def trimPrefix (s p : Str) : Str := if hasPrefix s p then s.drop p.length else s

/-- `strings.Split s sep` for a one-character separator: always at least one part. -/
def split (sep : Char) : Str → List Str
  | [] => [[]]
  | c :: cs =>
    if c = sep then [] :: split sep cs
    else match split sep cs with
      | [] => [[c]]
      | p :: ps => (c :: p) :: ps

/-- `strings.FieldsFunc s f`: maximal runs of characters not satisfying `f`, empty runs dropped. -/
def fieldsFunc (f : Char → Bool) : Str → List Str
  | [] => []
  | c :: cs =>
    if f c then fieldsFunc f cs
    else match cs with
      | [] => [[c]]
      | d :: _ => if f d then [c] :: fieldsFunc f cs
        else match fieldsFunc f cs with
          | [] => [[c]]
          | p :: ps => (c :: p) :: ps

/-- `strings.Join` with separator `sep` -/
def join (sep : Str) : List Str → Str
  | [] => []
  | [p] => p
  | p :: q :: ps => p ++ sep ++ join sep (q :: ps)

end Go
