import Verif.Go.Basic
/-! `encoding/base64` (`RawURLEncoding.EncodeToString`) and `encoding/hex` (`EncodeToString`) of the standard library, as they are called in
pkg/python/pypa/bdist/binary_distribution_format.go:882, pkg/python/pypa/bdist/hack.go:42,
pkg/python/pypa/recording_installs/recording_installs.go:53 and pkg/python/pep503/simple_repo_api.go:101. -/
namespace Go.Encode
open Go

/-- the alphabet of `base64.URLEncoding` (encoding/base64 `encodeURL`) -/
def alphabet : List Char := "ABCDEFGHIJKLMNOPQRSTUVWXYZabcdefghijklmnopqrstuvwxyz0123456789-_".toList

/-- the digit of value `n % 64` -/
def digit (n : Nat) : Char := alphabet.getD (n % 64) 'A'

/-- `base64.RawURLEncoding.EncodeToString` (binary_distribution_format.go:882): three bytes make four digits; one or two bytes left over make
two or three digits, and there is no padding.  The shifts and masks of the library are written as divisions and remainders. -/
def base64url : List UInt8 → Str
  | a :: b :: c :: r =>
    let v := a.toNat * 65536 + b.toNat * 256 + c.toNat
    digit (v / 262144) :: digit (v / 4096) :: digit (v / 64) :: digit v :: base64url r
  | [a, b] =>
    let v := a.toNat * 65536 + b.toNat * 256
    [digit (v / 262144), digit (v / 4096), digit (v / 64)]
  | [a] =>
    let v := a.toNat * 65536
    [digit (v / 262144), digit (v / 4096)]
  | [] => []

/-- the digits of `hex.EncodeToString` (encoding/hex `hextable`) -/
def hexDigit (n : Nat) : Char := "0123456789abcdef".toList.getD (n % 16) '0'

/-- `hex.EncodeToString` (simple_repo_api.go:101) -/
def hex : List UInt8 → Str
  | [] => []
  | a :: r => hexDigit (a.toNat / 16) :: hexDigit a.toNat :: hex r

end Go.Encode
