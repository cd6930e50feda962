import Verif.Go.Basic
/-! Model of pkg/cliutil/borrowed_pflag.go and wordwrap.go.  Strings are lists of bytes, as in Go; subtraction is Go's, on 64
bits. -/
namespace Cli
open Go

/-- a Go string -/
abbrev Bytes := List UInt8

/-- a line feed -/
def nl : UInt8 := 10
/-- a space -/
def sp : UInt8 := 32
/-- a tab -/
def tab : UInt8 := 9

/-- `strings.LastIndexAny` and `strings.LastIndex` (standard library), for ASCII bytes: position of the last byte with `f` -/
def lastIndex (f : UInt8 → Bool) : Bytes → Option Nat
  | [] => none
  | c :: s =>
    match lastIndex f s with
    | some i => some (i + 1)
    | none => if f c then some 0 else none

/-- `strings.Replace(s, "\n", t, -1)` (standard library) -/
def replaceNl (t s : Bytes) : Bytes := s.flatMap (fun c => if c = nl then t else [c])

/-- `strings.Repeat(" ", i)` -/
def spaces (i : Nat) : Bytes := List.replicate i sp

/-- borrowed_pflag.go:43-57 `wrapN`.  `i` is at least 19 where it is called, so it is a natural number here. -/
def wrapN (i slop : Nat) (s : Bytes) : Bytes × Bytes :=
  if s.length < i + slop then (s, [])
  else
    match lastIndex (fun c => c = sp || c = tab || c = nl) (s.take i) with
    | none => (s, [])
    | some w =>
      if w = 0 then (s, [])
      else
        match lastIndex (fun c => c = nl) (s.take i) with
        | some n => if 0 < n ∧ n < w then (s.take n, s.drop (n + 1)) else (s.take w, s.drop (w + 1))
        | none => (s.take w, s.drop (w + 1))

/-- borrowed_pflag.go:97-102: the loop; `none` when the number of iterations is used up -/
def wrapLoop (i width : Nat) : Nat → Bytes → Bytes → Option Bytes
  | _, r, [] => some r
  | 0, _, _ :: _ => none
  | fuel + 1, r, c :: s =>
    let ts := wrapN width 5 (c :: s)
    wrapLoop i width fuel (r ++ nl :: spaces i ++ replaceNl (nl :: spaces i) ts.1) ts.2

/-- what a call can do -/
inductive Out where
  | ret (s : Bytes)
  | panic
  | loop
deriving DecidableEq

/-- borrowed_pflag.go:89-104: the part with wrapping; `i` is the indent, `r` what was written so far -/
def wrapMain (fuel i width : Nat) (r s : Bytes) : Out :=
  let ls := wrapN (width - 5) 5 s
  match wrapLoop i (width - 5) fuel (r ++ replaceNl (nl :: spaces i) ls.1) ls.2 with
  | some r => .ret r
  | none => .loop

/-- borrowed_pflag.go:62-105 `wrap`, where the loop may run `fuel` times.  `strings.Repeat` panics for a negative count. -/
def wrap (fuel : Nat) (i w : Int) (s : Bytes) : Out :=
  if w = 0 then if i < 0 then .panic else .ret (replaceNl (nl :: spaces i.toNat) s)
  else if sub64 w i < 24 then
    if sub64 w 16 < 24 then .ret (replaceNl (nl :: spaces 16) s)
    else wrapMain fuel 16 (sub64 w 16).toNat (nl :: spaces 16) s
  else if i < 0 then .panic
  else wrapMain fuel i.toNat (sub64 w i).toNat [] s

end Cli
