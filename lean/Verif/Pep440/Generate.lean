import Verif.Pep440.Spec
/-! Model of pkg/python/pep440/generate.go: random versions for testing/quick. -/
namespace Pep440
open Go

/-- A source of random numbers (`*rand.Rand`): the numbers it will give, before they are brought into the range asked for.  Every
sequence of results of `Intn` is that of such a list. -/
abbrev Rand := List Nat

/-- math/rand `(*Rand).Intn`: some number from 0 to `n - 1`; it panics if `n` is not positive -/
def intn (n : Int) (r : Rand) : Option (Int × Rand) :=
  if n ≤ 0 then none else some ((r.headD 0 : Int) % n, r.tail)

/-- pkg/python/pep440/generate.go:11-13 -/
def randBool (r : Rand) : Option (Bool × Rand) := (intn 2 r).map fun x => (decide (x.1 = 1), x.2)

/-- pkg/python/pep440/generate.go:15-17 -/
def randSeg (r : Rand) : Option (Int × Rand) := intn 3000 r

/-- pkg/python/pep440/generate.go:19-27 -/
def bound (low val high : Int) : Int :=
  let val := if val < low then low else val
  if val > high then high else val

/-- the loop of pkg/python/pep440/generate.go:34-36, over `n` elements -/
def randSegs : Nat → Rand → Option (List Int × Rand)
  | 0, r => some ([], r)
  | n + 1, r => (randSeg r).bind fun x => (randSegs n x.2).map fun y => (x.1 :: y.1, y.2)

/-- indexing a list or string, with Go's panic -/
def pick {α : Type} (l : List α) (i : Int) : Option α := if 0 ≤ i then l[i.toNat]? else none

/-- `if randBool(rand) { n := randSeg(rand); field = &n }`, else the field is as it was; pkg/python/pep440/generate.go:43-46, 47-50 -/
def randField (old : Option Int) (r : Rand) : Option (Option Int × Rand) :=
  (randBool r).bind fun b => if b.1 then (randSeg b.2).map fun x => (some x.1, x.2) else some (old, b.2)

/-- pkg/python/pep440/generate.go:29-52 `PublicVersion.generate` -/
def PubVer.generate (ver : PubVer) (r : Rand) (size : Int) : Option (PubVer × Rand) :=
  (randBool r).bind fun b =>
  (if b.1 then randSeg b.2 else some (ver.epoch, b.2)).bind fun ep =>
  (intn (bound 1 size 10) ep.2).bind fun n =>
  (randSegs (1 + n.1).toNat n.2).bind fun rel =>
  (randBool rel.2).bind fun b =>
  (if b.1 then (intn 3 b.2).bind fun i => (pick ["a".toList, "b".toList, "rc".toList] i.1).bind fun l => (randSeg i.2).map fun x => (some (l, x.1), x.2)
    else some (ver.pre, b.2)).bind fun pre =>
  (randField ver.post pre.2).bind fun post =>
  (randField ver.dev post.2).map fun dev =>
  (⟨ep.1, rel.1, pre.1, post.1, dev.1⟩, dev.2)

/-- pkg/python/pep440/generate.go:70-73 -/
def alpha : Str := "abcdefghijklmnopqrstuvwxyz".toList
/-- pkg/python/pep440/generate.go:70-73 -/
def alphadig : Str := alpha ++ "0123456789".toList

/-- the loop of pkg/python/pep440/generate.go:74-80 over the bytes of `buf` after the first -/
def randBuf : Nat → Rand → Option (Str × Rand)
  | 0, r => some ([], r)
  | n + 1, r => (intn alphadig.length r).bind fun i => (pick alphadig i.1).bind fun c => (randBuf n i.2).map fun y => (c :: y.1, y.2)

/-- pkg/python/pep440/generate.go:74-80; `n` is the length of `buf` -/
def randWord (n : Nat) (r : Rand) : Option (Str × Rand) :=
  match n with
  | 0 => some ([], r)
  | n + 1 => (intn alpha.length r).bind fun i => (pick alpha i.1).bind fun c => (randBuf n i.2).map fun y => (c :: y.1, y.2)

/-- the loop of pkg/python/pep440/generate.go:63-83 over the `n` segments, with the size that is left.  `intstr.FromInt` converts to
`int32`, which changes nothing here. -/
def randLocal : Nat → Rand → Int → Option (List Seg × Rand × Int)
  | 0, r, size => some ([], r, size)
  | n + 1, r, size => (randBool r).bind fun b =>
    if b.1 then (randSeg b.2).bind fun x => (randLocal n x.2 size).map fun y => (.int x.1 :: y.1, y.2)
    else (intn (bound 1 size 10) b.2).bind fun k => (randWord (1 + k.1).toNat k.2).bind fun w =>
      (randLocal n w.2 (size - (1 + k.1))).map fun y => (.str w.1 :: y.1, y.2)

/-- pkg/python/pep440/generate.go:59-88 `LocalVersion.generate` -/
def Ver.generate (ver : Ver) (r : Rand) (size : Int) : Option (Ver × Rand) :=
  (randBool r).bind fun b =>
  (if b.1 then (intn (bound 1 size 10) b.2).bind fun n => randLocal (1 + n.1).toNat n.2 (size - (1 + n.1))
    else some (ver.loc, b.2, size)).bind fun l =>
  (PubVer.generate ver.toPubVer l.2.1 l.2.2).map fun p => (⟨p.1, l.1⟩, p.2)

/-- the zero value of `LocalVersion`, on which testing/quick calls `Generate` -/
def zeroVer : Ver := ⟨⟨0, [], none, none, none⟩, []⟩

/-- pkg/python/pep440/generate.go:98-100 `CmpOp.generate`; the operators in the order of 02_version_specifiers.go:81-93, `_CmpOpEnd` is 9 -/
def CmpOp.generate (r : Rand) : Option (CmpOp × Rand) :=
  (intn 9 r).bind fun i => (pick [CmpOp.compatible, .strictMatch, .prefixMatch, .strictExclude, .prefixExclude, .le, .ge, .lt, .gt] i.1).map fun op => (op, i.2)

end Pep440
