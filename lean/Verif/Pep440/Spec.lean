import Verif.Pep440.Model
/-!
What PEP 440 says, independent of the model's comparison functions.  The order is the sort key of the reference
implementation (`packaging.version._cmpkey`): epoch, release without trailing zeros, pre-release, post-release, dev
release, local label; absent parts are replaced by minus or plus infinity.
-/
namespace Pep440.Spec
open Go

/-- a value or one of the two infinities of `_cmpkey` -/
inductive Ext (α : Type) where
  | negInf
  | fin (a : α)
  | posInf
deriving DecidableEq, Repr

def Ext.cmp {α : Type} (c : α → α → Ordering) : Ext α → Ext α → Ordering
  | .negInf, .negInf => .eq
  | .negInf, _ => .lt
  | .fin _, .negInf => .gt
  | .fin a, .fin b => c a b
  | .fin _, .posInf => .lt
  | .posInf, .posInf => .eq
  | .posInf, _ => .gt

/-- remove trailing zeros -/
def stripZeros (l : List Int) : List Int := (l.reverse.dropWhile (· = 0)).reverse

/-- the accepted spellings of the three pre-release phases, in the order alpha < beta < release candidate -/
def preRank (l : Str) : Nat :=
  if l ∈ ["a".toList, "alpha".toList] then 0
  else if l ∈ ["b".toList, "beta".toList] then 1
  else 2

def spellings : List Str :=
  ["a".toList, "alpha".toList, "b".toList, "beta".toList, "c".toList, "rc".toList, "pre".toList, "preview".toList]

/-- `.devN` of a plain release sorts before every pre-release of it; no pre-release sorts after all of them -/
def preKey (v : PubVer) : Ext (Nat × Int) :=
  match v.pre with
  | some (l, n) => .fin (preRank l, n)
  | none => if v.post = none ∧ v.dev ≠ none then .negInf else .posInf

def postKey (v : PubVer) : Ext Int := match v.post with | some n => .fin n | none => .negInf
def devKey (v : PubVer) : Ext Int := match v.dev with | some n => .fin n | none => .posInf

/-- a numeric local segment is above every alphanumeric one -/
def segKey : Seg → Ext Int × Str
  | .int n => (.fin n, [])
  | .str s => (.negInf, s)

def cmpPair {α β : Type} (c : α → α → Ordering) (d : β → β → Ordering) (x y : α × β) : Ordering :=
  (c x.1 y.1).then (d x.2 y.2)

/-- order of public versions -/
def cmpPub (a b : PubVer) : Ordering :=
  (compare a.epoch b.epoch).then <|
  (List.compareLex compare (stripZeros a.release) (stripZeros b.release)).then <|
  (Ext.cmp (cmpPair compare compare) (preKey a) (preKey b)).then <|
  (Ext.cmp compare (postKey a) (postKey b)).then <|
  Ext.cmp compare (devKey a) (devKey b)

/-- order of local labels: segment by segment, a proper prefix below its extensions -/
def cmpLoc (a b : List Seg) : Ordering :=
  List.compareLex (cmpPair (Ext.cmp compare) (List.compareLex compare)) (a.map segKey) (b.map segKey)

/-- order of versions -/
def cmpVer (a b : Ver) : Ordering := (cmpPub a.toPubVer b.toPubVer).then (cmpLoc a.loc b.loc)

/-- fits a non-negative `int` -/
def Nat63 (n : Int) : Prop := 0 ≤ n ∧ n < 2 ^ 63

/-- well-formed public version: components fit a non-negative `int`, the pre-release letter is an accepted
spelling.  The post-release number must be below the largest `int`: with 2^63-1 the comparison overflows (see
`C01_violated_post`). -/
structure WFPub (v : PubVer) : Prop where
  epoch : Nat63 v.epoch
  release : ∀ n ∈ v.release, Nat63 n
  pre : ∀ l n, v.pre = some (l, n) → l ∈ spellings ∧ Nat63 n
  post : ∀ n, v.post = some n → Nat63 n ∧ n < 2 ^ 63 - 1
  dev : ∀ n, v.dev = some n → Nat63 n

/-- local label whose numbers are non-negative `int32` -/
def WFLoc (l : List Seg) : Prop := ∀ n, Seg.int n ∈ l → 0 ≤ n ∧ n < 2 ^ 31

/-- well-formed version -/
structure WF (v : Ver) : Prop where
  pub : WFPub v.toPubVer
  loc : WFLoc v.loc

end Pep440.Spec

namespace Pep440.Spec
open Go

/-- ASCII lower case of a character -/
def asciiLower (c : Char) : Char :=
  if 65 ≤ c.toNat ∧ c.toNat ≤ 90 then Char.ofNat (c.toNat + 32) else c

/-- the two texts differ at most in the case of ASCII letters -/
def SameUpToCase (s t : Str) : Prop := s.map asciiLower = t.map asciiLower

/-- only tab, line feed, form feed, carriage return and space -/
def Blank (s : Str) : Prop := ∀ c ∈ s, c ∈ ['\t', '\n', '\x0c', '\r', ' ']

end Pep440.Spec

namespace Pep440.Spec
open Go

/-- No component at the edge of the machine range: numeric local segments did not wrap to a negative `int32`, and the
post-release number is not the largest `int`. -/
def Ordinary (v : Ver) : Prop := (∀ n, Seg.int n ∈ v.loc → 0 ≤ n) ∧ v.post ≠ some (2 ^ 63 - 1)

/-- local label in canonical spelling: non-negative `int32` numbers, and non-empty lower-case alphanumeric words that
are not all digits -/
def CanonicalLoc (l : List Seg) : Prop :=
  (∀ n, Seg.int n ∈ l → 0 ≤ n ∧ n < 2 ^ 31) ∧
  (∀ s, Seg.str s ∈ l → s ≠ [] ∧
    (∀ c ∈ s, c ∈ "abcdefghijklmnopqrstuvwxyz0123456789".toList) ∧ ∃ c ∈ s, c ∉ "0123456789".toList)

/-- canonical version values, in the words of PEP 440 -/
structure Canonical (v : Ver) : Prop where
  epoch : 0 ≤ v.epoch ∧ v.epoch < 2 ^ 63
  release : v.release ≠ []
  releaseRange : ∀ n ∈ v.release, 0 ≤ n ∧ n < 2 ^ 63
  pre : ∀ l n, v.pre = some (l, n) → l ∈ ["a".toList, "b".toList, "rc".toList] ∧ 0 ≤ n ∧ n < 2 ^ 63
  post : ∀ n, v.post = some n → 0 ≤ n ∧ n < 2 ^ 63
  dev : ∀ n, v.dev = some n → 0 ≤ n ∧ n < 2 ^ 63
  loc : CanonicalLoc v.loc

end Pep440.Spec

namespace Pep440.Spec
open Go

/-- component `i` of a release, zero beyond its end -/
def comp (v : PubVer) (i : Nat) : Int := if h : i < v.release.length then v.release[i] else 0

/-- the same pre-release, whatever its spelling -/
def SamePre : Option (Str × Int) → Option (Str × Int) → Prop
  | none, none => True
  | some (l, n), some (l', n') => preRank l = preRank l' ∧ n = n'
  | _, _ => False

/-- what `==s.*` means -/
def PrefixMatches (s v : PubVer) : Prop :=
  s.epoch = v.epoch ∧
  (s.pre = none ∧ s.post = none → ∀ i, i < s.release.length → comp s i = comp v i) ∧
  (s.pre ≠ none ∨ s.post ≠ none →
    (∀ i, comp s i = comp v i) ∧ SamePre s.pre v.pre ∧ (s.post ≠ none → s.post = v.post))

/-- the release of `v` without its last component and without suffixes -/
def compatBase (v : PubVer) : Ver :=
  { epoch := v.epoch, release := v.release.dropLast, pre := none, post := none, dev := none, loc := [] }

/-- `v` without its local label -/
def noLocal (v : Ver) : Ver := { v with loc := [] }

/-- a well-formed clause: a well-formed version with at least one release component -/
def WFClause (c : Clause) : Prop := WF c.ver ∧ c.ver.release ≠ []

end Pep440.Spec
