import Verif.Go.Regexp
/-!
Model of /repo/pkg/python/pep440 (01_version_scheme.go, 02_version_specifiers.go, 03_tail.go).

`none` in an `Option` result is a Go panic, except for pointers (`pre`, `post`, `dev`, `Select`'s result), where it
is nil.  Errors are `Except.error` with the message dropped (`Unit`).
-/
namespace Pep440
open Go

/-- 01_version_scheme.go:73-76 `PreRelease` is a pair letter, number;
01_version_scheme.go:60-71 `PublicVersion`. -/
structure PubVer where
  epoch : Int
  release : List Int
  pre : Option (Str × Int)
  post : Option Int
  dev : Option Int
deriving DecidableEq, Repr

/-- a segment of a local version label: `intstr.IntOrString` (k8s apimachinery v0.20.6), an `int32` or a string -/
inductive Seg where
  | int (n : Int)
  | str (s : Str)
deriving DecidableEq, Repr

/-- 01_version_scheme.go:190-193 `LocalVersion`, also called `Version` (line 23) -/
structure Ver extends PubVer where
  loc : List Seg
deriving DecidableEq, Repr

/-! ### printing -/

/-- the `.%d` loop of writeTo, 01_version_scheme.go:106-108 -/
def writeRel : List Int → Str
  | [] => []
  | n :: ns => '.' :: (itoa n ++ writeRel ns)

/-- 01_version_scheme.go:98-118 `PublicVersion.writeTo`; panics on an empty release -/
def PubVer.writeTo (v : PubVer) : Option Str :=
  match v.release with
  | [] => none
  | n :: ns => some (
      (if v.epoch > 0 then itoa v.epoch ++ ['!'] else []) ++
      (itoa n ++ writeRel ns) ++
      (match v.pre with | some (l, k) => l ++ itoa k | none => []) ++
      (match v.post with | some k => ".post".toList ++ itoa k | none => []) ++
      (match v.dev with | some k => ".dev".toList ++ itoa k | none => []))

/-- 01_version_scheme.go:121-125 `PublicVersion.String` -/
def PubVer.string (v : PubVer) : Option Str := v.writeTo

/-- `intstr.IntOrString.String` -/
def Seg.string : Seg → Str
  | .int n => itoa n
  | .str s => s

/-- the loop of `LocalVersion.String`, 01_version_scheme.go:205-210, `sep` as in the code -/
def writeLoc (sep : Char) : List Seg → Str
  | [] => []
  | x :: xs => sep :: (x.string ++ writeLoc '.' xs)

/-- 01_version_scheme.go:202-212 `LocalVersion.String` -/
def Ver.string (v : Ver) : Option Str :=
  match v.toPubVer.writeTo with
  | none => none
  | some s => some (s ++ writeLoc '+' v.loc)

/-! ### comparison -/

/-- Go `<` on strings (UTF-8 byte order is code point order) -/
def strLt (a b : Str) : Bool := decide (a < b)

/-- 01_version_scheme.go:225-253 `cmpLocalSegment`; arguments as pointers.  Simplification: the "both nil" and
"invalid type" panics are unreachable from `cmpLocal` and not modelled (both nil gives 0). -/
def cmpLocalSegment : Option Seg → Option Seg → Int
  | none, none => 0
  | none, some _ => -1
  | some _, none => 1
  | some (.int x), some (.int y) => sub32 x y
  | some (.str x), some (.str y) => if strLt x y then -1 else if strLt y x then 1 else 0
  | some (.int _), some (.str _) => 1
  | some (.str _), some (.int _) => -1

/-- 01_version_scheme.go:255-269 the index loop of `cmpLocal`, `i` from the given start, `k` iterations left -/
def cmpLocalLoop (a b : List Seg) : Nat → Nat → Int
  | _, 0 => 0
  | i, k + 1 =>
    let d := cmpLocalSegment a[i]? b[i]?
    if d ≠ 0 then d else cmpLocalLoop a b (i + 1) k

/-- 01_version_scheme.go:255-269 `cmpLocal`; `i < len(a.Local) || i < len(b.Local)` runs to the larger length -/
def cmpLocal (a b : List Seg) : Int := cmpLocalLoop a b 0 (max a.length b.length)

/-- 01_version_scheme.go:308-310 `PublicVersion.IsFinal` -/
def PubVer.isFinal (v : PubVer) : Bool := v.pre.isNone && v.post.isNone && v.dev.isNone

/-- 01_version_scheme.go:312-314 `LocalVersion.IsFinal` -/
def Ver.isFinal (v : Ver) : Bool := v.toPubVer.isFinal && v.loc.isEmpty

/-- 01_version_scheme.go:331-336 `releaseSegment` -/
def PubVer.releaseSegment (v : PubVer) (n : Nat) : Int := v.release.getD n 0

/-- 01_version_scheme.go:338-345 `cmpRelease`: the index loop, `i` from the given start, `k` iterations left -/
def cmpReleaseLoop (a b : PubVer) : Nat → Nat → Int
  | _, 0 => 0
  | i, k + 1 =>
    let diff := sub64 (a.releaseSegment i) (b.releaseSegment i)
    if diff ≠ 0 then diff else cmpReleaseLoop a b (i + 1) k

/-- 01_version_scheme.go:338-345 `cmpRelease`; `i < len(a) || i < len(b)` runs to the larger length -/
def cmpRelease (a b : PubVer) : Int := cmpReleaseLoop a b 0 (max a.release.length b.release.length)

/-- 01_version_scheme.go:352-354 -/
def PubVer.major (v : PubVer) : Int := v.releaseSegment 0
/-- 01_version_scheme.go:353 `Minor` -/
def PubVer.minor (v : PubVer) : Int := v.releaseSegment 1
/-- 01_version_scheme.go:354 `Micro` -/
def PubVer.micro (v : PubVer) : Int := v.releaseSegment 2

/-- 01_version_scheme.go:428-441 `preReleaseOrder`; `none` is a key that is not in the map -/
def preReleaseOrder (l : Str) : Option Int :=
  if l = "a".toList then some (-3)
  else if l = "alpha".toList then some (-3)
  else if l = "b".toList then some (-2)
  else if l = "beta".toList then some (-2)
  else if l = "rc".toList then some (-1)
  else if l = "c".toList then some (-1)
  else if l = "pre".toList then some (-1)
  else if l = "preview".toList then some (-1)
  else none

/-- 01_version_scheme.go:446-454 / 455-463: the pair (L, N) of one side of `cmpPreRelease`; panics on an unknown
letter -/
def preKey (a : PubVer) : Option (Int × Int) :=
  match a.pre with
  | some (l, n) => match preReleaseOrder l with
      | some k => some (k, n)
      | none => none
  | none => if a.dev.isSome && a.post.isNone then some (-4, 0) else some (0, 0)

/-- 01_version_scheme.go:443-468 `cmpPreRelease` -/
def cmpPreRelease (a b : PubVer) : Option Int :=
  match preKey a with
  | none => none
  | some (aL, aN) => match preKey b with
    | none => none
    | some (bL, bN) => if aL ≠ bL then some (sub64 aL bL) else some (sub64 aN bN)

/-- 01_version_scheme.go:510-520 `cmpPostRelease` -/
def cmpPostRelease (a b : PubVer) : Int := sub64 (a.post.getD (-1)) (b.post.getD (-1))

/-- 01_version_scheme.go:570-572 `IsPreRelease` -/
def PubVer.isPreRelease (v : PubVer) : Bool := v.pre.isSome || v.dev.isSome

/-- 01_version_scheme.go:574-585 `cmpDevRelease` -/
def cmpDevRelease (a b : PubVer) : Int :=
  match a.dev, b.dev with
  | none, none => 0
  | none, some _ => 1
  | some _, none => -1
  | some x, some y => sub64 x y

/-- 01_version_scheme.go:621-623 `cmpEpoch` -/
def cmpEpoch (a b : PubVer) : Int := sub64 a.epoch b.epoch

/-- 01_version_scheme.go:870-927 `PublicVersion.Cmp` -/
def PubVer.cmp (a b : PubVer) : Option Int :=
  if cmpEpoch a b ≠ 0 then some (cmpEpoch a b)
  else if cmpRelease a b ≠ 0 then some (cmpRelease a b)
  else match cmpPreRelease a b with
    | none => none
    | some d =>
      if d ≠ 0 then some d
      else if cmpPostRelease a b ≠ 0 then some (cmpPostRelease a b)
      else if cmpDevRelease a b ≠ 0 then some (cmpDevRelease a b)
      else some 0

/-- 01_version_scheme.go:275-280 `LocalVersion.Cmp` -/
def Ver.cmp (a b : Ver) : Option Int :=
  match a.toPubVer.cmp b.toPubVer with
  | none => none
  | some d => if d ≠ 0 then some d else some (cmpLocal a.loc b.loc)

/-! ### parsing -/

/-- the named groups of `reVersion` -/
inductive Grp where
  | epoch | release | preL | preN | postN1 | postL | postN2 | devL | devN | loc
deriving DecidableEq, Repr

/-- `[0-9]+` in 03_tail.go:574-596 -/
def reDigits : Re Grp := .plus (.chr isDig)
/-- `[-_\.]` -/
def isSep (c : Char) : Bool := c = '-' || c = '_' || c = '.'
/-- `[-_\.]?` in 03_tail.go:577-595 -/
def reSep : Re Grp := .opt (.chr isSep)
/-- a word in 03_tail.go:578-594, under `(?i)` -/
def reWord (s : String) : Re Grp := .lit ci s.toList

/-- 03_tail.go:574 -/
def reEpoch : Re Grp := .opt (.seq (.cap .epoch reDigits) (.chr (lit '!')))
/-- 03_tail.go:575 -/
def reRelease : Re Grp := .cap .release (.seq reDigits (.star (.seq (.chr (lit '.')) reDigits)))
/-- 03_tail.go:576-581 -/
def rePre : Re Grp := .opt (.seqs [reSep,
  .cap .preL (.alts [reWord "a", reWord "b", reWord "c", reWord "rc", reWord "alpha", reWord "beta", reWord "pre",
    reWord "preview"]),
  reSep, .opt (.cap .preN reDigits)])
/-- 03_tail.go:582-591 -/
def rePost : Re Grp := .opt (.alt
  (.seq (.chr (lit '-')) (.cap .postN1 reDigits))
  (.seqs [reSep, .cap .postL (.alts [reWord "post", reWord "rev", reWord "r"]), reSep,
    .opt (.cap .postN2 reDigits)]))
/-- 03_tail.go:592-597 -/
def reDev : Re Grp := .opt (.seqs [reSep, .cap .devL (reWord "dev"), reSep, .opt (.cap .devN reDigits)])
/-- 03_tail.go:599 -/
def reLocal : Re Grp := .opt (.seq (.chr (lit '+'))
  (.cap .loc (.seq (.plus (.chr ciAlnum)) (.star (.seq (.chr isSep) (.plus (.chr ciAlnum)))))))

/-- the part of `reVersion` between the leading and the trailing `\s*` -/
def reCore : Re Grp := .seqs [.opt (.chr (ci 'v')), reEpoch, reRelease, rePre, rePost, reDev, reLocal]

/-- 03_tail.go:571-600 `reVersion` without the anchors; comments and white space of the literal removed as the code
does.  Simplification: the unnamed groups and `pre`, `post`, `dev`, which nothing reads, are not recorded. -/
def reVersion : Re Grp := .seq (.star (.chr reSpace)) (.seq reCore (.star (.chr reSpace)))

/-- the letter part of `parseLetterNumber` (03_tail.go:640-661): a canonical spelling, or one of its alternatives.
Simplification: the map range order is fixed; the alternatives are disjoint. -/
def canonLetter (table : List (Str × List Str)) (letter : Str) : Option Str :=
  if table.any (fun p => p.1 = letter) then some letter
  else (table.find? (fun p => p.2.contains letter)).map (·.1)

/-- 03_tail.go:631-668 `parseLetterNumber`; `.ok none` is the nil, nil return -/
def parseLetterNumber (letter number : Str) (table : List (Str × List Str)) : Except Unit (Option (Str × Int)) :=
  if letter = [] ∧ number = [] then .ok none
  else
    let letter := toLower letter
    let number := if letter ≠ [] ∧ number = [] then "0".toList else number
    match canonLetter table letter with
    | none => .error ()
    | some l =>
      if number ≠ [] then
        match atoi number with
        | some n => .ok (some (l, n))
        | none => .error ()
      else .ok (some (l, 0))

/-- 03_tail.go:673-677 -/
def preTable : List (Str × List Str) :=
  [("a".toList, ["alpha".toList]), ("b".toList, ["beta".toList]),
   ("rc".toList, ["c".toList, "pre".toList, "preview".toList])]
/-- 03_tail.go:691-693 -/
def postTable : List (Str × List Str) := [("post".toList, ["".toList, "rev".toList, "r".toList])]
/-- 03_tail.go:704-706 -/
def devTable : List (Str × List Str) := [("dev".toList, [])]

/-- `intstr.Parse` of apimachinery v0.20.6: `Atoi`, on error a string, otherwise the value truncated to `int32` -/
def parseSeg (s : Str) : Seg :=
  match atoi s with
  | some n => .int (wrap32 n)
  | none => .str s

/-- 03_tail.go:617-623: the release loop -/
def parseRelease : List Str → Except Unit (List Int)
  | [] => .ok []
  | s :: ss => match atoi s with
    | none => .error ()
    | some n => match parseRelease ss with
      | .error e => .error e
      | .ok ns => .ok (n :: ns)

/-- 03_tail.go:608-722: `parseVersion` after the regexp has matched -/
def fromCaps (m : Caps Grp) : Except Unit Ver :=
  match (if group m .epoch ≠ [] then atoi (group m .epoch) else some 0) with
  | none => .error ()
  | some epoch =>
  match parseRelease (split '.' (group m .release)) with
  | .error e => .error e
  | .ok release =>
  match parseLetterNumber (group m .preL) (group m .preN) preTable with
  | .error e => .error e
  | .ok pre =>
  match parseLetterNumber (group m .postL) (group m .postN1 ++ group m .postN2) postTable with
  | .error e => .error e
  | .ok post =>
  match parseLetterNumber (group m .devL) (group m .devN) devTable with
  | .error e => .error e
  | .ok dev =>
  .ok { epoch, release, pre, post := post.map (·.2), dev := dev.map (·.2),
        loc := (fieldsFunc isSep (group m .loc)).map (fun p => parseSeg (toLower p)) }

/-- 03_tail.go:602-722 `parseVersion`, and 01_version_scheme.go:48-54 `ParseVersion` (which only wraps the error) -/
def parseVersion (s : Str) : Except Unit Ver :=
  match reVersion.matchFull s with
  | none => .error ()
  | some m => fromCaps m

/-- 01_version_scheme.go:634-640 `PublicVersion.Normalize`; outer `none` is the panic of `String` -/
def PubVer.normalize (v : PubVer) : Option (Except Unit PubVer) :=
  match v.string with
  | none => none
  | some s => some (match parseVersion s with | .error e => .error e | .ok n => .ok n.toPubVer)

/-- 01_version_scheme.go:642-648 `LocalVersion.Normalize` -/
def Ver.normalize (v : Ver) : Option (Except Unit Ver) :=
  match v.string with
  | none => none
  | some s => some (parseVersion s)

/-! ### specifiers -/

/-- 02_version_specifiers.go:79-93 `CmpOp` -/
inductive CmpOp where
  | compatible | strictMatch | prefixMatch | strictExclude | prefixExclude | le | ge | lt | gt
deriving DecidableEq, Repr

/-- 02_version_specifiers.go:131-134 -/
structure Clause where
  op : CmpOp
  ver : Ver
deriving DecidableEq, Repr

/-- 02_version_specifiers.go:43 -/
abbrev Specifier := List Clause

/-- 02_version_specifiers.go:479-481 `matchLE` -/
def matchLE (spec ver : Ver) : Option Bool := (spec.cmp ver).map (fun d => decide (d ≥ 0))
/-- 02_version_specifiers.go:483-485 `matchGE` -/
def matchGE (spec ver : Ver) : Option Bool := (spec.cmp ver).map (fun d => decide (d ≤ 0))
/-- 02_version_specifiers.go:517-519 `matchLT` -/
def matchLT (spec ver : Ver) : Option Bool := (spec.cmp ver).map (fun d => decide (d > 0))
/-- 02_version_specifiers.go:521-523 `matchGT` -/
def matchGT (spec ver : Ver) : Option Bool := (spec.cmp ver).map (fun d => decide (d < 0))

/-- 02_version_specifiers.go:362-367 `matchStrictMatch` -/
def matchStrictMatch (spec ver : Ver) : Option Bool :=
  if spec.loc.length = 0 then (spec.toPubVer.cmp ver.toPubVer).map (fun d => decide (d = 0))
  else (spec.cmp ver).map (fun d => decide (d = 0))

/-- 02_version_specifiers.go:369-433 `matchPrefixMatch`; missing keys of `preReleaseOrder` read as 0 -/
def matchPrefixMatch (spec ver : Ver) : Bool :=
  if cmpEpoch spec.toPubVer ver.toPubVer ≠ 0 then false
  else if spec.post.isNone ∧ spec.pre.isNone then
    let ver' : PubVer := { ver.toPubVer with
      release := if ver.release.length > spec.release.length then ver.release.take spec.release.length
                 else ver.release }
    decide (cmpRelease spec.toPubVer ver' = 0)
  else if cmpRelease spec.toPubVer ver.toPubVer ≠ 0 then false
  else if ver.pre.isNone ≠ spec.pre.isNone then false
  else if (match spec.pre, ver.pre with
      | some (sl, sn), some (vl, vn) =>
        decide ((preReleaseOrder vl).getD 0 ≠ (preReleaseOrder sl).getD 0 ∨ vn ≠ sn)
      | _, _ => false) then false
  else if spec.post.isNone then true
  else if cmpPostRelease spec.toPubVer ver.toPubVer ≠ 0 then false
  else true

/-- 02_version_specifiers.go:273-280 `matchCompatible`; `[:len-1]` panics on an empty release -/
def matchCompatible (spec ver : Ver) : Option Bool :=
  if spec.release.length = 0 then none
  else
    let pre : Ver := { spec with
      release := spec.release.take (spec.release.length - 1), pre := none, post := none, dev := none }
    match matchGE spec ver with
    | none => none
    | some g => some (g && matchPrefixMatch pre ver)

/-- 02_version_specifiers.go:454-456 -/
def matchStrictExclude (spec ver : Ver) : Option Bool := (matchStrictMatch spec ver).map (!·)
/-- 02_version_specifiers.go:458-460 -/
def matchPrefixExclude (spec ver : Ver) : Bool := !(matchPrefixMatch spec ver)

/-- 02_version_specifiers.go:113-129 `CmpOp.match` and 220-222 `SpecifierClause.Match` -/
def Clause.match (c : Clause) (ver : Ver) : Option Bool :=
  match c.op with
  | .compatible => matchCompatible c.ver ver
  | .strictMatch => matchStrictMatch c.ver ver
  | .prefixMatch => some (matchPrefixMatch c.ver ver)
  | .strictExclude => matchStrictExclude c.ver ver
  | .prefixExclude => some (matchPrefixExclude c.ver ver)
  | .le => matchLE c.ver ver
  | .ge => matchGE c.ver ver
  | .lt => matchLT c.ver ver
  | .gt => matchGT c.ver ver

/-- 02_version_specifiers.go:70-77 `Specifier.Match` -/
def specMatch : Specifier → Ver → Option Bool
  | [], _ => some true
  | c :: cs, v => match c.match v with
    | none => none
    | some false => some false
    | some true => specMatch cs v

/-- `str[2:]` after a one-byte prefix `c`: drops one further *byte*.  Panics when there is none; if the next code
point is not ASCII the rest starts with a broken UTF-8 sequence, which `regexp` reads as U+FFFD. -/
def dropByte : Str → Option Str
  | [] => none
  | c :: t => if c.toNat < 128 then some t else some ('\ufffd' :: t)

/-- 02_version_specifiers.go:141-186: the operator switch; result (op, rest, minSegments, devOK, localOK).
Outer `none` is the panic of `str[2:]`. -/
def splitOp (str : Str) : Option (Except Unit (CmpOp × Str × Nat × Bool × Bool)) :=
  if hasPrefix str "~=".toList then some (.ok (.compatible, str.drop 2, 2, true, false))
  else if hasPrefix str "==".toList && !hasPrefix str "===".toList then
    let s := str.drop 2
    if hasSuffix s ".*".toList then some (.ok (.prefixMatch, trimSuffix s ".*".toList, 1, false, false))
    else some (.ok (.strictMatch, s, 1, true, true))
  else if hasPrefix str "!=".toList then
    let s := str.drop 2
    if hasSuffix s ".*".toList then some (.ok (.prefixExclude, trimSuffix s ".*".toList, 1, false, false))
    else some (.ok (.strictExclude, s, 1, true, true))
  else if hasPrefix str "<=".toList then some (.ok (.le, str.drop 2, 1, true, false))
  else if hasPrefix str ">=".toList then some (.ok (.ge, str.drop 2, 1, true, false))
  else if hasPrefix str "<".toList then
    match dropByte (str.drop 1) with
    | none => none
    | some s => some (.ok (.lt, s, 1, true, false))
  else if hasPrefix str ">".toList then
    match dropByte (str.drop 1) with
    | none => none
    | some s => some (.ok (.gt, s, 1, true, false))
  else some (.error ())

/-- 02_version_specifiers.go:136-200 `parseSpecifierClause` -/
def parseClause (str : Str) : Option (Except Unit Clause) :=
  match splitOp (trimSpace str) with
  | none => none
  | some (.error e) => some (.error e)
  | some (.ok (op, s, minSegments, devOK, localOK)) =>
    match parseVersion s with
    | .error e => some (.error e)
    | .ok ver =>
      if ver.release.length < minSegments then some (.error ())
      else if ver.dev.isSome && !devOK then some (.error ())
      else if ver.loc.length > 0 ∧ !localOK then some (.error ())
      else some (.ok { op, ver })

/-- the loop of `ParseSpecifier`, 02_version_specifiers.go:48-58 -/
def parseClauses : List Str → Option (Except Unit Specifier)
  | [] => some (.ok [])
  | s :: ss =>
    if trimSpace s = [] then parseClauses ss
    else match parseClause (trimSpace s) with
      | none => none
      | some (.error e) => some (.error e)
      | some (.ok c) => match parseClauses ss with
        | none => none
        | some (.error e) => some (.error e)
        | some (.ok cs) => some (.ok (c :: cs))

/-- 02_version_specifiers.go:45-60 `ParseSpecifier` -/
def parseSpecifier (str : Str) : Option (Except Unit Specifier) :=
  parseClauses (fieldsFunc (fun c => c = ',') str)

/-- the operator table of `SpecifierClause.String`, 02_version_specifiers.go:203-213 -/
def CmpOp.text : CmpOp → Str
  | .compatible => "~=".toList
  | .strictMatch => "==".toList
  | .prefixMatch => "==".toList
  | .strictExclude => "!=".toList
  | .prefixExclude => "!=".toList
  | .le => "<=".toList
  | .ge => ">=".toList
  | .lt => "<".toList
  | .gt => ">".toList

/-- 02_version_specifiers.go:202-218 `SpecifierClause.String` -/
def Clause.string (c : Clause) : Option Str := c.ver.string.map (c.op.text ++ ·)

/-- 02_version_specifiers.go:62-68 `Specifier.String` -/
def specString (sp : Specifier) : Option Str := (sp.mapM Clause.string).map (join [','])

/-! ### selection -/

/-- 02_version_specifiers.go:583-585 `ExclusionBehavior`: the interface value as its `Allow` method (which may
panic) -/
abbrev Excl := Ver → Option Bool

/-- 02_version_specifiers.go:588-592 `AllowAll` -/
def allowAll : Excl := fun _ => some true

/-- the loop over the allow list, 02_version_specifiers.go:603-607 -/
def inAllowList : List Ver → Ver → Option Bool
  | [], _ => some false
  | i :: is, v => match i.cmp v with
    | none => none
    | some d => if d = 0 then some true else inAllowList is v

/-- 02_version_specifiers.go:599-609 `ExcludePreReleases.Allow` -/
def excludePreReleases (list : List Ver) : Excl := fun v =>
  if !v.isPreRelease then some true else inAllowList list v

/-- 02_version_specifiers.go:615-622 `MultiExcluder.Allow` -/
def multiExcluder : List Excl → Excl
  | [], _ => some true
  | e :: es, v => match e v with
    | none => none
    | some false => some false
    | some true => multiExcluder es v

/-- one `if best == nil || best.Cmp(choice) < 0 { best = choice }` of `Select` -/
def improve (best : Option Ver) (choice : Ver) : Option (Option Ver) :=
  match best with
  | none => some (some choice)
  | some b => match b.cmp choice with
    | none => none
    | some d => some (if d < 0 then some choice else some b)

/-- the test of `Select` that chooses between `best` and `bestExcluded`: `exclusionBehavior == nil ||
!exclusionBehavior.Allow(choice)`, 02_version_specifiers.go:629 -/
def asBest (ex : Option Excl) (c : Ver) : Option Bool :=
  match ex with
  | none => some true
  | some f => (f c).map (!·)

/-- the loop of `Select`, 02_version_specifiers.go:627-641; state (best, bestExcluded) -/
def selectLoop (spec : Specifier) (ex : Option Excl) : List Ver → Option Ver → Option Ver →
    Option (Option Ver × Option Ver)
  | [], b, be => some (b, be)
  | c :: cs, b, be => match specMatch spec c with
    | none => none
    | some false => selectLoop spec ex cs b be
    | some true =>
      match asBest ex c with
      | none => none
      | some true => match improve b c with
        | none => none
        | some b' => selectLoop spec ex cs b' be
      | some false => match improve be c with
        | none => none
        | some be' => selectLoop spec ex cs b be'

/-- 02_version_specifiers.go:624-649 `Select`; outer `none` panic, inner `none` nil; `ex = none` is a nil
`ExclusionBehavior` -/
def select (spec : Specifier) (choices : List Ver) (ex : Option Excl) : Option (Option Ver) :=
  match selectLoop spec ex choices none none with
  | none => none
  | some (some b, _) => some (some b)
  | some (none, be) => some be

end Pep440
