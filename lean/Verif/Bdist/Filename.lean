import Verif.Pep440.Model
import Verif.Pep425.Model
/-! Model of wheel file names and build tags, /repo/pkg/python/pypa/bdist/binary_distribution_format.go:504-627. -/
namespace Bdist
open Go

/-- binary_distribution_format.go:553-556 `BuildTag` -/
structure BuildTag where
  int : Int
  str : Str
deriving DecidableEq, Repr

/-- binary_distribution_format.go:504-509 `FileNameData`; a nil `*BuildTag` is `none` -/
structure FileNameData where
  distribution : Str
  version : Pep440.Ver
  build : Option BuildTag
  tag : Pep425.Tag
deriving DecidableEq, Repr

/-- the named groups of `reFilename` -/
inductive FGrp where
  | distribution | version | buildN | buildL | python | abi | platform
deriving DecidableEq, Repr

/-- `[^-]` -/
def notDash (c : Char) : Bool := c != '-'
/-- `[^-0-9]` -/
def notDashDig (c : Char) : Bool := c != '-' && !isDig c

/-- `-` followed by more -/
def reDash (r : Re FGrp) : Re FGrp := .seq (.chr (lit '-')) r
/-- `(?P<g>[^-]+)` -/
def reField (g : FGrp) : Re FGrp := .cap g (.plus (.chr notDash))
/-- `(?P<build_n>[0-9]+)(?P<build_l>[^-0-9][^-]*)?` -/
def reBuild : Re FGrp :=
  .seq (.cap .buildN (.plus (.chr isDig))) (.opt (.cap .buildL (.seq (.chr notDashDig) (.star (.chr notDash)))))
/-- `-(?P<python>[^-]+)-(?P<abi>[^-]+)-(?P<platform>[^-]+)\.whl` -/
def reTag : Re FGrp :=
  reDash (.seq (reField .python) (reDash (.seq (reField .abi) (reDash (.seq (reField .platform) (.lit lit ".whl".toList))))))

/-- binary_distribution_format.go:511-518 `reFilename` without the anchors (the code removes the white space of the literal) -/
def reFilename : Re FGrp :=
  .seq (reField .distribution) (reDash (.seq (reField .version) (.seq (.opt (reDash reBuild)) reTag)))

/-- `n, _ := strconv.Atoi(s)` for a string of digits (line 537): the error is dropped, and on overflow the value is
the largest `int` -/
def atoiSat (s : Str) : Int := match atoi s with | some n => n | none => 2 ^ 63 - 1

/-- binary_distribution_format.go:520-551 `ParseFilename` -/
def parseFilename (filename : Str) : Except Unit FileNameData :=
  match reFilename.matchFull filename with
  | none => .error ()
  | some m =>
    match Pep440.parseVersion (group m .version) with
    | .error e => .error e
    | .ok ver => .ok
        { distribution := group m .distribution
          version := ver
          build := if group m .buildN ≠ [] then some ⟨atoiSat (group m .buildN), group m .buildL⟩ else none
          tag := ⟨group m .python, group m .abi, group m .platform⟩ }

/-- binary_distribution_format.go:558-560 `BuildTag.String` -/
def BuildTag.string (t : BuildTag) : Str := itoa t.int ++ t.str

/-- binary_distribution_format.go:562-582 `BuildTag.Cmp`; nil pointers are `none` -/
def buildCmp (a b : Option BuildTag) : Int :=
  match a, b with
  | none, none => 0
  | none, some _ => -1
  | some _, none => 1
  | some a, some b =>
    let d := sub64 a.int b.int
    if d ≠ 0 then d
    else if a.str < b.str then -1
    else if b.str < a.str then 1
    else 0

/-- `regexp.MustCompile("[...]+").ReplaceAllLiteralString(s, string(r))` for a character class `p`: every maximal run
of `p` becomes one `r`; `inRun` says that the previous character was in the class -/
def collapse (p : Char → Bool) (r : Char) (inRun : Bool) : Str → Str
  | [] => []
  | c :: cs => if p c then (if inRun then collapse p r true cs else r :: collapse p r true cs)
      else c :: collapse p r false cs

/-- `[-_.]` -/
def isNameSep (c : Char) : Bool := c = '-' || c = '_' || c = '.'

/-- binary_distribution_format.go:592-627 `GenerateFilename`; outer `none` is the panic of `Version.String` on an empty release -/
def generateFilename (d : FileNameData) : Option (Except Unit Str) :=
  let dist := collapse isNameSep '_' false d.distribution
  match d.version.normalize with
  | none => none
  | some (.error e) => some (.error e)
  | some (.ok ver) =>
    match ver.string with
    | none => none
    | some vs =>
      if (match d.build with | some b => b.string.contains '-' | none => false) then some (.error ())
      else if d.tag.string.count '-' ≠ 2 then some (.error ())
      else some (.ok (dist ++ ('-' :: vs) ++ (match d.build with | some b => '-' :: b.string | none => []) ++
        ('-' :: d.tag.string) ++ ".whl".toList))

end Bdist
