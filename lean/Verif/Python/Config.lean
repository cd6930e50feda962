import Verif.Go.Basic
/-! Model of pkg/python/configparser.go, with `Interpolate` being `NoInterpolation` (configparser.go:170-172), the only value
used in the repository. -/
namespace Python
open Go

/-- configparser.go:17-29 `ConfigParser` -/
structure Parser where
  delimiters : List Str
  commentPrefixes : List Str
  inlineCommentPrefixes : List Str
  strict : Bool
  emptyLinesInValues : Bool
  transform : Str → Str

/-- configparser.go:31-43 `NewConfigParser` -/
def newConfigParser : Parser := ⟨["=".toList, ":".toList], ["#".toList, ";".toList], [], true, true, toLower⟩

/-- configparser.go:13-15 `Config`: the maps as association lists, in the order of insertion -/
abbrev Config := List (Str × List (Str × Str))

/-- `strings.Index` (standard library) -/
def strIndex (sub : Str) : Str → Option Nat
  | [] => if sub.isPrefixOf [] then some 0 else none
  | c :: s => if sub.isPrefixOf (c :: s) then some 0 else (strIndex sub s).map (· + 1)

/-- repeated `file.ReadString('\n')` (configparser.go:67): the lines with their newline; the last one, possibly empty, has none -/
def withNewline : List Str → List Str
  | [] => []
  | [l] => [l]
  | l :: ls => (l ++ ['\n']) :: withNewline ls

/-- configparser.go:66-67, 72-74: the lines the loop goes over -/
def readLines (text : Str) : List Str := withNewline (split '\n' text)

/-- configparser.go:76-88: `commentStart` -/
def commentStart (p : Parser) (line : Str) : Nat :=
  let cs := p.inlineCommentPrefixes.foldl (fun cs pre =>
    match strIndex pre line with
    | some i => if 0 < i ∧ i < cs then i else cs
    | none => cs) line.length
  if p.commentPrefixes.any (fun pre => hasPrefix (trimSpace line) pre) then 0 else cs

/-- configparser.go:104-110: `lineIndentLevel`, in bytes; 0 if the line is blank -/
def indentLevel (line : Str) : Nat :=
  if line.all isSpace then 0 else ((line.takeWhile isSpace).map Char.utf8Size).sum

/-- configparser.go:133-142: `sepPos` and `sepLen` -/
def findSep (delims : List Str) (value : Str) : Nat × Nat :=
  delims.foldl (fun acc sep =>
    match strIndex sep value with
    | some i => if i < acc.1 then (i, sep.length) else acc
    | none => acc) (value.length, 0)

/-- the variables of configparser.go:46-53; `curSection` is the name of the section it is the map of -/
structure CfgState where
  cfg : Config
  indent : Nat
  sect : Option Str
  key : Str
  val : Option (List Str)

/-- `m[k] = v` -/
def setKey {α : Type} (k : Str) (v : α) : List (Str × α) → List (Str × α)
  | [] => [(k, v)]
  | e :: m => if e.1 = k then (k, v) :: m else e :: setKey k v m

/-- `m[k]` with the presence flag -/
def getKey {α : Type} (k : Str) : List (Str × α) → Option α
  | [] => none
  | e :: m => if e.1 = k then some e.2 else getKey k m

/-- `strings.TrimRight(s, "\n")` -/
def trimNewlines (s : Str) : Str := (s.reverse.dropWhile (· = '\n')).reverse

/-- configparser.go:55-61 `flushKV`.  (A value is only ever present when there is a section.) -/
def flushKV (st : CfgState) : CfgState :=
  match st.val, st.sect with
  | some vs, some s =>
    { st with cfg := setKey s (setKey st.key (trimNewlines (join ['\n'] vs)) ((getKey s st.cfg).getD [])) st.cfg, key := [], val := none }
  | _, _ => st

/-- configparser.go:115-125: a section header -/
def sectionLine (p : Parser) (st : CfgState) (level : Nat) (value : Str) : Except Unit CfgState :=
  let st := flushKV st
  let name := trimSuffix (trimPrefix value ['[']) [']']
  if getKey name st.cfg = none then .ok { st with cfg := setKey name [] st.cfg, indent := level, sect := some name }
  else if p.strict then .error ()
  else .ok { st with indent := level, sect := some name }

/-- configparser.go:126-153: the start of an option -/
def optionLine (p : Parser) (st : CfgState) (level : Nat) (value : Str) : Except Unit CfgState :=
  let st := flushKV st
  match st.sect with
  | none => .error ()
  | some s =>
    let sep := findSep p.delimiters value
    if sep.1 = value.length then .error ()
    else
      let key := p.transform (trimSpace (value.take sep.1))
      if p.strict ∧ (getKey key ((getKey s st.cfg).getD [])).isSome then .error ()
      else .ok { st with indent := level, key := key, val := some [trimSpace (value.drop (sep.1 + sep.2))] }

/-- configparser.go:75-153: one line -/
def cfgLine (p : Parser) (st : CfgState) (line : Str) : Except Unit CfgState :=
  let cs := commentStart p line
  let value := trimSpace (line.take cs)
  if value = [] then
    if p.emptyLinesInValues then
      match st.val with
      | some vs => if cs = line.length then .ok { st with val := some (vs ++ [value]) } else .ok st
      | none => .ok st
    else .ok { st with indent := 0 }
  else
    let level := indentLevel line
    if st.val.isSome ∧ 0 < level ∧ st.indent < level then .ok { st with val := some (st.val.getD [] ++ [value]) }
    else if hasPrefix value ['['] && hasSuffix value [']'] then sectionLine p st level value
    else optionLine p st level value

/-- configparser.go:66-154: the loop -/
def cfgLines (p : Parser) : CfgState → List Str → Except Unit CfgState
  | st, [] => .ok st
  | st, l :: ls => (cfgLine p st l).bind fun st => cfgLines p st ls

/-- configparser.go:45-168 `Parse`, for a reader that delivers `text` -/
def parseConfig (p : Parser) (text : Str) : Except Unit Config :=
  (cfgLines p ⟨[], 0, none, [], none⟩ (readLines text)).bind fun st => .ok (flushKV st).cfg

end Python
