import Verif.Go.Path
import Verif.Go.Map
import Verif.Python.Stat
import Verif.Fsutil.Model
/-!
Model of the wheel as a ZIP archive and of its integrity check:
/repo/pkg/python/pypa/bdist/binary_distribution_format.go (`wheel`, `Open`, `integrityCheck`),
/repo/pkg/python/pypa/bdist/misc.go (`isExecutable`, `distInfoDir`).

Not modelled: the ZIP and CSV formats.  An archive is the list of its entries (`zip.Reader.File`), each with its header
and what reading it gives; reading fails (`none`) when the entry cannot be opened, or is damaged.  The CSV reader and
the hash functions are parameters.
-/
namespace Bdist
open Go Fsutil Python

/-- `zip.FileHeader` (archive/zip), the fields used: `creator` is `CreatorVersion`, `attrs` is `ExternalAttrs`,
`modified` is `Modified` (nanoseconds since the epoch), `size` is `UncompressedSize64` -/
structure ZHdr where
  name : Str
  creator : BitVec 16
  attrs : BitVec 32
  modified : Int
  size : Int
deriving DecidableEq

/-- `zip.File`: its header, and what `Open` followed by reading to the end gives -/
structure ZFile where
  hdr : ZHdr
  content : Option Bytes
deriving DecidableEq

/-- `unixModeToFileMode` (archive/zip): like `StatMode.ToGo` (stat.go:59-95), except that an unknown type is taken
for a regular file -/
def zipUnixMode (m : BitVec 16) : FileMode :=
  let t := m &&& modeFmt
  let g := (m &&& 0o777#16).setWidth 32
  let g := g ||| (if t = modeFmtBlockDevice then goDevice
    else if t = modeFmtCharDevice then goDevice ||| goCharDevice
    else if t = modeFmtDir then goDir
    else if t = modeFmtNamedPipe then goNamedPipe
    else if t = modeFmtSymlink then goSymlink
    else if t = modeFmtSocket then goSocket
    else 0#32)
  let g := if m &&& modePermSetGID ≠ 0#16 then g ||| goSetgid else g
  let g := if m &&& modePermSetUID ≠ 0#16 then g ||| goSetuid else g
  if m &&& modePermSticky ≠ 0#16 then g ||| goSticky else g

/-- `msdosModeToFileMode` (archive/zip) -/
def zipDosMode (a : BitVec 32) : FileMode :=
  let g : FileMode := if a &&& 0x10#32 ≠ 0#32 then goDir ||| 0o777#32 else 0o666#32
  if a &&& 0x01#32 ≠ 0#32 then g &&& ~~~ 0o222#32 else g

/-- `FileHeader.Mode` (archive/zip) -/
def ZHdr.mode (h : ZHdr) : FileMode :=
  let c := h.creator >>> 8
  let g : FileMode :=
    if c = 3#16 ∨ c = 19#16 then zipUnixMode ((h.attrs >>> 16).setWidth 16)
    else if c = 0#16 ∨ c = 11#16 ∨ c = 14#16 then zipDosMode h.attrs
    else 0#32
  if hasSuffix h.name ['/'] then g ||| goDir else g

/-- `FileHeader.FileInfo().IsDir()` -/
def ZHdr.isDir (h : ZHdr) : Bool := h.mode &&& goDir ≠ 0#32

/-- misc.go:38-41 `isExecutable` -/
def isExecutable (h : ZHdr) : Bool :=
  let ea := parseZipAttrs h.attrs
  isRegular ea.unix && (ea.unix &&& 0o111#16 ≠ 0#16)

/-- binary_distribution_format.go:72-80 `wheel.Open` and reading to the end: the first entry of that name -/
def openWheel (zip : List ZFile) (filename : Str) : Option Bytes :=
  (zip.find? (fun f => clean f.hdr.name = clean filename)).bind (·.content)

/-- the suffix in misc.go:54 -/
def distInfoSuffix : Str := ".dist-info".toList

/-- misc.go:51-58: the loop collecting `infoDirs`, a set -/
def infoDirs : List ZFile → List Str
  | [] => []
  | f :: fs =>
    let dirname := (split '/' (clean f.hdr.name)).headD []
    if hasSuffix dirname distInfoSuffix then
      if dirname ∈ infoDirs fs then infoDirs fs else dirname :: infoDirs fs
    else infoDirs fs

/-- misc.go:47-77 `distInfoDir`; the cache only saves time -/
def distInfoDir (zip : List ZFile) : Except Unit Str :=
  match infoDirs zip with
  | [d] => .ok d
  | _ => .error ()

/-- binary_distribution_format.go:731-737 `strongHashes` -/
def strongHashes : List Str := ["sha256".toList, "sha384".toList, "sha512".toList]

/-- binary_distribution_format.go:854-886 `checkFile`: the checksum as it would be written in RECORD, and the size.  `digest` gives the URL-safe base64
text of the hash. -/
def checkFile (digest : Str → Bytes → Str) (zip : List ZFile) (filename algo : Str) : Except Unit (Str × Int) :=
  match zip.find? (fun f => clean f.hdr.name = clean filename) with
  | none => .error ()
  | some f =>
    if algo ≠ [] ∧ algo ∉ strongHashes then .error ()
    else match f.content with
      | none => .error ()
      | some c => .ok (if algo = [] then [] else algo ++ '=' :: digest algo c, c.length)

/-- binary_distribution_format.go:819-833: the names to be found in RECORD (`todo`, a set) -/
def todoNames (dir : Str) (zip : List ZFile) : List Str :=
  ((zip.filter (fun f => !f.hdr.isDir)).map (fun f => clean f.hdr.name)).filter
    (fun n => n ≠ pathJoin [dir, "RECORD.jws".toList] && n ≠ pathJoin [dir, "RECORD.p7s".toList])

/-- binary_distribution_format.go:889-920: one row of RECORD; `false` if it adds an error.  `strings.SplitN(s, "=", 2)[0]` is the text before the
first `=`. -/
def rowOK (digest : Str → Bytes → Str) (dir : Str) (zip : List ZFile) (row : List Str) : Bool :=
  match row with
  | [name, hash, size] =>
    let name := clean name
    let present := !(hash = [] || size = []) || name = pathJoin [dir, "RECORD".toList]
    match checkFile digest zip name (hash.takeWhile (· ≠ '=')) with
    | .error _ => false
    | .ok (actHash, actSize) =>
      present && (hash = [] || actHash = hash) && (size = [] || itoa actSize = size)
  | _ => false

/-- binary_distribution_format.go:889-895: the name a row of RECORD removes from `todo` -/
def rowName (row : List Str) : Option Str :=
  match row with
  | [name, _, _] => some (clean name)
  | _ => none

/-- binary_distribution_format.go:813-936 `integrityCheck`; `csv` is `csv.NewReader(…).ReadAll()`.  All errors are collected; what counts is whether
there are any. -/
def integrityCheck (digest : Str → Bytes → Str) (csv : Bytes → Option (List (List Str))) (zip : List ZFile) : Except Unit Unit :=
  match distInfoDir zip with
  | .error e => .error e
  | .ok dir =>
    match openWheel zip (pathJoin [dir, "RECORD".toList]) with
    | none => .error ()
    | some text =>
      match csv text with
      | none => .error ()
      | some rows =>
        let todo := (todoNames dir zip).filter (fun n => some n ∉ rows.map rowName)
        if rows.all (rowOK digest dir zip) && todo.isEmpty then .ok () else .error ()

end Bdist
