import Verif.Bdist.Zip
import Verif.Python.Platform
/-!
Model of the installation of a wheel:
/repo/pkg/python/pypa/bdist/binary_distribution_format.go (`InstallWheel`, `installToVFS`, `rewritePython`),
/repo/pkg/python/pypa/bdist/ioutil.go (`skipReader`, `zipEntry`, `rename`, `create`, `newTarEntry`),
/repo/pkg/python/pypa/bdist/misc.go (`sanitizePlatformForLayer`, `PostInstallHooks`),
/repo/pkg/python/pypa/bdist/hack.go (`withRecord`, `genRecord`).

Where the code ranges over a map, the model is a relation: it holds for every result that some order can give.

Not modelled: the log messages, the byte-code compiler (a parameter) and the options of the layer.
-/
namespace Bdist
open Go Fsutil Python

/-- the bytes of a string: Go strings are UTF-8 -/
def enc (s : Str) : Bytes := s.flatMap String.utf8EncodeChar

/-- the zero `time.Time`: the start of the year 1, in nanoseconds since 1970 -/
def zeroTime : Int := -62135596800000000000

/-- how a call ends: with a value, with an error, with a panic, or not at all -/
inductive Outcome (α : Type) where
  | ok (a : α)
  | error
  | panic
  | hangs

/-! ### ioutil.go -/

/-- the kinds of `fsutil.FileReference` (fileref.go:16-24) in the virtual file system: a `*zipEntry` (ioutil.go:43-46), with
the record of a `*withRecord` around it (hack.go:16-20) if there is one; or any other, as in `Fsutil.FileRef` -/
inductive Ref where
  | zip (h : ZHdr) (content : Option Bytes) (record : Option (Str × Int))
  | other (f : FileRef)

/-- ioutil.go:48 `FullName` of a `*zipEntry` -/
def Ref.fullName : Ref → Str
  | .zip h _ _ => clean h.name
  | .other f => f.name

/-- ioutil.go:49 `Name` -/
def Ref.baseName (r : Ref) : Str := pathBase r.fullName

/-- ioutil.go:55 `Open`, and reading to the end -/
def Ref.content : Ref → Option Bytes
  | .zip _ c _ => c
  | .other f => f.content

/-- ioutil.go:53 `IsDir` -/
def Ref.isDir : Ref → Bool
  | .zip h _ _ => h.isDir
  | .other f => match f.info with
    | some h => h.typeflag = typeDir
    | none => false

/-- `tar.FileInfoHeader` (archive/tar) of a `*zipEntry`.  Only directories and regular files; `create` makes no others.
The modification time of `FileInfo` is `Modified`, which `zip.Reader` always sets. -/
def zipInfo (h : ZHdr) : Option Hdr :=
  let mk (t : Char) (size : Int) : Hdr :=
    { name := h.name, typeflag := t, linkname := [], size := size, mode := ((h.mode &&& 0o777#32).toNat : Int), uid := 0, gid := 0,
      uname := [], gname := [], modTime := h.modified, accessTime := zeroTime, changeTime := zeroTime, pax := [], other := [] }
  if h.isDir then some (mk typeDir 0)
  else if h.mode &&& goModeType = 0#32 then some (mk typeReg h.size)
  else none

/-- `tar.FileInfoHeader` of a reference -/
def Ref.info : Ref → Option Hdr
  | .zip h _ _ => zipInfo h
  | .other f => f.info

/-- ioutil.go:119-130 `newTarEntry` with the function of binary_distribution_format.go:169-174: the header with the owner
replaced.  `none` for the error of `tar.FileInfoHeader`. -/
def chown (plat : Platform) (r : Ref) : Option FileRef :=
  match r.info with
  | none => none
  | some h => some ⟨r.fullName,
      some { h with name := r.fullName, uid := plat.uid, gid := plat.gid, uname := plat.uname, gname := plat.gname }, r.content⟩

/-- ioutil.go:77-103 `create`: the header of the new entry.  `mtime = none` is the zero time. -/
def createHdr (mtime : Option Int) (name : Str) (h : ZHdr) : ZHdr :=
  let isDir := hasSuffix h.name ['/']
  let unix : StatMode :=
    if isDir then modeFmtDir ||| 0o755#16
    else if isExecutable h then modeFmtRegular ||| 0o755#16
    else modeFmtRegular ||| 0o644#16
  { name := if isDir then name ++ ['/'] else name
    creator := 0x300#16
    attrs := ZipAttrs.raw ⟨unix, 0#8, 0#8⟩
    modified := mtime.getD h.modified
    size := h.size }

/-- ioutil.go:67-71, in `rename`: the new name in the header -/
def renameRef (new : Str) : Ref → Ref
  | .zip h c r => .zip { h with name := if h.isDir then new ++ ['/'] else new } c r
  | .other f => .other f

/-- ioutil.go:57-75 `rename`, as changes of the map.  The assertion that the entry is a `*zipEntry` always holds here. -/
def rename (vfs : Map Ref) (old new : Str) : Except Unit (List (MapOp Ref)) :=
  match vfs.get? old with
  | none => .error ()
  | some r => .ok [.del old, .set new (renameRef new r)]

/-- an `io.Reader` that is read with a buffer of `k` bytes: what arrives, the error, the reader afterwards.  (Like `Rd` in
Fsutil/Model.lean; a reader may deliver less than asked for.) -/
def Rd.read (k : Nat) (r : Rd) : Bytes × Option RErr × Rd :=
  match r.chunks with
  | [] => ([], some r.fin, r)
  | c :: cs => if c.length ≤ k then (c, none, ⟨cs, r.fin⟩) else (c.take k, none, ⟨c.drop k :: cs, r.fin⟩)

/-- ioutil.go:18-21 `skipReader` -/
structure SkipReader where
  skip : Nat
  inner : Rd

/-- ioutil.go:23-36 `skipReader.Read` -/
def SkipReader.read (k : Nat) (r : SkipReader) : Bytes × Option RErr × SkipReader :=
  if r.skip > 0 then
    let (b, rd, err) := readFull r.skip r.inner
    match err with
    | some e => ([], some (if e = .eof then .unexpectedEOF else e), ⟨r.skip - b.length, rd⟩)
    | none =>
      let (out, err, rd) := Rd.read k rd
      (out, err, ⟨r.skip - b.length, rd⟩)
  else
    let (out, err, rd) := Rd.read k r.inner
    (out, err, ⟨r.skip, rd⟩)

/-- reading a `skipReader` again and again with the given buffer sizes, until an error -/
def SkipReader.readAll : List Nat → SkipReader → Bytes × Option RErr
  | [], _ => ([], none)
  | k :: ks, r =>
    let (b, err, r) := r.read k
    match err with
    | some e => (b, some e)
    | none =>
      let (b', err) := SkipReader.readAll ks r
      (b ++ b', err)

/-! ### misc.go -/

/-- misc.go:17-35 `sanitizePlatformForLayer` (`filepath.ToSlash` changes nothing on Unix) -/
def sanitizePlatform (plat : Platform) : Except Unit Platform :=
  match plat.init with
  | .error e => .error e
  | .ok p =>
    let s := p.scheme
    .ok { p with scheme := {
      pureLib := trimPrefix s.pureLib ['/'], platLib := trimPrefix s.platLib ['/'], headers := trimPrefix s.headers ['/'],
      scripts := trimPrefix s.scripts ['/'], data := trimPrefix s.data ['/'] } }

/-! ### hack.go -/

/-- hack.go:28-44 `genRecord` of content that can be read -/
def genRecord (digest : Str → Bytes → Str) (content : Bytes) : Str × Int :=
  ("sha256=".toList ++ digest "sha256".toList content, content.length)

/-! ### binary_distribution_format.go -/

/-- what is not modelled: the hash functions (URL-safe base64 text of the hash), CSV and MIME header parsing
(`MIMEHeader.Get`), and the byte-code compiler `plat.PyCompile` -/
structure Env where
  digest : Str → Bytes → Str
  csv : Bytes → Option (List (List Str))
  mime : Bytes → Option (Str → Str)
  compile : Int → List Str → List Ref → Except Unit (List Ref)

/-- binary_distribution_format.go:661-700 `parseDistInfoWheel` -/
def parseWheel (env : Env) (zip : List ZFile) : Except Unit (Str × (Str → Str)) :=
  match distInfoDir zip with
  | .error e => .error e
  | .ok dir =>
    match openWheel zip (pathJoin [dir, "WHEEL".toList]) with
    | none => .error ()
    | some text =>
      match env.mime (text ++ enc "\r\n\r\n\r\n".toList) with
      | none => .error ()
      | some get => .ok (dir, get)

/-- binary_distribution_format.go:243-253: is the Wheel-Version supported?  `specVersion` (197) is 1.0, its major number 1. -/
def versionOK (s : Str) : Bool :=
  match Pep440.parseVersion s with
  | .error _ => false
  | .ok v => !(v.toPubVer.major > 1)

/-- binary_distribution_format.go:257-262: purelib or platlib -/
def rootDir (plat : Platform) (get : Str → Str) : Str :=
  if get "Root-Is-Purelib".toList = "true".toList then plat.scheme.pureLib else plat.scheme.platLib

/-- binary_distribution_format.go:263-269: unpack -/
def unpack (minTime : Option Int) (dst : Str) (zip : List ZFile) : Map Ref :=
  zip.foldl (fun vfs f =>
    let name := pathJoin [dst, f.hdr.name]
    vfs.set name (.zip (createHdr minTime name f.hdr) f.content none)) []

/-- binary_distribution_format.go:289: the name of the `.data` directory -/
def dataName (dir : Str) : Str := trimSuffix dir ".dist-info".toList ++ ".data".toList

/-- binary_distribution_format.go:289: `dataDir` -/
def dataDir (dst dir : Str) : Str := pathJoin [dst, dataName dir]

/-- binary_distribution_format.go:302-317: the directory for a kind of data; `none` for an unsupported kind -/
def schemeDir (s : Scheme) (key : Str) : Option Str :=
  if key = "purelib".toList then some s.pureLib
  else if key = "platlib".toList then some s.platLib
  else if key = "headers".toList then some s.headers
  else if key = "scripts".toList then some s.scripts
  else if key = "data".toList then some s.data
  else none

/-- binary_distribution_format.go:294-300: `strings.SplitN(relName, "/", 2)` into the key and the rest, empty if there is no slash -/
def keyRest (rel : Str) : Str × Str :=
  (rel.takeWhile (· ≠ '/'), (rel.dropWhile (· ≠ '/')).drop 1)

/-- binary_distribution_format.go:290-323: the body of the loop over the files; the variable is `vfsTypes` -/
def spreadBody (s : Scheme) (dataDir : Str) (fullName : Str) (vfs : Map Ref) (types : Map Str) :
    Except Unit (List (MapOp Ref) × Map Str) :=
  if !hasPrefix fullName (dataDir ++ ['/']) then .ok ([], types)
  else
    let kr := keyRest (trimPrefix fullName (dataDir ++ ['/']))
    match schemeDir s kr.1 with
    | none => .error ()
    | some dir =>
      let new := pathJoin [dir, kr.2]
      match rename vfs fullName new with
      | .error e => .error e
      | .ok ops => .ok (ops, types.set new kr.1)

/-- binary_distribution_format.go:405-432: the entry with the shebang rewritten, given its content and the new interpreter -/
def rewriteZip (digest : Str → Bytes → Str) (shebang : Str) (skip : Nat) (h : ZHdr) (c : Bytes) : Ref :=
  let ea := parseZipAttrs h.attrs
  .zip { h with size := h.size + (2 + (enc shebang).length) - skip, attrs := ZipAttrs.raw { ea with unix := ea.unix ||| 0o111#16 } }
    (some (enc "#!".toList ++ enc shebang ++ c.drop skip)) (some (genRecord digest c))

/-- binary_distribution_format.go:381-442: one file of `vfsTypes` with the key "scripts"; `none` is a panic (no such file, or not a `*zipEntry`).  When the
content cannot be read as a whole, the model takes the error here. -/
def rewriteScript (digest : Str → Bytes → Str) (plat : Platform) (r : Option Ref) : Option (Except Unit Ref) :=
  match r with
  | none => none
  | some r =>
    match r.content with
    | none => some (.error ())
    | some c =>
      let header := c.take (enc "#!pythonw".toList).length
      if !(enc "#!python".toList).isPrefixOf header then some (.ok r)
      else
        match r with
        | .zip h _ none =>
          if header = enc "#!pythonw".toList then some (.ok (rewriteZip digest plat.graphicalShebang 9 h c))
          else some (.ok (rewriteZip digest plat.consoleShebang 8 h c))
        | _ => none

/-- binary_distribution_format.go:371-445 `rewritePython`, the files of `vfsTypes` in the given order -/
def rewritePython (digest : Str → Bytes → Str) (plat : Platform) : List (Str × Str) → Map Ref → Option (Except Unit (Map Ref))
  | [], vfs => some (.ok vfs)
  | (name, key) :: rest, vfs =>
    if key ≠ "scripts".toList then rewritePython digest plat rest vfs
    else
      match rewriteScript digest plat (vfs.get? name) with
      | none => none
      | some (.error e) => some (.error e)
      | some (.ok r) => rewritePython digest plat rest (vfs.set name r)

/-- binary_distribution_format.go:332-334 and 342: what is deleted again -/
def removeRecords (dst dir : Str) (vfs : Map Ref) : Map Ref :=
  (((vfs.del (pathJoin [dst, dir, "RECORD".toList])).del (pathJoin [dst, dir, "RECORD.jws".toList])).del
    (pathJoin [dst, dir, "RECORD.p7s".toList])).del (dataDir dst dir)

/-- binary_distribution_format.go:345-351: the files to compile, in some order -/
def isPython (e : Str × Ref) : Bool := hasSuffix e.2.baseName ".py".toList

/-- binary_distribution_format.go:223-364 `installToVFS`, after unpacking: all results for some order of the three loops over maps -/
inductive SpreadRun (env : Env) (plat : Platform) (maxTime : Int) (dst dir : Str) (vfs : Map Ref) : Outcome (Map Ref) → Prop
  | spreadFails : RangeRun (spreadBody plat.scheme (dataDir dst dir)) (RangeState.start vfs) [] (.error ()) →
      SpreadRun env plat maxTime dst dir vfs .error
  | rewritePanics {vfs1 : Map Ref} {types order : Map Str} :
      RangeRun (spreadBody plat.scheme (dataDir dst dir)) (RangeState.start vfs) [] (.ok (vfs1, types)) → order.Perm types →
      rewritePython env.digest plat order vfs1 = none → SpreadRun env plat maxTime dst dir vfs .panic
  | rewriteFails {vfs1 : Map Ref} {types order : Map Str} :
      RangeRun (spreadBody plat.scheme (dataDir dst dir)) (RangeState.start vfs) [] (.ok (vfs1, types)) → order.Perm types →
      rewritePython env.digest plat order vfs1 = some (.error ()) → SpreadRun env plat maxTime dst dir vfs .error
  | compileFails {vfs1 vfs2 srcs : Map Ref} {types order : Map Str} :
      RangeRun (spreadBody plat.scheme (dataDir dst dir)) (RangeState.start vfs) [] (.ok (vfs1, types)) → order.Perm types →
      rewritePython env.digest plat order vfs1 = some (.ok vfs2) →
      srcs.Perm ((removeRecords dst dir vfs2).filter isPython) →
      env.compile maxTime [plat.scheme.pureLib, plat.scheme.platLib] (srcs.map (·.2)) = .error () →
      SpreadRun env plat maxTime dst dir vfs .error
  | done {vfs1 vfs2 srcs : Map Ref} {types order : Map Str} {outs : List Ref} :
      RangeRun (spreadBody plat.scheme (dataDir dst dir)) (RangeState.start vfs) [] (.ok (vfs1, types)) → order.Perm types →
      rewritePython env.digest plat order vfs1 = some (.ok vfs2) →
      srcs.Perm ((removeRecords dst dir vfs2).filter isPython) →
      env.compile maxTime [plat.scheme.pureLib, plat.scheme.platLib] (srcs.map (·.2)) = .ok outs →
      SpreadRun env plat maxTime dst dir vfs (.ok (outs.foldl (fun m r => m.set r.fullName r) (removeRecords dst dir vfs2)))

/-- binary_distribution_format.go:223-364 `installToVFS` -/
inductive VfsRun (env : Env) (plat : Platform) (minTime : Option Int) (maxTime : Int) (zip : List ZFile) : Outcome (Map Ref × Str) → Prop
  | noWheel : parseWheel env zip = .error () → VfsRun env plat minTime maxTime zip .error
  | badVersion {dir : Str} {get : Str → Str} : parseWheel env zip = .ok (dir, get) → versionOK (get "Wheel-Version".toList) = false →
      VfsRun env plat minTime maxTime zip .error
  | fails {dir : Str} {get : Str → Str} : parseWheel env zip = .ok (dir, get) → versionOK (get "Wheel-Version".toList) = true →
      SpreadRun env plat maxTime (rootDir plat get) dir (unpack minTime (rootDir plat get) zip) .error →
      VfsRun env plat minTime maxTime zip .error
  | panics {dir : Str} {get : Str → Str} : parseWheel env zip = .ok (dir, get) → versionOK (get "Wheel-Version".toList) = true →
      SpreadRun env plat maxTime (rootDir plat get) dir (unpack minTime (rootDir plat get) zip) .panic →
      VfsRun env plat minTime maxTime zip .panic
  | done {dir : Str} {get : Str → Str} {vfs : Map Ref} :
      parseWheel env zip = .ok (dir, get) → versionOK (get "Wheel-Version".toList) = true →
      SpreadRun env plat maxTime (rootDir plat get) dir (unpack minTime (rootDir plat get) zip) (.ok vfs) →
      VfsRun env plat minTime maxTime zip (.ok (vfs, pathJoin [rootDir plat get, dir]))

/-- binary_distribution_format.go:117-135: the upper bound for times if none is given; `now` is `reproducible.Now()`.  The sum at 129 is computed and
dropped. -/
def defaultMaxTime (now : Int) (zip : List ZFile) : Int :=
  let m := zip.foldl (fun m f => if f.hdr.modified > m then f.hdr.modified else m) zeroTime
  if m = zeroTime then now else roundSecond m + 1000000000

/-- binary_distribution_format.go:152-161: the directory made for a parent that is missing -/
def parentRef (maxTime : Int) (dir : Str) : Ref :=
  .other ⟨dir,
    some { name := dir, typeflag := typeDir, linkname := [], size := 0, mode := 0o755, uid := 0, gid := 0, uname := [], gname := [],
           modTime := maxTime, accessTime := zeroTime, changeTime := zeroTime, pax := [], other := [] }, some []⟩

/-- binary_distribution_format.go:150-163: the inner loop: the directories are added that are not there -/
def addParents (maxTime : Int) : List Str → Map Ref → List (MapOp Ref)
  | [], _ => []
  | dir :: dirs, vfs =>
    if (vfs.get? dir).isSome then addParents maxTime dirs vfs
    else .set dir (parentRef maxTime dir) :: addParents maxTime dirs (vfs.set dir (parentRef maxTime dir))

/-- binary_distribution_format.go:149-164: the body of the loop for parent directories.  The error stands for an inner loop that does not end (for a
rooted name): the code has no error here.  `prefixDirs` is the same loop in dir.go:55-58. -/
def parentsBody (maxTime : Int) (filename : Str) (vfs : Map Ref) (_ : Unit) : Except Unit (List (MapOp Ref) × Unit) :=
  match prefixDirs (filename.length + 1) (pathDir filename) with
  | none => .error ()
  | some dirs => .ok (addParents maxTime dirs vfs, ())

/-- misc.go:79-88 `PostInstallHook`: it changes the map of files or fails -/
abbrev Hook := Int → Map Ref → Str → Except Unit (Map Ref)

/-- misc.go:90-107 `PostInstallHooks`; no hooks are the nil hook -/
def postInstallHooks : List Hook → Hook
  | [], _, vfs, _ => .ok vfs
  | h :: hs, t, vfs, dir => (h t vfs dir).bind fun vfs => postInstallHooks hs t vfs dir

/-- the outside world of `InstallWheel`: see `Env` and Fsutil/Model.lean; `now` is `reproducible.Now()` -/
structure World extends Env where
  sortSlice : (FileRef → FileRef → Bool) → List FileRef → List FileRef
  accepts : Hdr → Bool
  now : Int

/-- binary_distribution_format.go:166-185: the layer from the files, visited in the order of the list -/
def layerOf (w : World) (plat : Platform) (maxTime : Int) (vfs : Map Ref) : Except Unit (List (Hdr × Bytes)) :=
  match vfs.mapM (fun e => chown plat e.2) with
  | none => .error ()
  | some refs => layerFromRefs w.sortSlice w.accepts maxTime refs

/-- binary_distribution_format.go:137-186: `InstallWheel` once the upper bound for times is known -/
inductive InstallRunAt (w : World) (plat : Platform) (minTime : Option Int) (maxTime : Int) (hook : Hook) (zip : List ZFile) :
    Outcome (List (Hdr × Bytes)) → Prop
  | fails : VfsRun w.toEnv plat minTime maxTime zip .error → InstallRunAt w plat minTime maxTime hook zip .error
  | panics : VfsRun w.toEnv plat minTime maxTime zip .panic → InstallRunAt w plat minTime maxTime hook zip .panic
  | hookFails {vfs : Map Ref} {dir : Str} : VfsRun w.toEnv plat minTime maxTime zip (.ok (vfs, dir)) →
      hook maxTime vfs dir = .error () → InstallRunAt w plat minTime maxTime hook zip .error
  | hangs {vfs vfs1 : Map Ref} {dir : Str} : VfsRun w.toEnv plat minTime maxTime zip (.ok (vfs, dir)) →
      hook maxTime vfs dir = .ok vfs1 → RangeRun (parentsBody maxTime) (RangeState.start vfs1) () (.error ()) →
      InstallRunAt w plat minTime maxTime hook zip .hangs
  | layerFails {vfs vfs1 vfs2 order : Map Ref} {dir : Str} : VfsRun w.toEnv plat minTime maxTime zip (.ok (vfs, dir)) →
      hook maxTime vfs dir = .ok vfs1 → RangeRun (parentsBody maxTime) (RangeState.start vfs1) () (.ok (vfs2, ())) →
      order.Perm vfs2 → layerOf w plat maxTime order = .error () → InstallRunAt w plat minTime maxTime hook zip .error
  | done {vfs vfs1 vfs2 order : Map Ref} {dir : Str} {layer : List (Hdr × Bytes)} :
      VfsRun w.toEnv plat minTime maxTime zip (.ok (vfs, dir)) →
      hook maxTime vfs dir = .ok vfs1 → RangeRun (parentsBody maxTime) (RangeState.start vfs1) () (.ok (vfs2, ())) →
      order.Perm vfs2 → layerOf w plat maxTime order = .ok layer → InstallRunAt w plat minTime maxTime hook zip (.ok layer)

/-- binary_distribution_format.go:88-186 `InstallWheel` of an archive that can be opened.  `none` for `minTime`, `maxTime` is the zero time. -/
inductive InstallRun (w : World) (plat : Platform) (minTime maxTime : Option Int) (hook : Hook) (zip : List ZFile) :
    Outcome (List (Hdr × Bytes)) → Prop
  | badPlatform : sanitizePlatform plat = .error () → InstallRun w plat minTime maxTime hook zip .error
  | badWheel {p : Platform} : sanitizePlatform plat = .ok p → integrityCheck w.digest w.csv zip = .error () →
      InstallRun w plat minTime maxTime hook zip .error
  | run {p : Platform} {r : Outcome (List (Hdr × Bytes))} : sanitizePlatform plat = .ok p → integrityCheck w.digest w.csv zip = .ok () →
      InstallRunAt w p minTime (maxTime.getD (defaultMaxTime w.now zip)) hook zip r → InstallRun w plat minTime maxTime hook zip r

end Bdist
