import Verif.Go.Path
/-!
Model of pkg/fsutil (fileref.go, diff.go), pkg/dir (dir.go) and the `--output` logic of cmd_layer_gobuild.go.

The tar format itself (archive/tar) is not modelled: a layer is the list of headers handed to `tar.Writer.WriteHeader`,
each with the content written after it.  What `WriteHeader` then does to the times is `writtenTimes`.
-/
namespace Fsutil
open Go

/-- the content of a file -/
abbrev Bytes := List UInt8

/-- `tar.Header` (archive/tar).  Times are nanoseconds since the epoch.  `pax` is the map of PAX records in a canonical
order, `other` stands for the remaining fields (device numbers, format, extended attributes). -/
structure Hdr where
  name : Str
  typeflag : Char
  linkname : Str
  size : Int
  mode : Int
  uid : Int
  gid : Int
  uname : Str
  gname : Str
  modTime : Int
  accessTime : Int
  changeTime : Int
  pax : List (Str × Str)
  other : Str
deriving DecidableEq

/-- `tar.TypeReg` (archive/tar) -/
abbrev typeReg : Char := '0'
/-- `tar.TypeLink` (archive/tar) -/
abbrev typeLink : Char := '1'
/-- `tar.TypeSymlink` (archive/tar) -/
abbrev typeSymlink : Char := '2'
/-- `tar.TypeDir` (archive/tar) -/
abbrev typeDir : Char := '5'

/-! ### fileref.go -/

/-- fileref.go:16-24 `FileReference`: full name, result of `tar.FileInfoHeader` on it (`none` = error), and what reading it
gives (`none` = error from `Open`, `Read` or `Close`) -/
structure FileRef where
  name : Str
  info : Option Hdr
  content : Option Bytes

/-- fileref.go:36-48: the loop of the comparison once there are no more parts on the left; a missing part is empty -/
def nilLess : List Str → Bool
  | [] => false
  | d :: ds => if [] ≠ d then decide (([] : Str) < d) else nilLess ds

/-- fileref.go:36-48: the loop of the comparison once there are no more parts on the right -/
def lessNil : List Str → Bool
  | [] => false
  | c :: cs => if c ≠ [] then decide (c < []) else lessNil cs

/-- fileref.go:36-48: the loop of the comparison, on the remaining parts -/
def partsLess : List Str → List Str → Bool
  | [], ds => nilLess ds
  | cs, [] => lessNil cs
  | c :: cs, d :: ds => if c ≠ d then decide (c < d) else partsLess cs ds

/-- fileref.go:31-49: the `less` given to `sort.Slice` -/
def refLess (a b : FileRef) : Bool := partsLess (split '/' a.name) (split '/' b.name)

/-- fileref.go:60-68 and dir.go:116-124: clamping of the three times -/
def clampTimes (clamp : Int) (h : Hdr) : Hdr :=
  let h := if h.modTime > clamp then { h with modTime := clamp } else h
  let h := if h.accessTime > clamp then { h with accessTime := clamp } else h
  if h.changeTime > clamp then { h with changeTime := clamp } else h

/-- the content that may follow a header of a regular file: the tar writer fails unless it has the announced size -/
def bodyOf (h : Hdr) (content : Option Bytes) : Except Unit Bytes :=
  if h.typeflag = typeReg then
    match content with
    | none => .error ()
    | some c => if (c.length : Int) = h.size then .ok c else .error ()
  else .ok []

/-- fileref.go:55-85: one file.  `accepts` tells which headers `WriteHeader` can encode. -/
def refEntry (accepts : Hdr → Bool) (clamp : Int) (f : FileRef) : Except Unit (Hdr × Bytes) :=
  match f.info with
  | none => .error ()
  | some h =>
    let h := clampTimes clamp { h with name := f.name }
    if accepts h then (bodyOf h f.content).bind fun b => .ok (h, b) else .error ()

/-- fileref.go:54-86: the loop over the sorted references -/
def refEntries (accepts : Hdr → Bool) (clamp : Int) : List FileRef → Except Unit (List (Hdr × Bytes))
  | [] => .ok []
  | f :: fs => (refEntry accepts clamp f).bind fun e => (refEntries accepts clamp fs).bind fun es => .ok (e :: es)

/-- fileref.go:26-95 `LayerFromFileReferences`, the entries of the layer.  `sortSlice` is `sort.Slice`. -/
def layerFromRefs (sortSlice : (FileRef → FileRef → Bool) → List FileRef → List FileRef) (accepts : Hdr → Bool) (clamp : Int)
    (vfs : List FileRef) : Except Unit (List (Hdr × Bytes)) :=
  refEntries accepts clamp (sortSlice refLess vfs)

/-- `tar.Header` documentation: when the format is not given, as in this package, `WriteHeader` "rounds ModTime to the
nearest second and ignores the AccessTime and ChangeTime fields" -/
def roundSecond (t : Int) : Int := (t + 500000000) / 1000000000 * 1000000000

/-! ### dir.go -/

/-- dir.go:26-32 -/
structure Ownership where
  uid : Int
  uname : Str
  gid : Int
  gname : Str

/-- dir.go:18-24 -/
structure Prefix where
  dirName : Str
  mode : Int
  owner : Ownership

/-- what `filepath.Walk` reports for one file: error or not, the name relative to the directory with forward slashes
(`filepath.Rel`, `filepath.ToSlash`), `tar.FileInfoHeader` of its info, the identity used by `os.SameFile`, the result of
`os.Readlink` and of reading it -/
structure WalkItem where
  err : Bool
  rel : Str
  info : Option Hdr
  file : Nat
  target : Option Str
  content : Option Bytes

/-- dir.go:55-58: the directories of the prefix, innermost first; `none` when the loop does not end within `n` steps -/
def prefixDirs : Nat → Str → Option (List Str)
  | 0, _ => none
  | n + 1, dir => if dir = ['.'] then some [] else (prefixDirs n (pathDir dir)).map (dir :: ·)

/-- dir.go:52-54 -/
def prefixMode (p : Prefix) : Int := if p.mode = 0 then 0o755 else p.mode

/-- dir.go:60-70: the header for a directory of the prefix; fields that are not set are zero (`zeroTime`: the zero
`time.Time`) -/
def prefixHdr (zeroTime clamp : Int) (p : Prefix) (dir : Str) : Hdr :=
  { name := dir, typeflag := typeDir, linkname := [], size := 0, mode := prefixMode p, uid := p.owner.uid, gid := p.owner.gid,
    uname := p.owner.uname, gname := p.owner.gname, modTime := clamp, accessTime := zeroTime, changeTime := zeroTime, pax := [], other := [] }

/-- dir.go:128-141 -/
def applyChown (chown : Option Ownership) (h : Hdr) : Hdr :=
  match chown with
  | none => h
  | some c =>
    let h := if c.uid ≥ 0 then { h with uid := c.uid } else h
    let h := if c.uname ≠ [] then { h with uname := c.uname } else h
    let h := if c.gid ≥ 0 then { h with gid := c.gid } else h
    if c.gname ≠ [] then { h with gname := c.gname } else h

/-- dir.go:88-90 -/
def entryName (pre : Option Prefix) (rel : Str) : Str :=
  match pre with
  | none => rel
  | some p => pathJoin [p.dirName, rel]

/-- dir.go:103-109: a file seen before becomes a hard link to the first entry for it -/
def hardLink (log : List (Str × Nat)) (file : Nat) (h : Hdr) : Hdr :=
  match log.find? (fun e => e.2 = file) with
  | some e => { h with typeflag := typeLink, linkname := e.1 }
  | none => h

/-- dir.go:110-115 -/
def readLink (target : Option Str) (h : Hdr) : Except Unit Hdr :=
  if h.typeflag = typeSymlink then
    match target with
    | none => .error ()
    | some t => .ok { h with linkname := t }
  else .ok h

/-- dir.go:76-155: the callback for one file: the entry written, if any, the log being the earlier files.  The header is
written (dir.go:125-127) before the ownership is changed (dir.go:128-141). -/
def walkEntry (accepts : Hdr → Bool) (pre : Option Prefix) (chown : Option Ownership) (clamp : Int)
    (log : List (Str × Nat)) (w : WalkItem) : Except Unit (Option (Hdr × Bytes)) :=
  if w.err then .error ()
  else if w.rel = ['.'] then .ok none
  else
    match w.info with
    | none => .error ()
    | some h =>
      (readLink w.target (hardLink log w.file { h with name := entryName pre w.rel })).bind fun h =>
      let written := clampTimes clamp h
      if accepts written then
        let h := applyChown chown written
        (bodyOf h w.content).bind fun b => .ok (some (written, b))
      else .error ()

/-- dir.go:91-96: what is appended to the log -/
def walkLog (pre : Option Prefix) (log : List (Str × Nat)) (w : WalkItem) : List (Str × Nat) :=
  if w.rel = ['.'] then log else log ++ [(entryName pre w.rel, w.file)]

/-- dir.go:76-159: the walk -/
def walkEntries (accepts : Hdr → Bool) (pre : Option Prefix) (chown : Option Ownership) (clamp : Int) :
    List (Str × Nat) → List WalkItem → Except Unit (List (Hdr × Bytes))
  | _, [] => .ok []
  | log, w :: ws =>
    (walkEntry accepts pre chown clamp log w).bind fun e =>
    (walkEntries accepts pre chown clamp (walkLog pre log w) ws).bind fun es => .ok (e.toList ++ es)

/-- dir.go:51-74: the entries for the prefix; `none` when the loop does not end -/
def prefixEntries (n : Nat) (accepts : Hdr → Bool) (pre : Option Prefix) (zeroTime clamp : Int) : Option (Except Unit (List (Hdr × Bytes))) :=
  match pre with
  | none => some (.ok [])
  | some p =>
    (prefixDirs n p.dirName).map fun dirs =>
      let hs := dirs.reverse.map (prefixHdr zeroTime clamp p)
      if hs.all accepts then .ok (hs.map (fun h => (h, []))) else .error ()

/-- dir.go:34-169 `LayerFromDir`, the entries of the layer -/
def layerFromDir (n : Nat) (accepts : Hdr → Bool) (pre : Option Prefix) (chown : Option Ownership) (zeroTime clamp : Int)
    (walk : List WalkItem) : Option (Except Unit (List (Hdr × Bytes))) :=
  (prefixEntries n accepts pre zeroTime clamp).map fun r =>
    r.bind fun ps => (walkEntries accepts pre chown clamp [] walk).bind fun es => .ok (ps ++ es)

/-! ### diff.go -/

/-- how reading ends: `io.EOF`, `io.ErrUnexpectedEOF`, or another error -/
inductive RErr
  | eof | unexpectedEOF | other
deriving DecidableEq

/-- an `io.Reader`: the chunks that successive `Read`s deliver (a `Read` with a smaller buffer gets part of a chunk), then
the error -/
structure Rd where
  chunks : List Bytes
  fin : RErr
deriving DecidableEq

/-- the loop of `io.ReadFull` with `k` bytes of the buffer left: the bytes read, and the chunks that remain -/
def readUpTo (k : Nat) : List Bytes → Bytes × List Bytes
  | [] => ([], [])
  | c :: cs =>
    if k = 0 then ([], c :: cs)
    else if c.length ≤ k then
      let r := readUpTo (k - c.length) cs
      (c ++ r.1, r.2)
    else (c.take k, c.drop k :: cs)

/-- `io.ReadFull` (standard library): bytes read, the reader afterwards, and the error -/
def readFull (k : Nat) (r : Rd) : Bytes × Rd × Option RErr :=
  let x := readUpTo k r.chunks
  (x.1, ⟨x.2, r.fin⟩,
    if x.1.length ≥ k then none
    else if r.fin = .eof ∧ x.1.length > 0 then some .unexpectedEOF else some r.fin)

/-- diff.go:19-21 and 23-25: the errors that are not returned -/
def isEnd (e : Option RErr) : Bool := e = none || e = some .eof || e = some .unexpectedEOF

/-- diff.go:14 -/
def chunkSize : Nat := 1024

/-- diff.go:17-35: the loop of `readersEqual`; `none` if it does not end within `n` steps -/
def readersEqualLoop : Nat → Rd → Rd → Option (Except Unit Bool)
  | 0, _, _ => none
  | n + 1, a, b =>
    let x := readFull chunkSize a
    if !isEnd x.2.2 then some (.error ())
    else
      let y := readFull chunkSize b
      if !isEnd y.2.2 then some (.error ())
      else if x.1 ≠ y.1 then some (.ok false)
      else if x.1.length < chunkSize then some (.ok true)
      else readersEqualLoop n x.2.1 y.2.1

/-- diff.go:38-44 `headersEqualExceptTimestamps`: the two assignments to `ModTime` and the one to `AccessTime`, then
`reflect.DeepEqual` -/
def headersEqual (a b : Hdr) : Bool :=
  let b := { b with modTime := a.modTime }
  let b := { b with accessTime := a.accessTime }
  let b := { b with modTime := a.modTime }
  decide (a = b)

/-- a layer as a `tar.Reader` delivers it: the entries, then the error of the next `Next` -/
structure Arch where
  entries : List (Hdr × Rd)
  tail : RErr
deriving DecidableEq

/-- diff.go:72-101: the loop; `n` bounds the reading of each entry's content -/
def layersEqualLoop (n : Nat) (aTail bTail : RErr) : List (Hdr × Rd) → List (Hdr × Rd) → Option (Except Unit Bool)
  | [], [] => if aTail ≠ .eof then some (.error ()) else if bTail ≠ .eof then some (.error ()) else some (.ok true)
  | [], _ :: _ => if aTail ≠ .eof then some (.error ()) else some (.ok false)
  | _ :: _, [] => if bTail ≠ .eof then some (.error ()) else some (.ok false)
  | x :: xs, y :: ys =>
    if !headersEqual x.1 y.1 then some (.ok false)
    else
      match readersEqualLoop n x.2 y.2 with
      | none => none
      | some (.error e) => some (.error e)
      | some (.ok false) => some (.ok false)
      | some (.ok true) => layersEqualLoop n aTail bTail xs ys

/-- what `ociv1.Layer.Uncompressed` gives: an archive and whether closing it fails, or an error -/
abbrev Opened := Except Unit (Arch × Bool)

/-- diff.go:46-102 `LayersEqualExceptTimestamps`: an error of `Close` counts if there was no other -/
def layersEqual (n : Nat) (a b : Opened) : Option (Except Unit Bool) :=
  match a with
  | .error e => some (.error e)
  | .ok (x, xc) =>
    match b with
    | .error e => some (.error e)
    | .ok (y, yc) =>
      (layersEqualLoop n x.tail y.tail x.entries y.entries).map fun r =>
        r.bind fun eq => if yc || xc then .error () else .ok eq

/-! ### cmd_layer_gobuild.go -/

/-- what `fsutil.OpenLayer` finds under the output file name -/
inductive Old
  | absent
  | fails
  | layer (a : Opened)

/-- the outcome of the command: error, old file kept, or a new file with the new layer written in its place -/
inductive Outcome
  | failed | kept | written
deriving DecidableEq

/-- cmd_layer_gobuild.go:44-80 with `--output`; `writable` tells whether removing the old file, creating the new one and
writing to it succeed -/
def gobuildOutput (n : Nat) (old : Old) (new : Opened) (writable : Bool) : Option Outcome :=
  let write := if writable then Outcome.written else .failed
  match old with
  | .fails => some .failed
  | .absent => some write
  | .layer o => (layersEqual n new o).map fun r =>
    match r with
    | .error _ => .failed
    | .ok true => .kept
    | .ok false => write

end Fsutil
