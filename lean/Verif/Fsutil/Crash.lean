import Verif.Fsutil.Spec
/-! Model of the file that `layer gobuild --output` (cmd_layer_gobuild.go:44-80) writes, byte by byte, so that a run can be interrupted
anywhere; and of archive/tar (standard library) as far as it decides how the beginning of an archive is read.  A header is one block,
which two functions write and read: extended headers (PAX and GNU: long names, large numbers) are left out. -/
namespace Fsutil.Crash
open Go

/-- archive/tar `blockSize` -/
def blockSize : Nat := 512

/-- archive/tar `blockPadding` -/
def padding (size : Nat) : Nat := (blockSize - size % blockSize) % blockSize

/-- archive/tar `isHeaderOnlyType` -/
def headerOnly (typeflag : Char) : Bool := typeflag ∈ ['1', '2', '3', '4', '5', '6']

/-- the size of the content that follows a header: archive/tar `Reader.handleRegularFile`, `Writer.templateV7Plus` -/
def dataSize (h : Hdr) : Nat := if headerOnly h.typeflag then 0 else h.size.toNat

/-- archive/tar `zeroBlock` and parts of it -/
def zeros (n : Nat) : Bytes := List.replicate n 0

/-- archive/tar: how a header is written into one block, and read from a block that is not all zeros (`none` is `ErrHeader`) -/
structure Codec where
  enc : Hdr → Bytes
  dec : Bytes → Option Hdr

/-- `tar.Writer.WriteHeader`, `Write` of the content, and the padding that follows (`Flush`) -/
def entryBytes (cd : Codec) (e : Hdr × Bytes) : Bytes := cd.enc e.1 ++ e.2 ++ zeros (padding e.2.length)

/-- the archive: dir/dir.go:46-163 (gobuild.go:60), with `tar.Writer.Close`, which writes two blocks of zeros -/
def tarBytes (cd : Codec) (es : List (Hdr × Bytes)) : Bytes := es.flatMap (entryBytes cd) ++ zeros (2 * blockSize)

/-- archive/tar `Reader.readHeader`: the next header, or the error -/
def readHeader (cd : Codec) (bs : Bytes) : Except RErr Hdr :=
  if bs.length = 0 then .error .eof
  else if bs.length < blockSize then .error .unexpectedEOF
  else if bs.take blockSize = zeros blockSize then
    let bs := bs.drop blockSize
    if bs.length = 0 then .error .eof
    else if bs.length < blockSize then .error .unexpectedEOF
    else if bs.take blockSize = zeros blockSize then .error .eof
    else .error .other
  else match cd.dec (bs.take blockSize) with
    | none => .error .other
    | some h => if !headerOnly h.typeflag ∧ h.size < 0 then .error .other else .ok h

/-- archive/tar `Reader.Next` until it fails, with what each content reads as.  A content that is cut short ends with
`io.ErrUnexpectedEOF` (`regFileReader.Read`), and so does the `Next` that skips the rest of it (`discard`); where only the padding is cut
short, `Next` gives `io.EOF` (`tryReadFull`).  The first argument bounds the number of entries. -/
def readTar (cd : Codec) : Nat → Bytes → Arch
  | 0, _ => ⟨[], .other⟩
  | n + 1, bs => match readHeader cd bs with
    | .error e => ⟨[], e⟩
    | .ok h =>
      let bs := bs.drop blockSize
      let size := dataSize h
      if bs.length < size then ⟨[(h, ⟨[bs], .unexpectedEOF⟩)], .unexpectedEOF⟩
      else
        let entry : Hdr × Rd := (h, ⟨[bs.take size], .eof⟩)
        let bs := bs.drop size
        if bs.length < padding size then ⟨[entry], .eof⟩
        else
          let rest := readTar cd n (bs.drop (padding size))
          ⟨entry :: rest.entries, rest.tail⟩

/-- what a `tar.Reader` makes of a file -/
def archOf (cd : Codec) (bs : Bytes) : Arch := readTar cd (bs.length + 1) bs

/-- cmd_layer_gobuild.go:47-50, fsutil/open.go: what is found under the name of the output file; `none`: there is no file.  Simplified: a
file is never taken for a compressed one, and reading it from the disk does not fail. -/
def oldOf (cd : Codec) : Option Bytes → Old
  | none => .absent
  | some bs => .layer (.ok (archOf cd bs, false))

/-- cmd_layer_gobuild.go:44-80: what the run does about the file, if nothing goes wrong in writing it -/
def decision (cd : Codec) (old : Option Bytes) (new : List (Hdr × Bytes)) : Option Outcome :=
  gobuildOutput (new.flatMap (·.2) |>.length.succ) (oldOf cd old) (.ok (archOf cd (tarBytes cd new), false)) true

/-- how a run ends: killed, or with an error, or with status 0 -/
inductive Ending
  | interrupted | failed | ok
deriving DecidableEq

/-- The runs of the command on a file, with the programs built as `new`: how it may end and what it may leave.  A run can be interrupted
before it does anything to the file, after cmd_layer_gobuild.go:63 (`os.Remove`), and, from line 66 on (`os.OpenFile`), after any number of
bytes; an error in these places leaves the same. -/
inductive Run (cd : Codec) (old : Option Bytes) (new : List (Hdr × Bytes)) : Ending → Option Bytes → Prop
  | early : Run cd old new .interrupted old
  | unread : decision cd old new = some .failed → Run cd old new .failed old
  | kept : decision cd old new = some .kept → Run cd old new .ok old
  | removed (r : Ending) : r ≠ .ok → decision cd old new = some .written → Run cd old new r none
  | cut (r : Ending) (k : Nat) : r ≠ .ok → decision cd old new = some .written → Run cd old new r (some ((tarBytes cd new).take k))
  | unremoved : decision cd old new = some .written → Run cd old new .failed old
  | written : decision cd old new = some .written → Run cd old new .ok (some (tarBytes cd new))

/-- runs one after the other, each with the programs as they are then: how each ended, and the file in the end -/
inductive History (cd : Codec) : Option Bytes → List (List (Hdr × Bytes) × Ending) → Option Bytes → Prop
  | nil (f : Option Bytes) : History cd f [] f
  | run {f g h : Option Bytes} {new : List (Hdr × Bytes)} {r : Ending} {rs : List (List (Hdr × Bytes) × Ending)} :
      Run cd f new r g → History cd g rs h → History cd f ((new, r) :: rs) h

end Fsutil.Crash
