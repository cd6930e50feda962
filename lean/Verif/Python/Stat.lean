import Verif.Go.Basic
/-! Model of pkg/python/stat.go and zip.go. -/
namespace Python
open Go

/-- stat.go:14 -/
abbrev StatMode := BitVec 16
/-- `fs.FileMode` (standard library), a `uint32` -/
abbrev FileMode := BitVec 32

/-- stat.go:20-37 -/
def modeFmt : StatMode := 0o170000#16
/-- stat.go:23 -/
def modeFmtNamedPipe : StatMode := 0o010000#16
/-- stat.go:24 -/
def modeFmtCharDevice : StatMode := 0o020000#16
/-- stat.go:26 -/
def modeFmtDir : StatMode := 0o040000#16
/-- stat.go:28 -/
def modeFmtBlockDevice : StatMode := 0o060000#16
/-- stat.go:30 -/
def modeFmtRegular : StatMode := 0o100000#16
/-- stat.go:32 -/
def modeFmtSymlink : StatMode := 0o120000#16
/-- stat.go:34 -/
def modeFmtSocket : StatMode := 0o140000#16
/-- stat.go:41-43 -/
def modePermSetUID : StatMode := 0o004000#16
/-- stat.go:42 -/
def modePermSetGID : StatMode := 0o002000#16
/-- stat.go:43 -/
def modePermSticky : StatMode := 0o001000#16

/-- constants of `io/fs` (standard library) -/
def goDir : FileMode := 0x80000000#32
/-- `fs.ModeSymlink` -/
def goSymlink : FileMode := 0x08000000#32
/-- `fs.ModeDevice` -/
def goDevice : FileMode := 0x04000000#32
/-- `fs.ModeNamedPipe` -/
def goNamedPipe : FileMode := 0x02000000#32
/-- `fs.ModeSocket` -/
def goSocket : FileMode := 0x01000000#32
/-- `fs.ModeSetuid` -/
def goSetuid : FileMode := 0x00800000#32
/-- `fs.ModeSetgid` -/
def goSetgid : FileMode := 0x00400000#32
/-- `fs.ModeCharDevice` -/
def goCharDevice : FileMode := 0x00200000#32
/-- `fs.ModeSticky` -/
def goSticky : FileMode := 0x00100000#32
/-- `fs.ModeIrregular` -/
def goIrregular : FileMode := 0x00080000#32
/-- `fs.ModeType` -/
def goModeType : FileMode := goDir ||| goSymlink ||| goNamedPipe ||| goSocket ||| goDevice ||| goCharDevice ||| goIrregular

/-- stat.go:74-92: the type bits -/
def typeToGo (t : StatMode) : FileMode :=
  if t = modeFmtBlockDevice then goDevice
  else if t = modeFmtCharDevice then goDevice ||| goCharDevice
  else if t = modeFmtDir then goDir
  else if t = modeFmtNamedPipe then goNamedPipe
  else if t = modeFmtSymlink then goSymlink
  else if t = modeFmtRegular then 0#32
  else if t = modeFmtSocket then goSocket
  else goIrregular

/-- stat.go:59-95 `StatMode.ToGo` -/
def toGo (m : StatMode) : FileMode :=
  let g := (m &&& 0o777#16).setWidth 32
  let g := if m &&& modePermSetGID ≠ 0#16 then g ||| goSetgid else g
  let g := if m &&& modePermSetUID ≠ 0#16 then g ||| goSetuid else g
  let g := if m &&& modePermSticky ≠ 0#16 then g ||| goSticky else g
  g ||| typeToGo (m &&& modeFmt)

/-- stat.go:113-129: the type bits -/
def typeFromGo (t : FileMode) : StatMode :=
  if t = goDevice then modeFmtBlockDevice
  else if t = goDevice ||| goCharDevice then modeFmtCharDevice
  else if t = goDir then modeFmtDir
  else if t = goNamedPipe then modeFmtNamedPipe
  else if t = goSymlink then modeFmtSymlink
  else if t = 0#32 then modeFmtRegular
  else if t = goSocket then modeFmtSocket
  else 0#16

/-- stat.go:98-132 `ModeFromGo` -/
def fromGo (g : FileMode) : StatMode :=
  let m := (g &&& 0o777#32).setWidth 16
  let m := if g &&& goSetgid ≠ 0#32 then m ||| modePermSetGID else m
  let m := if g &&& goSetuid ≠ 0#32 then m ||| modePermSetUID else m
  let m := if g &&& goSticky ≠ 0#32 then m ||| modePermSticky else m
  m ||| typeFromGo (g &&& goModeType)

/-- stat.go:137-139 -/
def isDir (m : StatMode) : Bool := m &&& modeFmt = modeFmtDir

/-- stat.go:144-146 -/
def isRegular (m : StatMode) : Bool := m &&& modeFmt = modeFmtRegular

/-- stat.go:155-179 `StatMode.String`; `none` is the panic of an index out of range -/
def modeString (m : StatMode) : Option Str := do
  let c0 ← "?pc?d?b?-?l?s?w?".toList[(m >>> 12).toNat]?
  let c1 ← "-r".toList[((m >>> 8) &&& 1#16).toNat]?
  let c2 ← "-w".toList[((m >>> 7) &&& 1#16).toNat]?
  let c3 ← "-xSs".toList[(((m >>> 6) &&& 1#16) ||| ((m >>> 10) &&& 2#16)).toNat]?
  let c4 ← "-r".toList[((m >>> 5) &&& 1#16).toNat]?
  let c5 ← "-w".toList[((m >>> 4) &&& 1#16).toNat]?
  let c6 ← "-xSs".toList[(((m >>> 3) &&& 1#16) ||| ((m >>> 9) &&& 2#16)).toNat]?
  let c7 ← "-r".toList[((m >>> 2) &&& 1#16).toNat]?
  let c8 ← "-w".toList[((m >>> 1) &&& 1#16).toNat]?
  let c9 ← "-xTt".toList[(((m >>> 0) &&& 1#16) ||| ((m >>> 8) &&& 2#16)).toNat]?
  some [c0, c1, c2, c3, c4, c5, c6, c7, c8, c9]

/-- zip.go:12-22: the constants of type `DOSAttribute`, by their index in the declaration (`1 << iota`) -/
def dosConst (iota : Nat) : BitVec 8 := 1#8 <<< iota

/-- stat.go:188-215: the constants of type `StatFileAttribute`, by their index in the declaration: the first eight are those of
`DOSAttribute`, the others are `1 << (8 + iota)`, where `iota` is the index.  Simplified: index and name are related by `attrNames`. -/
def attrConst (iota : Nat) : BitVec 32 := if iota < 8 then (dosConst iota).setWidth 32 else 1#32 <<< (8 + iota)

/-- stat.go:190-214: the names, in the order of the declaration, with those that begin with an underscore -/
def attrNames : List Str :=
  ["FileAttributeReadonly", "FileAttributeHidden", "FileAttributeSystem", "_FileAttributeUnused3", "FileAttributeDirectory",
   "FileAttributeArchive", "FileAttributeDevice", "FileAttributeNormal", "FileAttributeTemporary", "FileAttributeSparseFile",
   "FileAttributeReparsePoint", "FileAttributeCompressed", "FileAttributeOffline", "FileAttributeNotContentIndexed",
   "FileAttributeEncrypted", "FileAttributeIntegrityStream", "FileAttributeVirtual", "FileAttributeNoScrubData",
   "FileAttributeRecallOnOpen", "_FileattributeUnused19", "FileAttributeRecallOnDataAccess"].map String.toList

/-- stat.go:188-215: the value of the constant with this name -/
def attrByName (name : Str) : Option (BitVec 32) := (attrNames.findIdx? (· = name)).map attrConst

/-- stat.go:218-220 `StatFileAttribute.ToDOS` -/
def toDOS (fa : BitVec 32) : BitVec 8 := (fa &&& 0b00110111#32).setWidth 8

/-- zip.go:40-44 (`ZIPExternalAttributes`) -/
structure ZipAttrs where
  unix : StatMode
  unused : BitVec 8
  msdos : BitVec 8
deriving DecidableEq

/-- zip.go:47-49 `Raw` -/
def ZipAttrs.raw (ea : ZipAttrs) : BitVec 32 :=
  (ea.unix.setWidth 32 <<< 16) ||| (ea.unused.setWidth 32 <<< 8) ||| ea.msdos.setWidth 32

/-- zip.go:53-59 `ParseZIPExternalAttributes` -/
def parseZipAttrs (raw : BitVec 32) : ZipAttrs :=
  ⟨(raw >>> 16).setWidth 16, (raw >>> 8).setWidth 8, raw.setWidth 8⟩

end Python
