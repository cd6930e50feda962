import Verif.Squash.PropsRead
/-! Model of `fs.WalkDir` (standard library, io/fs/walk.go) on a file system that `Load` (pkg/squash/squash.go) returned, with a callback
that looks at everything: it returns nil whatever it is told. -/
namespace Squash.Walk
open Go

/-- a call of the callback: the name, what the entry says of itself (`Name()` and `IsDir()`; `none` is a nil entry), and whether there is
an error -/
structure Visit where
  name : Str
  ent : Option (Str × Bool)
  failed : Bool
deriving DecidableEq

/-- `IsDir()` of `tar.Header.FileInfo()` (standard library, archive/tar/common.go): by the type, or by the upper bits of the mode, which is
converted to 32 bits -/
def hdrIsDir (h : Header) : Bool := h.typeflag = typeDir || (h.mode % 2 ^ 32) / 4096 = 4

/-- vfs_fs.go:131, 157: `IsDir()` of an entry of the listing of `p`.  Simplified: the entry's header is looked up by the entry's name, which
is the key of the child (`entOf_kid`). -/
def entIsDir (S : FS) (p : Path) (d : DirEnt) : Bool :=
  if d.missing then true
  else match S.get? (p ++ [d.name]) with
    | some ⟨some h, _⟩ => hdrIsDir h
    | _ => false

/-- `fs.Stat`: vfs_fs.go:31-57 `Open` and 73-84 `Stat`: the name and whether it is a directory -/
def stat (n : Nat) (S : FS) (name : Str) : Res (Str × Bool) :=
  (openFile n S name).bind fun x => match S.get? x.1, S.get? x.2 with
    | some ⟨some t, _⟩, some ⟨some l, _⟩ => some (.ok (pathBase l.name, hdrIsDir { t with name := l.name }))
    | _, _ => some (.error ())

/-- `fs.ReadDir`: vfs_fs.go:31-57 `Open` and 165-225 `ReadDir(-1)`, and sorting once more; the entries with their `IsDir()`.  `order` is the
iteration order of each node's map. -/
def readDir (n : Nat) (srt : (DirEnt → DirEnt → Bool) → List DirEnt → List DirEnt) (order : Path → List Str → List Str) (S : FS) (name : Str) :
    Res (List (Str × Bool)) :=
  (openFile n S name).bind fun x => match S.get? x.1 with
    | none => some (.error ())
    | some nd => match ((freshReader nd).readDir srt (kidsOf n (order x.1) S x.1) (-1)).2 with
      | .error _ => some (.error ())
      | .ok l => some (.ok ((srt (fun a b => decide (a.name < b.name)) l).map fun d => (d.name, entIsDir S x.1 d)))

/-- the loop of `walkDir` over the entries -/
def each (f : Str × Bool → Option (List Visit)) : List (Str × Bool) → Option (List Visit)
  | [] => some []
  | e :: es => match f e, each f es with
    | some a, some b => some (a ++ b)
    | _, _ => none

/-- `walkDir` of io/fs/walk.go: the calls of the callback.  The first argument bounds the depth; running out of it for every bound means
that it does not return. -/
def walkDir (n : Nat) (srt : (DirEnt → DirEnt → Bool) → List DirEnt → List DirEnt) (order : Path → List Str → List Str) (S : FS) :
    Nat → Str → Str × Bool → Option (List Visit)
  | 0, _, _ => none
  | k + 1, name, ent =>
    if !ent.2 then some [⟨name, some ent, false⟩]
    else match readDir n srt order S name with
      | none => none
      | some (.error _) => some [⟨name, some ent, false⟩, ⟨name, some ent, true⟩]
      | some (.ok es) =>
        (each (fun e => walkDir n srt order S k (pathJoin [name, e.1]) e) es).map (⟨name, some ent, false⟩ :: ·)

/-- `fs.WalkDir` -/
def walk (k n : Nat) (srt : (DirEnt → DirEnt → Bool) → List DirEnt → List DirEnt) (order : Path → List Str → List Str) (S : FS) (root : Str) :
    Option (List Visit) :=
  match stat n S root with
  | none => none
  | some (.error _) => some [⟨root, none, true⟩]
  | some (.ok ent) => walkDir n srt order S k root ent

end Squash.Walk
