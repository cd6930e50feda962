import Verif.Go.Path
import Verif.Go.Sort
/-!
Model of /repo/pkg/squash: vfs.go, squash.go, readlayer.go, vfs_fs.go.

The pointer structure of `fsfile` is represented by paths: a node is identified by the list of keys (of the `children`
maps) that lead to it from the root, `f.parent` is the path without its last key (the root is its own parent), and
`f.children` is the set of nodes whose path is one key longer.  Deleting a child deletes everything below it, which is
what becoming unreachable from the root amounts to: no code keeps a pointer into a deleted subtree.
-/
namespace Squash
open Go

/-- `tar.Header` as far as the package looks at it; `other` stands for all remaining fields, copied unchanged -/
structure Header where
  name : Str
  typeflag : Char
  linkname : Str
  size : Int
  mode : Int
  other : Str
deriving DecidableEq, Repr

/-- `tar.TypeReg`, `tar.TypeSymlink`, `tar.TypeDir` -/
def typeReg : Char := '0'
/-- `tar.TypeSymlink` -/
def typeSymlink : Char := '2'
/-- `tar.TypeDir` -/
def typeDir : Char := '5'

/-- the names on the way from the root -/
abbrev Path := List Str
/-- the content of a file -/
abbrev Bytes := List UInt8

/-- vfs.go:20-28 `fsfile` without `name`, `parent` and `children`, which the path determines -/
structure Node where
  header : Option Header
  body : Bytes
deriving DecidableEq, Repr

/-- all nodes reachable from the root, with their paths -/
abbrev FS := List (Path × Node)

/-- the node at a path -/
def FS.get? (S : FS) (p : Path) : Option Node := (S.find? (fun e => e.1 = p)).map (·.2)
/-- the node at a path is replaced or added -/
def FS.put (S : FS) (p : Path) (n : Node) : FS := (p, n) :: S.filter (fun e => e.1 ≠ p)
/-- `delete(d.children, k)` -/
def FS.delChild (S : FS) (d : Path) (k : Str) : FS := S.filter (fun e => !(d ++ [k]).isPrefixOf e.1)
/-- `for k' := range d.children { if k' != k { delete(d.children, k') } }` -/
def FS.delOthers (S : FS) (d : Path) (k : Str) : FS :=
  S.filter (fun e => !(d.isPrefixOf e.1 && decide (e.1 ≠ d) && !(d ++ [k]).isPrefixOf e.1))
/-- `d.children = nil` -/
def FS.delBelow (S : FS) (d : Path) : FS := S.filter (fun e => !(d.isPrefixOf e.1 && decide (e.1 ≠ d)))

/-- `f.header != nil && f.header.Typeflag == tar.TypeSymlink`: the link's target -/
def Node.link (n : Node) : Option Str :=
  match n.header with
  | some h => if h.typeflag = typeSymlink then some h.linkname else none
  | none => none

/-- `f.header != nil && f.header.Typeflag != tar.TypeDir` -/
def Node.nonDir (n : Node) : Bool :=
  match n.header with
  | some h => h.typeflag ≠ typeDir
  | none => false

/-- the target of the link at a path -/
def FS.link (S : FS) (p : Path) : Option Str :=
  match S.get? p with
  | some n => n.link
  | none => none

/-- there is something else than a directory at a path -/
def FS.nonDir (S : FS) (p : Path) : Bool :=
  match S.get? p with
  | some n => n.nonDir
  | none => false

/-- `f.name`: "." for the root (squash.go:17-19), otherwise `path.Join(parent.name, child)` (vfs.go:112) -/
def nodeName (p : Path) : Str := p.foldl (fun n c => pathJoin [n, c]) ['.']

/-- the prefix of the names of whiteout markers, vfs.go:188, readlayer.go:67 -/
def whPrefix : Str := ".wh.".toList
/-- the name of opaque whiteout markers, vfs.go:95, 176, 189 -/
def opqName : Str := ".wh..wh..opq".toList

/-- the header of the opaque markers the package adds, vfs.go:99-102 and 180-183 -/
def opqHeader : Header := { name := [], typeflag := typeReg, linkname := [], size := 0, mode := 0o644, other := [] }

/-- result of an operation that may fail to return (`none`), return an error, or a value -/
abbrev Res (α : Type) := Option (Except Unit α)

/-- go on with the value -/
def Res.bind {α β : Type} (x : Res α) (f : α → Res β) : Res β :=
  match x with
  | none => none
  | some (.error e) => some (.error e)
  | some (.ok a) => f a

/-- vfs.go:187-201: the end of `Set` -/
def unmark (S : FS) (f : Path) : FS :=
  let base := pathBase (nodeName f)
  if hasPrefix base whPrefix then
    if base = opqName then S.delOthers f.dropLast base
    else S.delChild f.dropLast (trimPrefix base whPrefix)
  else S.delChild f.dropLast (whPrefix ++ base)

/-- vfs.go:155-203 `Set` for a header that is not a directory -/
def setFile (S : FS) (f : Path) (hdr : Header) (body : Bytes) : FS :=
  unmark ((S.put f ⟨some hdr, body⟩).delBelow f) f

/-- the loop and final lookup of `fsGet`, vfs.go:43-60, over the path's elements; `g` is `Get` -/
def walk (g : FS → Path → Str → Bool → Res (FS × Path)) : FS → Path → List Str → Bool → Res (FS × Path)
  | S, dir, [], _ => some (.ok (S, dir))
  | S, dir, [c], follow => g S dir c follow
  | S, dir, c :: cs, follow => (g S dir c false).bind fun x => walk g x.1 x.2 cs follow

/-- vfs.go:30-61 `fsGet` -/
def fsGetWith (g : FS → Path → Str → Bool → Res (FS × Path)) (S : FS) (dir : Path) (pathname : Str) (follow : Bool) :
    Res (FS × Path) :=
  let p := clean pathname
  if isRooted p then walk g S [] (split '/' (p.drop 1)) follow
  else walk g S dir (split '/' p) follow

/-- the symlink loop of `Get`, vfs.go:119-142; `fg` is `fsGet` with `followLinks` false, `stack` the nodes visited.
The loop count is bounded by the first argument; running out means the code does not return. -/
def resolve (fg : FS → Path → Str → Res (FS × Path)) : Nat → FS → List Path → Path → Res (FS × Path)
  | 0, _, _, _ => none
  | k + 1, S, stack, ret => match S.link ret with
    | none => some (.ok (S, ret))
    | some lnk =>
      if ret ∈ stack then some (.error ())
      else (fg S ret.dropLast lnk).bind fun x => resolve fg k x.1 (ret :: stack) x.2

/-- vfs.go:72-82: the directory a child is looked up in; `fg` is `fsGet` with `followLinks` -/
def enter (fg : FS → Path → Str → Res (FS × Path)) (S : FS) (f : Path) : Res (FS × Path) :=
  match S.link f with
  | none => some (.ok (S, f))
  | some lnk => fg S f.dropLast lnk

/-- vfs.go:85-105: make the node a directory if it is not; `g` is `f.Get(".wh..wh..opq", true, true)` -/
def makeDir (g : FS → Path → Res (FS × Path)) (create : Bool) (S : FS) (f : Path) : Res FS :=
  if S.nonDir f then
    if !create then some (.error ())
    else (g (S.put f ⟨none, []⟩) f).bind fun x => some (.ok (setFile x.1 x.2 opqHeader []))
  else some (.ok S)

/-- vfs.go:107-116 and 145: the child of that name, created if wanted -/
def child (create : Bool) (S : FS) (f : Path) (c : Str) : Res (FS × Path) :=
  match S.get? (f ++ [c]) with
  | some _ => some (.ok (S, f ++ [c]))
  | none => if create then some (.ok (S.put (f ++ [c]) ⟨none, []⟩, f ++ [c])) else some (.error ())

/-- vfs.go:63-153 `Get`; the first argument bounds the depth of recursion (Go's stack is taken to be unbounded; running
out for every bound means that the code does not return) -/
def get : Nat → FS → Path → Str → Bool → Bool → Res (FS × Path)
  | 0, _, _, _, _, _ => none
  | n + 1, S, f, c, create, follow =>
    let fg (follow : Bool) (S : FS) (d : Path) (l : Str) := fsGetWith (fun S d c fl => get n S d c create fl) S d l follow
    let ret : Res (FS × Path) :=
      if c = "..".toList then some (.ok (S, f.dropLast))
      else if c = ".".toList then some (.ok (S, f))
      else (enter (fg true) S f).bind fun x =>
        (makeDir (fun S f => get n S f opqName true true) create x.1 x.2).bind fun S =>
          child create S x.2 c
    ret.bind fun x => if follow then resolve (fg false) n x.1 [] x.2 else some (.ok x)

/-- vfs.go:30-61 `fsGet` -/
def fsGet (n : Nat) (S : FS) (dir : Path) (pathname : Str) (create follow : Bool) : Res (FS × Path) :=
  fsGetWith (fun S d c fl => get n S d c create fl) S dir pathname follow

/-- vfs.go:155-203 `Set` -/
def set (n : Nat) (S : FS) (f : Path) (hdr : Header) (body : Bytes) : Res FS :=
  if hdr.typeflag ≠ typeDir then some (.ok (setFile S f hdr body))
  else if S.nonDir f then
    (get n (S.put f ⟨some hdr, body⟩) f opqName true true).bind fun x =>
      some (.ok (unmark (setFile x.1 x.2 opqHeader []) f))
  else some (.ok (unmark (S.put f ⟨some hdr, body⟩) f))

/-- readlayer.go:14-17 `fileEntry` -/
structure Entry where
  header : Header
  body : Bytes
deriving DecidableEq, Repr

/-- the name check of readlayer.go:45-48 -/
def outside (cleanName : Str) : Bool :=
  hasPrefix cleanName "/".toList || hasPrefix cleanName "../".toList || decide (cleanName = "..".toList)

/-- readlayer.go:28-74 `parseLayer` on the entries the tar reader delivers; whiteout markers and other files, in order.
Errors reading the layer: see Stream.lean. -/
def parseLayer (omitContent : Bool) : List Entry → Except Unit (List Entry × List Entry)
  | [] => .ok ([], [])
  | e :: es =>
    let cleanName := clean e.header.name
    if outside cleanName then .error ()
    else
      let entry : Entry := ⟨{ e.header with name := cleanName }, if omitContent then [] else e.body⟩
      match parseLayer omitContent es with
      | .error x => .error x
      | .ok (ws, fs) => if hasPrefix (pathBase cleanName) whPrefix then .ok (entry :: ws, fs) else .ok (ws, entry :: fs)

/-- one entry of `loadLayers`, squash.go:28-34 and 37-43 -/
def addEntry (n : Nat) (S : FS) (e : Entry) : Res FS :=
  (fsGet n S [] e.header.name true false).bind fun x => set n x.1 x.2 e.header e.body

/-- one of the two loops of squash.go:27-44 -/
def addEntries (n : Nat) : FS → List Entry → Res FS
  | S, [] => some (.ok S)
  | S, e :: es => (addEntry n S e).bind fun S => addEntries n S es

/-- the root of squash.go:17-20 -/
def emptyFS : FS := [([], ⟨none, []⟩)]

/-- the loop of `loadLayers`, squash.go:22-45: each layer's whiteout markers, then its files -/
def loadFrom (n : Nat) (omitContent : Bool) : FS → List (List Entry) → Res FS
  | S, [] => some (.ok S)
  | S, l :: ls => match parseLayer omitContent l with
    | .error x => some (.error x)
    | .ok (ws, fs) => (addEntries n S ws).bind fun S => (addEntries n S fs).bind fun S => loadFrom n omitContent S ls

/-- squash.go:16-47 `loadLayers` -/
def loadLayers (n : Nat) (layers : List (List Entry)) (omitContent : Bool) : Res FS := loadFrom n omitContent emptyFS layers

/-- the children's names, in some order -/
def childNames (S : FS) (p : Path) : List Str :=
  S.filterMap (fun e => match e.1.getLast? with
    | some c => if e.1 = p ++ [c] then some c else none
    | none => none)

/-- the `less` of vfs.go:226-238 -/
def childLess (i j : Str) : Bool :=
  let iw := hasPrefix i whPrefix
  let jw := hasPrefix j whPrefix
  if iw && !jw then true
  else if !iw && jw then false
  else decide (i < j)

/-- the entry written for a node, vfs.go:206-220 -/
def nodeEntry (S : FS) (p : Path) : List Entry :=
  match S.get? p with
  | some ⟨some h, b⟩ => [⟨{ h with name := if h.typeflag = typeDir then nodeName p ++ "/".toList else nodeName p }, b⟩]
  | _ => []

/-- vfs.go:205-248 `WriteTo`: the entries written, in order.  `order` gives the iteration order of each node's map, `sortSlice` is
`sort.Slice`; the first argument bounds the depth (the length of the longest path is enough).  Errors of the tar writer:
see Stream.lean. -/
def writeTo (sortSlice : (Str → Str → Bool) → List Str → List Str) (order : Path → List Str → List Str) (S : FS) :
    Nat → Path → List Entry
  | 0, _ => []
  | n + 1, p => nodeEntry S p ++ (sortSlice childLess (order p (childNames S p))).flatMap (fun c => writeTo sortSlice order S n (p ++ [c]))

/-- a depth that suffices -/
def depth (S : FS) : Nat := S.foldl (fun m e => max m e.1.length) 0 + 1

/-- squash.go:55-77 `Squash`: the entries of the resulting layer -/
def squash (n : Nat) (sortSlice : (Str → Str → Bool) → List Str → List Str) (order : Path → List Str → List Str)
    (layers : List (List Entry)) : Res (List Entry) :=
  (loadLayers n layers false).bind fun S => some (.ok (writeTo sortSlice order S (depth S) []))

/-! ### vfs_fs.go -/

/-- `fs.ValidPath` (standard library) -/
def validPath (name : Str) : Bool :=
  name = ".".toList || (split '/' name).all (fun c => c ≠ [] && c ≠ ".".toList && c ≠ "..".toList)

/-- vfs_fs.go:31-57 `Open`: the nodes (tgt, lnk) of the handle -/
def openFile (n : Nat) (S : FS) (name : Str) : Res (Path × Path) :=
  if !validPath name then some (.error ())
  else (fsGet n S [] name false false).bind fun x =>
    (get n x.1 x.2 ".".toList false true).bind fun y => some (.ok (y.2, x.2))

/-- an entry of a directory listing: name and whether it is a `missingDirEntry` (vfs_fs.go:129-160).  For a link or file
the name is `path.Base` of the name in its header (`tar.Header.FileInfo().Name()`). -/
structure DirEnt where
  name : Str
  missing : Bool
deriving DecidableEq, Repr

/-- vfs_fs.go:59-70 `fsfileReader`; `tgt` is the node's header and body.  `dirents = none` is nil. -/
structure Reader where
  tgt : Node
  pos : Nat
  closed : Bool
  dirents : Option (List DirEnt)

/-- the errors of vfs_fs.go: `io.EOF`, `EISDIR`, a missing file, `fs.ErrClosed`, `ENOTDIR`, others -/
inductive IOErr where
  | eof | isDir | missing | closed | notDir | other
deriving DecidableEq, Repr

/-- vfs_fs.go:87-116 `Read` with a buffer of the given size -/
def Reader.read (r : Reader) (size : Nat) : Reader × Except IOErr Bytes :=
  match r.tgt.header with
  | none => (r, .error .isDir)
  | some h =>
    if h.typeflag = typeDir then (r, .error .isDir)
    else if (r.tgt.body.length : Int) < h.size then (r, .error .missing)
    else if r.closed then (r, .error .closed)
    else if r.pos = r.tgt.body.length then (r, .error .eof)
    else
      let out := (r.tgt.body.drop r.pos).take size
      ({ r with pos := r.pos + out.length }, .ok out)

/-- vfs_fs.go:119-127 `Close` -/
def Reader.close (r : Reader) : Reader × Except IOErr Unit :=
  if r.closed then (r, .error .closed) else ({ r with closed := true }, .ok ())

/-- the loop building the listing, vfs_fs.go:176-203, over the children in the map's order: what has been appended when
it ends, and whether it ended with an error (a child whose link cannot be followed).  A child is given by its key, its
header's base name (`none` when the header is missing) and whether following it works. -/
def listLoop : List (Str × Option Str × Bool) → List DirEnt → List DirEnt × Bool
  | [], acc => (acc, true)
  | (key, base, follows) :: rest, acc =>
    if hasPrefix key whPrefix then listLoop rest acc
    else if !follows then (acc, false)
    else listLoop rest (acc ++ [match base with | some b => ⟨b, false⟩ | none => ⟨key, true⟩])

/-- the children of a directory as `listLoop` sees them; `order` is the iteration order of the map.  A lookup that does
not return counts as failing. -/
def kidsOf (n : Nat) (order : List Str → List Str) (S : FS) (p : Path) : List (Str × Option Str × Bool) :=
  (order (childNames S p)).map fun c =>
    (c, match S.get? (p ++ [c]) with | some ⟨some h, _⟩ => some (pathBase h.name) | _ => none,
      match get n S (p ++ [c]) ".".toList false true with | some (.ok _) => true | _ => false)

/-- vfs_fs.go:208-224: the part of `ReadDir` after the listing has been built -/
def Reader.readDirTail (r : Reader) (ents : List DirEnt) (n : Int) : Reader × Except IOErr (List DirEnt) :=
  let pos := if r.pos > ents.length then ents.length else r.pos
  let ret := ents.drop pos
  let ret := if n > 0 ∧ n < ret.length then ret.take n.toNat else ret
  if n > 0 ∧ ret.length = 0 then ({ r with pos := pos }, .error .eof)
  else ({ r with pos := pos + ret.length }, .ok ret)

/-- vfs_fs.go:165-225 `ReadDir`; `kids` the children in the map's iteration order, `sortSlice` is `sort.Slice` -/
def Reader.readDir (sortSlice : (DirEnt → DirEnt → Bool) → List DirEnt → List DirEnt)
    (kids : List (Str × Option Str × Bool)) (r : Reader) (n : Int) : Reader × Except IOErr (List DirEnt) :=
  if r.tgt.nonDir then (r, .error .notDir)
  else if r.closed then (r, .error .closed)
  else match r.dirents with
    | some ents => r.readDirTail ents n
    | none =>
      match listLoop kids [] with
      | (ents, false) => ({ r with dirents := some ents }, .error .other)
      | (ents, true) =>
        let ents := sortSlice (fun a b => decide (a.name < b.name)) ents
        Reader.readDirTail { r with dirents := some ents } ents n

end Squash
