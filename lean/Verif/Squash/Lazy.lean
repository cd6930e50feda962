import Verif.Squash.Model
/-! Model of pkg/squash/vfs.go at the level of single accesses to the variables `children`.  `Get` gives a node that has no map of
children one (vfs.go:107-109), also when it is asked not to create anything: looking up a name writes to memory.  Here the variable
`children` of a node is nil or a map, and goroutines that use the `fs.FS` that `Load` returned take turns in reading and writing it.
`name`, `parent`, `header` and `body` of the nodes are not written after `Load`, and the maps themselves are not either (vfs.go:110 with
`create` false): only the variables that hold them. -/
namespace Squash.Lazy
open Go Squash

/-! ### which maps there are when `Load` returns -/

/-- the nodes, and the paths of those whose `children` is not nil -/
abbrev Mem := FS × List Path

/-- vfs.go:187-201, the end of `Set`, as `Squash.unmark`: what is deleted has no map any more -/
def unmarkM (T : Mem) (f : Path) : Mem :=
  let base := pathBase (nodeName f)
  (unmark T.1 f,
    if hasPrefix base whPrefix then
      if base = opqName then
        T.2.filter fun p => !(f.dropLast.isPrefixOf p && decide (p ≠ f.dropLast) && !(f.dropLast ++ [base]).isPrefixOf p)
      else T.2.filter fun p => !(f.dropLast ++ [trimPrefix base whPrefix]).isPrefixOf p
    else T.2.filter fun p => !(f.dropLast ++ [whPrefix ++ base]).isPrefixOf p)

/-- vfs.go:155-203 `Set` for a header that is not a directory, as `Squash.setFile`; vfs.go:168 sets `children` to nil -/
def setFileM (T : Mem) (f : Path) (hdr : Header) (body : Bytes) : Mem :=
  unmarkM ((T.1.put f ⟨some hdr, body⟩).delBelow f, T.2.filter fun p => !f.isPrefixOf p) f

/-- vfs.go:43-60, as `Squash.walk` -/
def walkM (g : Mem → Path → Str → Bool → Res (Mem × Path)) : Mem → Path → List Str → Bool → Res (Mem × Path)
  | T, dir, [], _ => some (.ok (T, dir))
  | T, dir, [c], follow => g T dir c follow
  | T, dir, c :: cs, follow => (g T dir c false).bind fun x => walkM g x.1 x.2 cs follow

/-- vfs.go:30-61, as `Squash.fsGetWith` -/
def fsGetWithM (g : Mem → Path → Str → Bool → Res (Mem × Path)) (T : Mem) (dir : Path) (pathname : Str) (follow : Bool) :
    Res (Mem × Path) :=
  let p := clean pathname
  if isRooted p then walkM g T [] (split '/' (p.drop 1)) follow
  else walkM g T dir (split '/' p) follow

/-- vfs.go:119-142, as `Squash.resolve` -/
def resolveM (fg : Mem → Path → Str → Res (Mem × Path)) : Nat → Mem → List Path → Path → Res (Mem × Path)
  | 0, _, _, _ => none
  | k + 1, T, stack, ret => match T.1.link ret with
    | none => some (.ok (T, ret))
    | some lnk =>
      if ret ∈ stack then some (.error ())
      else (fg T ret.dropLast lnk).bind fun x => resolveM fg k x.1 (ret :: stack) x.2

/-- vfs.go:72-82, as `Squash.enter` -/
def enterM (fg : Mem → Path → Str → Res (Mem × Path)) (T : Mem) (f : Path) : Res (Mem × Path) :=
  match T.1.link f with
  | none => some (.ok (T, f))
  | some lnk => fg T f.dropLast lnk

/-- vfs.go:85-105, as `Squash.makeDir` -/
def makeDirM (g : Mem → Path → Res (Mem × Path)) (create : Bool) (T : Mem) (f : Path) : Res Mem :=
  if T.1.nonDir f then
    if !create then some (.error ())
    else (g (T.1.put f ⟨none, []⟩, T.2) f).bind fun x => some (.ok (setFileM x.1 x.2 opqHeader []))
  else some (.ok T)

/-- vfs.go:107-116 and 145, as `Squash.child`: afterwards the node has a map -/
def childM (create : Bool) (T : Mem) (f : Path) (c : Str) : Res (Mem × Path) :=
  (child create T.1 f c).bind fun x => some (.ok ((x.1, f :: T.2), x.2))

/-- vfs.go:63-153 `Get`, as `Squash.get` -/
def getM : Nat → Mem → Path → Str → Bool → Bool → Res (Mem × Path)
  | 0, _, _, _, _, _ => none
  | n + 1, T, f, c, create, follow =>
    let fg (follow : Bool) (T : Mem) (d : Path) (l : Str) := fsGetWithM (fun T d c fl => getM n T d c create fl) T d l follow
    let ret : Res (Mem × Path) :=
      if c = "..".toList then some (.ok (T, f.dropLast))
      else if c = ".".toList then some (.ok (T, f))
      else (enterM (fg true) T f).bind fun x =>
        (makeDirM (fun T f => getM n T f opqName true true) create x.1 x.2).bind fun T =>
          childM create T x.2 c
    ret.bind fun x => if follow then resolveM (fg false) n x.1 [] x.2 else some (.ok x)

/-- vfs.go:155-203 `Set`, as `Squash.set` -/
def setM (n : Nat) (T : Mem) (f : Path) (hdr : Header) (body : Bytes) : Res Mem :=
  if hdr.typeflag ≠ typeDir then some (.ok (setFileM T f hdr body))
  else if T.1.nonDir f then
    (getM n (T.1.put f ⟨some hdr, body⟩, T.2) f opqName true true).bind fun x =>
      some (.ok (unmarkM (setFileM x.1 x.2 opqHeader []) f))
  else some (.ok (unmarkM (T.1.put f ⟨some hdr, body⟩, T.2) f))

/-- squash.go:28-34 and 37-43, as `Squash.addEntry` -/
def addEntryM (n : Nat) (T : Mem) (e : Entry) : Res Mem :=
  (fsGetWithM (fun T d c fl => getM n T d c true fl) T [] e.header.name false).bind fun x => setM n x.1 x.2 e.header e.body

/-- squash.go:27-44, one of the two loops, as `Squash.addEntries` -/
def addEntriesM (n : Nat) : Mem → List Entry → Res Mem
  | T, [] => some (.ok T)
  | T, e :: es => (addEntryM n T e).bind fun T => addEntriesM n T es

/-- squash.go:22-45, as `Squash.loadFrom` -/
def loadFromM (n : Nat) (omitContent : Bool) : Mem → List (List Entry) → Res Mem
  | T, [] => some (.ok T)
  | T, l :: ls => match parseLayer omitContent l with
    | .error x => some (.error x)
    | .ok (ws, fs) => (addEntriesM n T ws).bind fun T => (addEntriesM n T fs).bind fun T => loadFromM n omitContent T ls

/-- squash.go:16-47 `loadLayers`: the nodes and which of them have a map -/
def loadM (n : Nat) (layers : List (List Entry)) (omitContent : Bool) : Res Mem := loadFromM n omitContent (emptyFS, []) layers

/-! ### what goroutines do with it -/

/-- the variables `children`: nil, or a map with these keys.  The node of a key is that of the longer path. -/
abbrev Heap := Path → Option (List Str)

/-- the variables when `Load` returns: what has children has a map -/
def heapOf (T : Mem) : Heap := fun p =>
  if p ∈ T.2 ∨ childNames T.1 p ≠ [] then some (childNames T.1 p) else none

/-- what a goroutine has still to do: accesses to variables `children`, one after the other, and then the result -/
inductive Prog (α : Type) where
  | ret (a : α)
  /-- read `children` of that node -/
  | read (p : Path) (k : Option (List Str) → Prog α)
  /-- `f.children = make(map[string]*fsfile)` -/
  | make (p : Path) (k : Prog α)

/-- go on, unless there was an error -/
def Prog.bind {α β : Type} : Prog (Res α) → (α → Prog (Res β)) → Prog (Res β)
  | .ret none, _ => .ret none
  | .ret (some (.error e)), _ => .ret (some (.error e))
  | .ret (some (.ok a)), f => f a
  | .read p k, f => .read p fun v => (k v).bind f
  | .make p k, f => .make p (k.bind f)

/-- go on with the result -/
def Prog.andThen {α β : Type} : Prog α → (α → Prog β) → Prog β
  | .ret a, f => f a
  | .read p k, f => .read p fun v => (k v).andThen f
  | .make p k, f => .make p (k.andThen f)

/-- vfs.go:107-116 and 145 with `create` false: `if f.children == nil { f.children = make(…) }`, `_, ok := f.children[child]`,
`ret = f.children[child]` -/
def childP (f : Path) (c : Str) : Prog (Res Path) :=
  let find : Prog (Res Path) := .read f fun _ => .read f fun v =>
    .ret (if (v.getD []).contains c then some (.ok (f ++ [c])) else some (.error ()))
  .read f fun v => match v with
    | none => .make f find
    | some _ => find

/-- vfs.go:43-60 with `create` false -/
def walkP (g : Path → Str → Bool → Prog (Res Path)) : Path → List Str → Bool → Prog (Res Path)
  | dir, [], _ => .ret (some (.ok dir))
  | dir, [c], follow => g dir c follow
  | dir, c :: cs, follow => (g dir c false).bind fun d => walkP g d cs follow

/-- vfs.go:30-61 with `create` false -/
def fsGetP (g : Path → Str → Bool → Prog (Res Path)) (dir : Path) (pathname : Str) (follow : Bool) : Prog (Res Path) :=
  let p := clean pathname
  if isRooted p then walkP g [] (split '/' (p.drop 1)) follow
  else walkP g dir (split '/' p) follow

/-- vfs.go:119-142 with `create` false -/
def resolveP (S : FS) (fg : Path → Str → Prog (Res Path)) : Nat → List Path → Path → Prog (Res Path)
  | 0, _, _ => .ret none
  | k + 1, stack, ret => match S.link ret with
    | none => .ret (some (.ok ret))
    | some lnk =>
      if ret ∈ stack then .ret (some (.error ()))
      else (fg ret.dropLast lnk).bind fun x => resolveP S fg k (ret :: stack) x

/-- vfs.go:72-82 with `create` false -/
def enterP (S : FS) (fg : Path → Str → Prog (Res Path)) (f : Path) : Prog (Res Path) :=
  match S.link f with
  | none => .ret (some (.ok f))
  | some lnk => fg f.dropLast lnk

/-- vfs.go:63-153 `Get` with `create` false -/
def getP (S : FS) : Nat → Path → Str → Bool → Prog (Res Path)
  | 0, _, _, _ => .ret none
  | n + 1, f, c, follow =>
    let fg (follow : Bool) (d : Path) (l : Str) := fsGetP (fun d c fl => getP S n d c fl) d l follow
    let ret : Prog (Res Path) :=
      if c = "..".toList then .ret (some (.ok f.dropLast))
      else if c = ".".toList then .ret (some (.ok f))
      else (enterP S (fg true) f).bind fun x =>
        if S.nonDir x then .ret (some (.error ())) else childP x c
    ret.bind fun x => if follow then resolveP S (fg false) n [] x else .ret (some (.ok x))

/-- vfs_fs.go:31-57 `Open` -/
def openP (S : FS) (n : Nat) (name : Str) : Prog (Res (Path × Path)) :=
  if !validPath name then .ret (some (.error ()))
  else (fsGetP (fun d c fl => getP S n d c fl) [] name false).bind fun x =>
    (getP S n x ".".toList true).bind fun y => .ret (some (.ok (y, x)))

/-- vfs_fs.go:177-203: the loop of `ReadDir` over the children -/
def listP (S : FS) (n : Nat) (p : Path) : List Str → List DirEnt → Prog (List DirEnt × Bool)
  | [], acc => .ret (acc, true)
  | c :: cs, acc =>
    if hasPrefix c whPrefix then listP S n p cs acc
    else (getP S n (p ++ [c]) ".".toList true).andThen fun r => match r with
      | some (.ok _) => listP S n p cs (acc ++ [match S.get? (p ++ [c]) with
        | some ⟨some h, _⟩ => ⟨pathBase h.name, false⟩
        | _ => ⟨c, true⟩])
      | _ => .ret (acc, false)

/-- vfs_fs.go:175-203: the first `ReadDir` of a handle, which gathers the children of the directory; `len(f.tgt.children)` and the loop
read the variable -/
def readDirP (S : FS) (n : Nat) (p : Path) (order : List Str → List Str) : Prog (List DirEnt × Bool) :=
  .read p fun _ => .read p fun v => listP S n p (order (v.getD [])) []

/-- what goroutines do with the file system: open a name, or list a directory for the first time since they opened it; the map is visited
in an order that may be another one each time -/
inductive Call where
  | opens (name : Str)
  | lists (p : Path) (order : List Str → List Str)

/-- what they get: the nodes of the handle, or the entries gathered (before sorting) and whether there was no error -/
inductive Out where
  | opened (r : Res (Path × Path))
  | listed (r : List DirEnt × Bool)

/-- what a call does -/
def code (S : FS) (n : Nat) : Call → Prog Out
  | .opens name => (openP S n name).andThen fun r => .ret (.opened r)
  | .lists p order => (readDirP S n p order).andThen fun r => .ret (.listed r)

/-- what a call gives without other goroutines, by the definitions of Model.lean -/
def alone (S : FS) (n : Nat) : Call → Out
  | .opens name => .opened (openFile n S name)
  | .lists p order => .listed (listLoop (kidsOf n order S p) [])

/-- the variables, what each goroutine is doing, and what has been returned so far -/
structure State where
  heap : Heap
  pc : Nat → Option (Call × Prog Out)
  returned : List (Nat × Call × Out)

/-- a goroutine does something else -/
def State.at (st : State) (g : Nat) (x : Option (Call × Prog Out)) : State :=
  { st with pc := fun i => if i = g then x else st.pc i }

/-- the states that can come up after `Load` returned `T`: goroutines make calls, and the accesses of the calls under way are interleaved
in any way.  No lock is taken (vfs.go has none). -/
inductive Reach (T : Mem) (n : Nat) : State → Prop
  | start : Reach T n ⟨heapOf T, fun _ => none, []⟩
  | call {st : State} (g : Nat) (c : Call) : Reach T n st → st.pc g = none → Reach T n (st.at g (some (c, code T.1 n c)))
  | read {st : State} (g : Nat) (c : Call) (p : Path) (k : Option (List Str) → Prog Out) :
      Reach T n st → st.pc g = some (c, .read p k) → Reach T n (st.at g (some (c, k (st.heap p))))
  | make {st : State} (g : Nat) (c : Call) (p : Path) (k : Prog Out) :
      Reach T n st → st.pc g = some (c, .make p k) →
      Reach T n { st.at g (some (c, k)) with heap := fun q => if q = p then some [] else st.heap q }
  | ret {st : State} (g : Nat) (c : Call) (o : Out) :
      Reach T n st → st.pc g = some (c, .ret o) → Reach T n { st.at g none with returned := st.returned ++ [(g, c, o)] }

end Squash.Lazy
