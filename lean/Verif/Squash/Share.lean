import Verif.Squash.PropsRead
/-! Model of the handles of pkg/squash/vfs_fs.go as goroutines share them: any number of goroutines call `Read`, `ReadDir` and `Close`
of one handle, step by step, in any interleaving.  A step of a goroutine that holds the mutex reads or writes one of the variables
`pos`, `closed`, `dirents` (vfs_fs.go:66-69).  What the handle refers to (`tgt`, `lnk`) does not change after `Load`. -/
namespace Squash.Share
open Go Squash

/-- a call of a method of `fsfileReader` -/
inductive Call where
  | read (size : Nat)
  | readDir (n : Int)
  | close
deriving DecidableEq

/-- what a call returns -/
inductive Out where
  | bytes (x : Except IOErr Bytes)
  | ents (x : Except IOErr (List DirEnt))
  | closed (x : Except IOErr Unit)

/-- what a goroutine has still to do before it unlocks the mutex: accesses to the variables of the handle, one after the other, and
then the result -/
inductive Code where
  | ret (o : Out)
  | getPos (k : Nat → Code)
  | getClosed (k : Bool → Code)
  | getEnts (k : Option (List DirEnt) → Code)
  | setPos (x : Nat) (k : Code)
  | setClosed (x : Bool) (k : Code)
  | setEnts (x : List DirEnt) (k : Code)

/-- the next access -/
inductive Access : Code → Reader → Code → Reader → Prop
  | getPos (k : Nat → Code) (r : Reader) : Access (.getPos k) r (k r.pos) r
  | getClosed (k : Bool → Code) (r : Reader) : Access (.getClosed k) r (k r.closed) r
  | getEnts (k : Option (List DirEnt) → Code) (r : Reader) : Access (.getEnts k) r (k r.dirents) r
  | setPos (x : Nat) (k : Code) (r : Reader) : Access (.setPos x k) r k { r with pos := x }
  | setClosed (x : Bool) (k : Code) (r : Reader) : Access (.setClosed x k) r k { r with closed := x }
  | setEnts (x : List DirEnt) (k : Code) (r : Reader) : Access (.setEnts x k) r k { r with dirents := some x }

/-- vfs_fs.go:107-115: `Read` while it holds the mutex -/
def readCode (body : Bytes) (size : Nat) : Code :=
  .getClosed fun c => if c then .ret (.bytes (.error .closed)) else
  .getPos fun p => if p = body.length then .ret (.bytes (.error .eof)) else
  .getPos fun q =>
  let out := (body.drop q).take size
  .getPos fun s => .setPos (s + out.length) (.ret (.bytes (.ok out)))

/-- vfs_fs.go:122-126: `Close` while it holds the mutex -/
def closeCode : Code :=
  .getClosed fun c => if c then .ret (.closed (.error .closed)) else .setClosed true (.ret (.closed (.ok ())))

/-- vfs_fs.go:208-224: the end of `ReadDir` -/
def tailCode (n : Int) : Code :=
  .getPos fun p => .getEnts fun e =>
  let next : Code := .getPos fun q => .getEnts fun e =>
    let ret := (e.getD []).drop q
    let ret := if n > 0 ∧ n < ret.length then ret.take n.toNat else ret
    if n > 0 ∧ ret.length = 0 then .ret (.ents (.error .eof))
    else .getPos fun s => .setPos (s + ret.length) (.ret (.ents (.ok ret)))
  if p > (e.getD []).length then .setPos (e.getD []).length next else next

/-- vfs_fs.go:177-206: the loop of `ReadDir` over the children, the sorting, and what follows.  Simplified: the sorting is one
access. -/
def listCode (sortSlice : (DirEnt → DirEnt → Bool) → List DirEnt → List DirEnt) (n : Int) : List (Str × Option Str × Bool) → Code
  | [] => .getEnts fun e => .setEnts (sortSlice (fun a b => decide (a.name < b.name)) (e.getD [])) (tailCode n)
  | (key, base, follows) :: rest =>
    if hasPrefix key whPrefix then listCode sortSlice n rest
    else if !follows then .ret (.ents (.error .other))
    else .getEnts fun e =>
      .setEnts (e.getD [] ++ [match base with | some b => ⟨b, false⟩ | none => ⟨key, true⟩]) (listCode sortSlice n rest)

/-- vfs_fs.go:171-224: `ReadDir` while it holds the mutex -/
def readDirCode (sortSlice : (DirEnt → DirEnt → Bool) → List DirEnt → List DirEnt) (kids : List (Str × Option Str × Bool)) (n : Int) : Code :=
  .getClosed fun c => if c then .ret (.ents (.error .closed)) else
  .getEnts fun e => match e with
    | some _ => tailCode n
    | none => .setEnts [] (listCode sortSlice n kids)

/-- what a call does before it locks the mutex: the result, if it returns there.  vfs_fs.go:97-102, 166-168 -/
def early (tgt : Node) : Call → Option Out
  | .read _ => match tgt.header with
    | none => some (.bytes (.error .isDir))
    | some h =>
      if h.typeflag = typeDir then some (.bytes (.error .isDir))
      else if (tgt.body.length : Int) < h.size then some (.bytes (.error .missing))
      else none
  | .readDir _ => if tgt.nonDir then some (.ents (.error .notDir)) else none
  | .close => none

/-- what a call does while it holds the mutex; `kids` the children in the order in which the map is visited -/
def code (sortSlice : (DirEnt → DirEnt → Bool) → List DirEnt → List DirEnt) (kids : List (Str × Option Str × Bool)) (tgt : Node) : Call → Code
  | .read m => readCode tgt.body m
  | .readDir n => readDirCode sortSlice kids n
  | .close => closeCode

/-- where a goroutine is -/
inductive Pc where
  /-- between two calls -/
  | idle
  /-- it has made the call -/
  | called (c : Call)
  /-- about to lock the mutex -/
  | waiting (c : Call)
  /-- it holds the mutex -/
  | inside (c : Call) (k : Code)
  /-- it has unlocked the mutex, or did not need it, and is about to return -/
  | leaving (o : Out)

/-- what can be seen from outside: calls and returns, with the goroutine -/
inductive Event where
  | call (g : Nat) (c : Call)
  | ret (g : Nat) (o : Out)

/-- the handle with its mutex, the goroutines, and what has been seen so far -/
structure State where
  handle : Reader
  owner : Option Nat
  pc : Nat → Pc
  trace : List Event

/-- goroutine `g` is now at `p` -/
def State.setPc (st : State) (g : Nat) (p : Pc) : State := { st with pc := fun h => if h = g then p else st.pc h }

/-- one step of goroutine `g`; `kids` are the children of the directory, of which each listing visits all in some order -/
inductive Step (sortSlice : (DirEnt → DirEnt → Bool) → List DirEnt → List DirEnt) (kids : List (Str × Option Str × Bool)) : State → State → Prop
  | call (st : State) (g : Nat) (c : Call) : st.pc g = .idle →
      Step sortSlice kids st ({ st with trace := st.trace ++ [Event.call g c] }.setPc g (.called c))
  | early (st : State) (g : Nat) (c : Call) (o : Out) : st.pc g = .called c → early st.handle.tgt c = some o →
      Step sortSlice kids st (st.setPc g (.leaving o))
  | go (st : State) (g : Nat) (c : Call) : st.pc g = .called c → Share.early st.handle.tgt c = none →
      Step sortSlice kids st (st.setPc g (.waiting c))
  | lock (st : State) (g : Nat) (c : Call) (ks : List (Str × Option Str × Bool)) : st.pc g = .waiting c → st.owner = none → ks.Perm kids →
      Step sortSlice kids st ({ st with owner := some g }.setPc g (.inside c (code sortSlice ks st.handle.tgt c)))
  | run (st : State) (g : Nat) (c : Call) (k k' : Code) (r' : Reader) : st.pc g = .inside c k → Access k st.handle k' r' →
      Step sortSlice kids st ({ st with handle := r' }.setPc g (.inside c k'))
  | unlock (st : State) (g : Nat) (c : Call) (o : Out) : st.pc g = .inside c (.ret o) →
      Step sortSlice kids st ({ st with owner := none }.setPc g (.leaving o))
  | ret (st : State) (g : Nat) (o : Out) : st.pc g = .leaving o →
      Step sortSlice kids st ({ st with trace := st.trace ++ [Event.ret g o] }.setPc g .idle)

/-- a handle as `Open` returns it, that no goroutine has used -/
def init (tgt : Node) : State := ⟨freshReader tgt, none, fun _ => .idle, []⟩

/-- the states that can come up -/
inductive Reach (sortSlice : (DirEnt → DirEnt → Bool) → List DirEnt → List DirEnt) (kids : List (Str × Option Str × Bool)) (tgt : Node) : State → Prop
  | init : Reach sortSlice kids tgt (init tgt)
  | step {st st' : State} : Reach sortSlice kids tgt st → Step sortSlice kids st st' → Reach sortSlice kids tgt st'

end Squash.Share
