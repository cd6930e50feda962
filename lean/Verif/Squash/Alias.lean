import Verif.Squash.Model
/-! Model of the memory that `ReadDir` (pkg/squash/vfs_fs.go) shares with its callers: the slices it returns are parts of the array that
holds the listing for the calls to come. -/
namespace Squash.Alias
open Go

/-- a slice into the array of the listing: where it begins, its length and its capacity -/
structure Slice where
  off : Nat
  len : Nat
  cap : Nat
deriving DecidableEq

/-- `arr` is the array that `f.dirents` (vfs_fs.go:69) is a slice of, `none` being a nil entry; `len` is `len(f.dirents)`; `got` are
the slices into the array that the caller has.  Slices of other arrays are not modelled: nothing that is done with them reaches this
array. -/
structure Mem where
  arr : List (Option DirEnt)
  len : Nat
  pos : Nat
  got : List Slice

/-- vfs_fs.go:174-207: the listing, made with room for all children, and so for as many entries more as there are whiteout markers -/
def Mem.start (ents : List DirEnt) (markers : Nat) : Mem :=
  ⟨ents.map some ++ List.replicate markers none, ents.length, 0, []⟩

/-- the entries a slice shows now -/
def Mem.view (m : Mem) (s : Slice) : List (Option DirEnt) := (m.arr.drop s.off).take s.len

/-- vfs_fs.go:208-224: what is returned is given as the caller finds it when the call returns -/
def Mem.readDir (m : Mem) (n : Int) : Mem × Except IOErr (List (Option DirEnt)) :=
  let pos := if m.pos > m.len then m.len else m.pos
  let ret : Slice := ⟨pos, m.len - pos, m.arr.length - pos⟩
  let ret := if n > 0 ∧ n < ret.len then { ret with len := n.toNat } else ret
  if n > 0 ∧ ret.len = 0 then ({ m with pos := pos }, .error .eof)
  else if ret.len = 0 then ({ m with pos := pos, got := m.got ++ [⟨0, 0, 0⟩] }, .ok [])
  else ({ m with pos := pos + ret.len, got := m.got ++ [ret] }, .ok (m.view ret))

/-- write `xs` into the array from index `i` on -/
def writeAt (arr : List (Option DirEnt)) (i : Nat) (xs : List (Option DirEnt)) : List (Option DirEnt) :=
  arr.take i ++ xs ++ arr.drop (i + xs.length)

/-- what a caller may do: call `ReadDir(n)`; assign to an element of a slice it has; append to a slice it has -/
inductive Op where
  | read (n : Int)
  | assign (k i : Nat) (x : Option DirEnt)
  | append (k : Nat) (xs : List (Option DirEnt))

/-- Go's semantics of assigning to an element (out of range is a panic and changes nothing) and of `append`: in place if the capacity
suffices, otherwise into a new array. -/
def Mem.op (m : Mem) : Op → Mem
  | .read n => (m.readDir n).1
  | .assign k i x => match m.got[k]? with
    | some s => if i < s.len then { m with arr := writeAt m.arr (s.off + i) [x] } else m
    | none => m
  | .append k xs => match m.got[k]? with
    | some s => if s.len + xs.length ≤ s.cap
      then { m with arr := writeAt m.arr (s.off + s.len) xs, got := m.got ++ [{ s with len := s.len + xs.length }] }
      else m
    | none => m

/-- what the calls of `ReadDir` return -/
def outs : Mem → List Op → List (Except IOErr (List (Option DirEnt)))
  | _, [] => []
  | m, .read n :: ops => (m.readDir n).2 :: outs (m.op (.read n)) ops
  | m, o :: ops => outs (m.op o) ops

end Squash.Alias
