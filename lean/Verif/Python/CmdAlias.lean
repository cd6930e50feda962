import Verif.Go.Basic
/-! Model of how runs of one compiler (pkg/python/py_compile.go) share the memory of its command line: `append(cmdline[1:], …)`
writes into the array of the caller's slice if that array has room.  Every access to a cell of that array is a step of its own. -/
namespace Python.CmdAlias
open Go

/-- the arguments added to the command line, py_compile.go:128-132 -/
def extra (tmpdir : Str) : List Str := ["-s".toList, tmpdir, "-p".toList, "/".toList, tmpdir]

/-- where a run of the compiler is: before `append`; writing the new arguments in place, `k` of them written; copying the old ones
to a new array, with those copied so far; copying the result in `exec.Command` (`append([]string{name}, arg...)`, os/exec), with
those copied so far; after that, with the arguments that the command is run with.  The parts of a run before py_compile.go:128 and
after the command has been made do not access the array and are left out. -/
inductive Pc where
  | start
  | writing (k : Nat)
  | growing (acc : List Str)
  | copying (acc : List Str)
  | ready (args : List Str)
deriving DecidableEq

/-- `arr` is the array that the caller's slice is the first part of: its length is the capacity of the slice.  `pc i` is where run
`i` is. -/
structure State where
  arr : List Str
  pc : Nat → Pc

/-- run `i` goes on to `p` -/
def State.set (s : State) (i : Nat) (p : Pc) : State := { s with pc := fun j => if j = i then p else s.pc j }

/-- one step of run `i`, `len` being the length of the caller's slice and `tmpdir i` the temporary directory of the run
(py_compile.go:59); the slice that is appended to, `cmdline[1:]`, begins at cell 1.  A new array, py_compile.go:128 if the room is
too small, is the run's own: what happens to it is not separated into steps. -/
def step (len : Nat) (tmpdir : Nat → Str) (s : State) (i : Nat) : State :=
  match s.pc i with
  | .start =>
    if len + (extra (tmpdir i)).length ≤ s.arr.length then s.set i (.writing 0) else s.set i (.growing [])
  | .writing k =>
    match (extra (tmpdir i))[k]? with
    | some x => { s with arr := s.arr.set (len + k) x }.set i (.writing (k + 1))
    | none => s.set i (.copying [])
  | .growing acc =>
    if acc.length < len - 1 then s.set i (.growing (acc ++ [s.arr.getD (1 + acc.length) []]))
    else s.set i (.ready (acc ++ extra (tmpdir i)))
  | .copying acc =>
    if acc.length < len - 1 + (extra (tmpdir i)).length then s.set i (.copying (acc ++ [s.arr.getD (1 + acc.length) []]))
    else s.set i (.ready acc)
  | .ready _ => s

/-- the runs' steps in the order given -/
def run (len : Nat) (tmpdir : Nat → Str) (arr : List Str) (sched : List Nat) : State :=
  sched.foldl (step len tmpdir) ⟨arr, fun _ => .start⟩

end Python.CmdAlias
