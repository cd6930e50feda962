import Verif.Go.Basic
/-! Model of pkg/reproducible/source_date_epoch.go: goroutines that call `Now`, step by step, in any interleaving.  `sync.Once` is
modelled as in the standard library: a flag, read atomically, and a mutex.  Times are nanoseconds since 1970. -/
namespace Cli
open Go

/-- a time in nanoseconds since 1970 -/
abbrev Time := Int

/-- where a goroutine is in its call of `Now` -/
inductive Pc where
  /-- about to read the flag of the `sync.Once` -/
  | start
  /-- about to lock the mutex -/
  | lock
  /-- in the critical section, about to read the flag again -/
  | check
  /-- about to run the function (source_date_epoch.go:17-24) -/
  | run
  /-- about to set the flag -/
  | set
  /-- about to unlock -/
  | unlock
  /-- about to read the variable `now` (source_date_epoch.go:25) -/
  | read
  /-- returned -/
  | done (t : Time)
deriving DecidableEq

/-- the variables `nowOnce` and `now` (source_date_epoch.go:11-14; `none` is the zero time), and the goroutines -/
structure NowState where
  flag : Bool
  owner : Option Nat
  now : Option Time
  pc : Nat → Pc

/-- goroutine `g` goes on to `p` -/
def NowState.setPc (st : NowState) (g : Nat) (p : Pc) : NowState := { st with pc := fun h => if h = g then p else st.pc h }

/-- source_date_epoch.go:18-23: the value stored, given the variable `SOURCE_DATE_EPOCH` and the clock -/
def nowValue (env : Str) (clock : Time) : Time :=
  match atoi env with
  | some secs => secs * 1000000000
  | none => clock

/-- one step of goroutine `g`.  `clock` is what `time.Now()` gives at this moment: any of the times that the clock shows during
the run, which are those in `shown`. -/
inductive NowStep (env : Str) (shown : Time → Prop) : NowState → NowState → Prop
  | fast (st : NowState) (g : Nat) : st.pc g = .start → st.flag = true → NowStep env shown st (st.setPc g .read)
  | slow (st : NowState) (g : Nat) : st.pc g = .start → st.flag = false → NowStep env shown st (st.setPc g .lock)
  | lock (st : NowState) (g : Nat) : st.pc g = .lock → st.owner = none → NowStep env shown st ({ st with owner := some g }.setPc g .check)
  | again (st : NowState) (g : Nat) : st.pc g = .check → st.flag = true → NowStep env shown st (st.setPc g .unlock)
  | first (st : NowState) (g : Nat) : st.pc g = .check → st.flag = false → NowStep env shown st (st.setPc g .run)
  | run (st : NowState) (g : Nat) (clock : Time) : shown clock → st.pc g = .run → NowStep env shown st ({ st with now := some (nowValue env clock) }.setPc g .set)
  | set (st : NowState) (g : Nat) : st.pc g = .set → NowStep env shown st ({ st with flag := true }.setPc g .unlock)
  | unlock (st : NowState) (g : Nat) : st.pc g = .unlock → NowStep env shown st ({ st with owner := none }.setPc g .read)
  | read (st : NowState) (g : Nat) : st.pc g = .read → NowStep env shown st (st.setPc g (.done (st.now.getD 0)))

/-- all goroutines about to call `Now`, which was not called before -/
def nowInit : NowState := ⟨false, none, none, fun _ => .start⟩

/-- the states a process can get to -/
inductive NowReach (env : Str) (shown : Time → Prop) : NowState → Prop
  | init : NowReach env shown nowInit
  | step {st st' : NowState} : NowReach env shown st → NowStep env shown st st' → NowReach env shown st'

end Cli
