import Verif.Python.ImageFs
/-! Model of `ImageFS` (pkg/python/pyinspect/fs_image.go) as goroutines share it: any number of them call methods that begin with
`ensureInitialized`, step by step, in any interleaving.  Each write to a field and each question to the image is a step of its own.
`sync.Once` is modelled as in the standard library: a flag, read atomically, and a mutex. -/
namespace Python.Once
open Go Squash

/-- the fields of `ImageFS` (fs_image.go:19-23; `none` is a nil file system), and how often the image was asked for its config and for
its layers -/
structure Fields where
  err : Option Unit
  wd : Str
  path : List Str
  fs : Option FS
  configs : Nat
  layers : Nat

/-- what the function given to `initOnce.Do` has still to do: writes, questions to the image, and `squash.Load` -/
inductive Code where
  | done
  | setErr (e : Option Unit) (k : Code)
  | setWd (x : Str) (k : Code)
  | getWd (k : Str → Code)
  | setPath (x : List Str) (k : Code)
  | setFs (S : FS) (k : Code)
  | askConfig (k : Except Unit (Option (Str × List Str)) → Code)
  | askLayers (k : Except Unit (List (List Entry)) → Code)
  | load (ls : List (List Entry)) (k : Except Unit FS → Code)

/-- fs_image.go:76-87: after the config -/
def layersCode : Code :=
  .askLayers fun l => match l with
  | .error e => .setErr (some e) .done
  | .ok ls => .load ls fun r => match r with
    | .error e => .setErr (some e) .done
    | .ok S => .setFs S (.setErr none .done)

/-- fs_image.go:71-73 -/
def pathCode (env : List Str) : Code :=
  match lookupEnv env "PATH".toList with
  | some p => .setPath (splitList p) layersCode
  | none => layersCode

/-- fs_image.go:56-88: the function given to `initOnce.Do` -/
def initCode : Code :=
  .setWd ['/'] <| .setPath [] <| .askConfig fun c => match c with
  | .error e => .setErr (some e) .done
  | .ok none => layersCode
  | .ok (some (w, env)) =>
    if w ≠ [] then
      .setWd w <| .getWd fun x => if !hasPrefix x ['/'] then .getWd fun y => .setWd ('/' :: y) (pathCode env) else pathCode env
    else pathCode env

/-- The next step of the function.  The image may answer differently each time: `config` and `layers` are the answers that can come.  A
call of `Load` that does not return is no step. -/
inductive Access (n : Nat) (config : Except Unit (Option (Str × List Str)) → Prop) (layers : Except Unit (List (List Entry)) → Prop) :
    Code → Fields → Code → Fields → Prop
  | setErr (e : Option Unit) (k : Code) (v : Fields) : Access n config layers (.setErr e k) v k { v with err := e }
  | setWd (x : Str) (k : Code) (v : Fields) : Access n config layers (.setWd x k) v k { v with wd := x }
  | getWd (k : Str → Code) (v : Fields) : Access n config layers (.getWd k) v (k v.wd) v
  | setPath (x : List Str) (k : Code) (v : Fields) : Access n config layers (.setPath x k) v k { v with path := x }
  | setFs (S : FS) (k : Code) (v : Fields) : Access n config layers (.setFs S k) v k { v with fs := some S }
  | askConfig (k : Except Unit (Option (Str × List Str)) → Code) (v : Fields) (c) : config c →
      Access n config layers (.askConfig k) v (k c) { v with configs := v.configs + 1 }
  | askLayers (k : Except Unit (List (List Entry)) → Code) (v : Fields) (l) : layers l →
      Access n config layers (.askLayers k) v (k l) { v with layers := v.layers + 1 }
  | load (ls : List (List Entry)) (k : Except Unit FS → Code) (v : Fields) (r) : loadLayers n ls true = some r →
      Access n config layers (.load ls k) v (k r) v

/-- what a caller of `ensureInitialized` goes on with: the error, or the fields as it reads them -/
abbrev Seen := Except Unit (Str × List Str × FS)

/-- where a goroutine is: in `sync.Once.Do` (as in `Verif/Cli/Now.lean`), at fs_image.go:90, or reading the fields one by one -/
inductive Pc where
  | start
  | lock
  | check
  | run (k : Code)
  | set
  | unlock
  | readErr
  | readWd
  | readPath (wd : Str)
  | readFs (wd : Str) (path : List Str)
  | done (r : Option Seen)

/-- the `sync.Once`, the fields it guards, and where each goroutine is -/
structure State where
  flag : Bool
  owner : Option Nat
  fields : Fields
  pc : Nat → Pc

/-- goroutine `g` goes on to `p` -/
def State.setPc (st : State) (g : Nat) (p : Pc) : State := { st with pc := fun h => if h = g then p else st.pc h }

/-- one step of goroutine `g`; a nil file system (`done none`) would be a panic in the caller -/
inductive Step (n : Nat) (config : Except Unit (Option (Str × List Str)) → Prop) (layers : Except Unit (List (List Entry)) → Prop) :
    State → State → Prop
  | fast (st : State) (g : Nat) : st.pc g = .start → st.flag = true → Step n config layers st (st.setPc g .readErr)
  | slow (st : State) (g : Nat) : st.pc g = .start → st.flag = false → Step n config layers st (st.setPc g .lock)
  | lock (st : State) (g : Nat) : st.pc g = .lock → st.owner = none → Step n config layers st ({ st with owner := some g }.setPc g .check)
  | again (st : State) (g : Nat) : st.pc g = .check → st.flag = true → Step n config layers st (st.setPc g .unlock)
  | first (st : State) (g : Nat) : st.pc g = .check → st.flag = false → Step n config layers st (st.setPc g (.run initCode))
  | run (st : State) (g : Nat) (k k' : Code) (v' : Fields) : st.pc g = .run k → Access n config layers k st.fields k' v' →
      Step n config layers st ({ st with fields := v' }.setPc g (.run k'))
  | ran (st : State) (g : Nat) : st.pc g = .run .done → Step n config layers st (st.setPc g .set)
  | set (st : State) (g : Nat) : st.pc g = .set → Step n config layers st ({ st with flag := true }.setPc g .unlock)
  | unlock (st : State) (g : Nat) : st.pc g = .unlock → Step n config layers st ({ st with owner := none }.setPc g .readErr)
  | failed (st : State) (g : Nat) (e : Unit) : st.pc g = .readErr → st.fields.err = some e →
      Step n config layers st (st.setPc g (.done (some (.error e))))
  | ok (st : State) (g : Nat) : st.pc g = .readErr → st.fields.err = none → Step n config layers st (st.setPc g .readWd)
  | readWd (st : State) (g : Nat) : st.pc g = .readWd → Step n config layers st (st.setPc g (.readPath st.fields.wd))
  | readPath (st : State) (g : Nat) (wd : Str) : st.pc g = .readPath wd → Step n config layers st (st.setPc g (.readFs wd st.fields.path))
  | readFs (st : State) (g : Nat) (wd : Str) (path : List Str) : st.pc g = .readFs wd path →
      Step n config layers st (st.setPc g (.done (st.fields.fs.map fun S => .ok (wd, path, S))))

/-- a new `ImageFS`, with all goroutines about to call a method -/
def init : State := ⟨false, none, ⟨none, [], [], none, 0, 0⟩, fun _ => .start⟩

/-- the states that can come up -/
inductive Reach (n : Nat) (config : Except Unit (Option (Str × List Str)) → Prop) (layers : Except Unit (List (List Entry)) → Prop) : State → Prop
  | init : Reach n config layers init
  | step {st st' : State} : Reach n config layers st → Step n config layers st st' → Reach n config layers st'

end Python.Once
