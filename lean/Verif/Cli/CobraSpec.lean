import Verif.Cli.Cobra
/-! Specification: the grammar of command lines, in the style of the GNU conventions pflag documents. -/
namespace Cobra
open Go
namespace Spec

/-- The letters after a single dash: `-Ee` `-e=x` `-ex`.  Reading them gives some uses of flags; the last letter may
be a flag whose value is the next argument. -/
inductive Shorts (isInt : Str → Bool) (fs : List Flag) : Str → List Use → Option Flag → Prop
  /-- no more letters -/
  | nil : Shorts isInt fs [] [] none
  /-- `-test.…`, which is ignored -/
  | testing (s : Str) : Shorts isInt fs ("test.".toList ++ s) [] none
  /-- `-e=value`, the value not empty -/
  | eq (f : Flag) (c : Char) (v : Str) : f ∈ fs → f.short = some c → v ≠ [] → accepts isInt f.kind v = true →
      Shorts isInt fs (c :: '=' :: v) [(f.name, v)] none
  /-- a switch, followed by more letters -/
  | switch (f : Flag) (c : Char) (s : Str) (us : List Use) (p : Option Flag) : f ∈ fs → f.short = some c →
      f.kind = .bool → (∀ v, v ≠ [] → s ≠ '=' :: v) → (∀ t, c :: s ≠ "test.".toList ++ t) →
      Shorts isInt fs s us p → Shorts isInt fs (c :: s) ((f.name, "true".toList) :: us) p
  /-- `-evalue`, the value not empty -/
  | value (f : Flag) (c : Char) (v : Str) : f ∈ fs → f.short = some c → f.kind ≠ .bool → v ≠ [] →
      (∀ w, w ≠ [] → v ≠ '=' :: w) → (∀ t, c :: v ≠ "test.".toList ++ t) → accepts isInt f.kind v = true →
      Shorts isInt fs (c :: v) [(f.name, v)] none
  /-- `-e`, with the value in the next argument -/
  | next (f : Flag) (c : Char) : f ∈ fs → f.short = some c → f.kind ≠ .bool → Shorts isInt fs [c] [] (some f)

/-- A command line after the words that name the command, read as uses of flags and operands. -/
inductive Line (isInt : Str → Bool) (fs : List Flag) : List Str → List Use → List Str → Prop
  | nil : Line isInt fs [] [] []
  /-- an argument without dash, or only a dash, is an operand -/
  | operand (a : Str) (l : List Str) (us : List Use) (as : List Str) : (∀ s, s ≠ [] → a ≠ '-' :: s) →
      Line isInt fs l us as → Line isInt fs (a :: l) us (a :: as)
  /-- after `--` everything is an operand -/
  | dashes (as : List Str) : Line isInt fs ("--".toList :: as) [] as
  /-- `--name=value` -/
  | longEq (f : Flag) (v : Str) (l : List Str) (us : List Use) (as : List Str) : f ∈ fs →
      accepts isInt f.kind v = true → Line isInt fs l us as →
      Line isInt fs (('-' :: '-' :: f.name ++ '=' :: v) :: l) ((f.name, v) :: us) as
  /-- `--name`, a switch -/
  | longSwitch (f : Flag) (l : List Str) (us : List Use) (as : List Str) : f ∈ fs → f.kind = .bool →
      Line isInt fs l us as → Line isInt fs (('-' :: '-' :: f.name) :: l) ((f.name, "true".toList) :: us) as
  /-- `--name value` -/
  | longNext (f : Flag) (v : Str) (l : List Str) (us : List Use) (as : List Str) : f ∈ fs → f.kind ≠ .bool →
      accepts isInt f.kind v = true → Line isInt fs l us as →
      Line isInt fs (('-' :: '-' :: f.name) :: v :: l) ((f.name, v) :: us) as
  /-- letters -/
  | short (s : Str) (us' : List Use) (l : List Str) (us : List Use) (as : List Str) : s ≠ [] →
      (∀ t, s ≠ '-' :: t) → Shorts isInt fs s us' none → Line isInt fs l us as →
      Line isInt fs (('-' :: s) :: l) (us' ++ us) as
  /-- letters, the last of which takes the next argument -/
  | shortNext (s : Str) (us' : List Use) (f : Flag) (v : Str) (l : List Str) (us : List Use) (as : List Str) :
      (∀ t, s ≠ '-' :: t) → Shorts isInt fs s us' (some f) → accepts isInt f.kind v = true →
      Line isInt fs l us as → Line isInt fs (('-' :: s) :: v :: l) (us' ++ (f.name, v) :: us) as

/-- the commands that do something, and the words that name them -/
def words : Cmd → Option (List Str)
  | .build => some ["image".toList, "build".toList]
  | .dir => some ["layer".toList, "dir".toList]
  | .gobuild => some ["layer".toList, "gobuild".toList]
  | .squash => some ["layer".toList, "squash".toList]
  | .wheel => some ["layer".toList, "wheel".toList]
  | .getwheel => some ["python".toList, "getwheel".toList]
  | .inspect => some ["python".toList, "inspect".toList]
  | _ => none

/-- how many operands each command takes, by its usage message -/
def operands : Cmd → Nat → Prop
  | .build, n => 1 ≤ n
  | .dir, n => n = 1
  | .gobuild, n => 1 ≤ n
  | .squash, n => 2 ≤ n
  | .wheel, n => n = 1
  | .getwheel, n => n = 1
  | .inspect, n => n = 0
  | _, _ => False

/-- a flag with a value of the kind `k`, or an optional one, and its letter -/
def flag (n : String) (k : Kind) (letter : Option Char := none) (required : Bool := false) : Flag := ⟨n.toList, letter, k, required⟩

/-- the flags a command documents -/
def own : Cmd → List Flag
  | .build => [flag "base" .str, flag "tag" .str 't', flag "config.Env.clear" .bool 'E', flag "config.Env.append" .array 'e',
      flag "config.Entrypoint" .array, flag "config.Cmd" .array 'c', flag "config.WorkingDir" .str 'w']
  | .dir => flag "prefix" .str ::
      (["prefix", "chown"].flatMap fun p => [flag (p ++ "-uid") .int, flag (p ++ "-uname") .str, flag (p ++ "-gid") .int, flag (p ++ "-gname") .str])
  | .gobuild => [flag "output" .str 'o']
  | .wheel => [flag "platform-file" .str none true]
  | .getwheel => [flag "index-server" .str]
  | .inspect => [flag "interpreter" .str, flag "imagefile" .str]
  | _ => []

/-- the flags a command accepts: its own, and `-h`/`--help` -/
def flags (c : Cmd) : List Flag := own c ++ [flag "help" .bool 'h']

/-- the last use of `--help` is not `--help=false` -/
def Help (us : List Use) : Prop :=
  ∃ us₁ v us₂, us = us₁ ++ ("help".toList, v) :: us₂ ∧ v ∈ trues ∧ ∀ u ∈ us₂, u.1 ≠ "help".toList

/-- a reading of a command line that asks for the command to be run and is complete but for required flags -/
def Proper (isInt : Str → Bool) (c : Cmd) (l : List Str) (us : List Use) (as : List Str) : Prop :=
  Line isInt (flags c) l us as ∧ ¬ Help us ∧ operands c as.length

/-- every required flag is used -/
def HasRequired (c : Cmd) (us : List Use) : Prop :=
  ∀ f ∈ own c, f.required = true → ∃ u ∈ us, u.1 = f.name

end Spec
end Cobra
