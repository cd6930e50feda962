import Verif.Go.Basic
/-!
Model of the command line: main.go, the flags and argument counts of the cmd_*.go files, pkg/cliutil/cobra.go, and
the two libraries they are built on, github.com/spf13/cobra v1.2.1 and github.com/spf13/pflag v1.0.5 (not part of
/repo; modelled from their documented behaviour).

What a command does once it is started (its `RunE`) is a parameter of `process`; other files of the model say what
it is.  Cobra's hidden completion command `__complete` is left out.
-/
namespace Cobra
open Go

/-- the types of flags in use: pflag's `Bool…`, `Int…`, `String…` and `StringArray…` -/
inductive Kind
  | bool | int | str | array
deriving DecidableEq

/-- pflag's `Flag`: the name after `--`, the letter after `-`, the type, and cobra's annotation "required"
(`MarkFlagRequired`) -/
structure Flag where
  name : Str
  short : Option Char
  kind : Kind
  required : Bool
deriving DecidableEq

/-- main.go:17-51, the cmd_*.go files, and cobra's own `help` command (`InitDefaultHelpCmd`) -/
inductive Cmd
  | root | image | layer | python | help
  | build | dir | gobuild | squash | wheel | getwheel | inspect
deriving DecidableEq

/-- a flag -/
def mk (n : String) (s : Option Char) (k : Kind) : Flag := ⟨n.toList, s, k, false⟩

/-- the first word of `Use`: main.go:18,32,39,46, cmd_image_build.go:126, cmd_layer_dir.go:18,
cmd_layer_gobuild.go:20, cmd_layer_squash.go:16, cmd_layer_wheel.go:22, cmd_python_getwheel.go:18,
cmd_python_inspect.go:29 -/
def nameOf : Cmd → Str
  | .root => "ocibuild".toList
  | .image => "image".toList
  | .layer => "layer".toList
  | .python => "python".toList
  | .help => "help".toList
  | .build => "build".toList
  | .dir => "dir".toList
  | .gobuild => "gobuild".toList
  | .squash => "squash".toList
  | .wheel => "wheel".toList
  | .getwheel => "getwheel".toList
  | .inspect => "inspect".toList

/-- the calls of `AddCommand`: main.go:57-59, cmd_image_build.go:183, cmd_layer_dir.go:60, cmd_layer_gobuild.go,
cmd_layer_squash.go, cmd_layer_wheel.go:111, cmd_python_getwheel.go, cmd_python_inspect.go:176 -/
def subs : Cmd → List Cmd
  | .root => [.image, .layer, .python, .help]
  | .image => [.build]
  | .layer => [.dir, .gobuild, .squash, .wheel]
  | .python => [.getwheel, .inspect]
  | _ => []

/-- the calls of `cmd.Flags().…Var`: cmd_image_build.go:43-68,179-181, cmd_layer_dir.go:38-58,
cmd_layer_gobuild.go:83, cmd_layer_wheel.go:106-110, cmd_python_getwheel.go:62, cmd_python_inspect.go:171-174 -/
def flagsOf : Cmd → List Flag
  | .build =>
    [mk "base" none .str, mk "tag" (some 't') .str, mk "config.Env.clear" (some 'E') .bool,
     mk "config.Env.append" (some 'e') .array, mk "config.Entrypoint" none .array,
     mk "config.Cmd" (some 'c') .array, mk "config.WorkingDir" (some 'w') .str]
  | .dir =>
    [mk "prefix" none .str, mk "prefix-uid" none .int, mk "prefix-uname" none .str, mk "prefix-gid" none .int,
     mk "prefix-gname" none .str, mk "chown-uid" none .int, mk "chown-uname" none .str, mk "chown-gid" none .int,
     mk "chown-gname" none .str]
  | .gobuild => [mk "output" (some 'o') .str]
  | .wheel => [{ mk "platform-file" none .str with required := true }]
  | .getwheel => [mk "index-server" none .str]
  | .inspect => [mk "interpreter" none .str, mk "imagefile" none .str]
  | _ => []

/-- cobra: `InitDefaultHelpFlag` -/
def helpFlag : Flag := mk "help" (some 'h') .bool

/-- `Args:` in the same files (cobra's `ExactArgs`, `MinimumNArgs` and `NoArgs`, and cobra.go:13-29
`OnlySubcommands`, each wrapped in cobra.go:32-36 `WrapPositionalArgs`): whether the operands are accepted.  The
`help` command accepts all. -/
def argsOk : Cmd → List Str → Bool
  | .root, a | .image, a | .layer, a | .python, a => a.length == 0
  | .help, _ => true
  | .build, a => 1 ≤ a.length
  | .dir, a => a.length == 1
  | .gobuild, a => 1 ≤ a.length
  | .squash, a => 2 ≤ a.length
  | .wheel, a => a.length == 1
  | .getwheel, a => a.length == 1
  | .inspect, a => a.length == 0

/-- the strings `strconv.ParseBool` (library) takes for true -/
def trues : List Str := ["1", "t", "T", "TRUE", "true", "True"].map (·.toList)
/-- the strings `strconv.ParseBool` (library) takes for false -/
def falses : List Str := ["0", "f", "F", "FALSE", "false", "False"].map (·.toList)

/-- pflag's `Value.Set` for the four types: whether the value is accepted.  Which strings `strconv.ParseInt(s, 0, 64)`
accepts is the parameter `isInt`. -/
def accepts (isInt : Str → Bool) : Kind → Str → Bool
  | .bool, v => trues.contains v || falses.contains v
  | .int, v => isInt v
  | .str, _ => true
  | .array, _ => true

/-- one use of a flag on the command line: its name and the value -/
abbrev Use := Str × Str

/-- `strings.SplitN(name, "=", 2)` (library) -/
def splitEq : Str → Str × Option Str
  | [] => ([], none)
  | c :: s => if c = '=' then ([], some s) else ((c :: (splitEq s).1), (splitEq s).2)

/-- what an argument that begins with `-` means: uses of flags, and a flag that takes the next argument as value -/
abbrev Meaning := List Use × Option Flag

/-- pflag: `parseShortArg` and `parseSingleShortArg`, on the letters after `-`.  Letters that begin with `test.` are
ignored (they are meant for Go's test programs). -/
def shorts (isInt : Str → Bool) (fs : List Flag) : Str → Option Meaning
  | [] => some ([], none)
  | c :: rest =>
    if "test.".toList.isPrefixOf (c :: rest) then some ([], none)
    else match fs.find? (fun f => f.short == some c) with
    | none => none
    | some f =>
      if rest.head? = some '=' ∧ 2 ≤ rest.length then
        if accepts isInt f.kind rest.tail then some ([(f.name, rest.tail)], none) else none
      else if f.kind = .bool then
        match shorts isInt fs rest with
        | none => none
        | some (us, p) => some ((f.name, "true".toList) :: us, p)
      else if rest ≠ [] then
        if accepts isInt f.kind rest then some ([(f.name, rest)], none) else none
      else some ([], some f)

/-- pflag: `parseLongArg`, on the text after `--` -/
def long (isInt : Str → Bool) (fs : List Flag) (name : Str) : Option Meaning :=
  if name = [] ∨ name.head? = some '-' ∨ name.head? = some '=' then none
  else match fs.find? (fun f => f.name == (splitEq name).1) with
  | none => none
  | some f =>
    match (splitEq name).2 with
    | some v => if accepts isInt f.kind v then some ([(f.name, v)], none) else none
    | none => if f.kind = .bool then some ([(f.name, "true".toList)], none) else some ([], some f)

/-- pflag: `parseArgs`: the uses of flags and the operands, `none` for an error -/
def parse (isInt : Str → Bool) (fs : List Flag) : List Str → Option (List Use × List Str)
  | [] => some ([], [])
  | s :: args =>
    if s.head? ≠ some '-' ∨ s.length = 1 then
      match parse isInt fs args with
      | none => none
      | some (us, as) => some (us, s :: as)
    else if s = "--".toList then some ([], args)
    else
      match (if s.tail.head? = some '-' then long isInt fs s.tail.tail else shorts isInt fs s.tail) with
      | none => none
      | some (us, none) =>
        match parse isInt fs args with
        | none => none
        | some (us', as) => some (us ++ us', as)
      | some (us, some f) =>
        match args with
        | [] => none
        | v :: args =>
          if accepts isInt f.kind v then
            match parse isInt fs args with
            | none => none
            | some (us', as) => some (us ++ (f.name, v) :: us', as)
          else none

/-- the length of a string in bytes (UTF-8) -/
def bytes (s : Str) : Nat := (s.map Char.utf8Size).sum

/-- cobra: the case of `stripFlags` in which the next argument is taken for the value of a flag -/
def takesNext (fs : List Flag) (s : Str) : Bool :=
  !s.contains '=' &&
  (("--".toList.isPrefixOf s && !(fs.find? (fun f => f.name == s.drop 2)).any (fun f => f.kind == .bool)) ||
   (s.head? == some '-' && bytes s == 2 &&
     !(fs.find? (fun f => f.short == s.tail.head?)).any (fun f => f.kind == .bool)))

/-- cobra: `stripFlags`, of which only the first element is used -/
def firstWord (fs : List Flag) : List Str → Option Str
  | [] => none
  | s :: args =>
    if s = "--".toList then none
    else if takesNext fs s then
      match args with
      | [] => none
      | [_] => none
      | _ :: args => firstWord fs args
    else if s ≠ [] ∧ s.head? ≠ some '-' then some s
    else firstWord fs args

/-- cobra: `Find`.  `n` bounds the depth; the tree of commands has depth 2.  The flags are looked up before the
`--help` flag is added. -/
def find : Nat → Cmd → List Str → Cmd × List Str
  | 0, c, args => (c, args)
  | n + 1, c, args =>
    match firstWord (flagsOf c) args with
    | none => (c, args)
    | some w =>
      match (subs c).find? (fun d => nameOf d == w) with
      | none => (c, args)
      | some d => find n d (args.erase w)

/-- what becomes of a command line -/
inductive Outcome
  | help
  | usage
  | missing
  | group
  | run (c : Cmd) (us : List Use) (args : List Str)
deriving DecidableEq

/-- `cmd.Flags().GetBool("help")` -/
def helpAsked (us : List Use) : Bool :=
  match (us.filter (fun u => u.1 == "help".toList)).getLast? with
  | none => false
  | some u => trues.contains u.2

/-- cobra: `validateRequiredFlags` -/
def missing (c : Cmd) (us : List Use) : Bool :=
  (flagsOf c).any (fun f => f.required && !us.any (fun u => u.1 == f.name))

/-- cobra: `execute`.  Errors of pflag go to cobra.go:55-71 `FlagErrorFunc`, which exits (`usage`), and so do errors
of `Args` (cobra.go:32-36); an error of `validateRequiredFlags` is returned (`missing`).  The commands that only
have subcommands run cobra.go:42-48 `RunSubcommands` (`group`). -/
def execute (isInt : Str → Bool) (c : Cmd) (args : List Str) : Outcome :=
  match parse isInt (flagsOf c ++ [helpFlag]) args with
  | none => .usage
  | some (us, as) =>
    if helpAsked us then .help
    else if !argsOk c as then .usage
    else if missing c us then .missing
    else match c with
    | .root | .image | .layer | .python => .group
    | .help => .help
    | c => .run c us as

/-- how the program ends: the status it exits with, and the command it started, with the uses of flags and the
operands -/
structure Result where
  status : Nat
  ran : Option (Cmd × List Use × List Str)
deriving DecidableEq

/-- main.go:62-73 `main` with cobra's `ExecuteContext`; cobra.go:42-48, 55-71.  `exec c us as` says whether `RunE`
of the command returns nil. -/
def process (isInt : Str → Bool) (exec : Cmd → List Use → List Str → Bool) (args : List Str) : Result :=
  match execute isInt (find 2 .root args).1 (find 2 .root args).2 with
  | .help => ⟨0, none⟩
  | .usage => ⟨2, none⟩
  | .missing => ⟨1, none⟩
  | .group => ⟨2, none⟩
  | .run c us as => ⟨if exec c us as then 0 else 1, some (c, us, as)⟩

end Cobra
