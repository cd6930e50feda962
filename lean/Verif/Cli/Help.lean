import Verif.Cli.Wrap
/-! Model of pkg/cliutil/term.go and cobra_tmpl.go: the width of the terminal and the help text.  The template is given as what
`text/template` makes of it: `{{-` removes the white space before it, so that only the line feeds kept here are printed. -/
namespace Cli
open Go

/-- what `GetTerminalWidth` can see: the variable `COLUMNS` (empty if not set), what `term.GetSize(1)` returns (`none` is an error)
and `term.IsTerminal(1)` (term.go:19, 24, 30) -/
structure TermEnv where
  columns : Str
  size : Option Int
  isTerminal : Bool

/-- term.go:11-36 `GetTerminalWidth` -/
def terminalWidth (e : TermEnv) : Int :=
  match atoi e.columns with
  | some cols => cols
  | none =>
    match e.size with
    | some cols => cols
    | none => if e.isTerminal then 80 else 0

/-- wordwrap.go:16-18 `WrapIndent`, the template function `wrapIndent` (cobra_tmpl.go:11).  The loop may run as often as the text has
bytes; by C80 it does not run more often. -/
def wrapIndent (i : Nat) (w : Int) (s : Bytes) : Out := wrap s.length i w s

/-- wordwrap.go:7-9 `Wrap`, the template function `wrap` (cobra_tmpl.go:10) -/
def wrapText (w : Int) (s : Bytes) : Out := wrap s.length 0 w s

/-- `unicode.IsSpace` for ASCII bytes -/
def asciiSpace (c : UInt8) : Bool := (9 ≤ c && c ≤ 13) || c = 32

/-- cobra's template function `trimTrailingWhitespaces`, `strings.TrimRightFunc(s, unicode.IsSpace)`.  Simplification: only ASCII
white space is removed; texts that end in other white space are not modelled. -/
def trimEnd (s : Bytes) : Bytes := (s.reverse.dropWhile asciiSpace).reverse

/-- cobra's template function `rpad`, `fmt.Sprintf("%-Ns", s)`.  Simplification: counts bytes, `fmt` counts runes. -/
def rpad (s : Bytes) (n : Nat) : Bytes := s ++ spaces (n - s.length)

/-- the bytes of a literal -/
def lit (s : String) : Bytes := s.toList.map (fun c => UInt8.ofNat c.toNat)

/-- one after the other; the first failure is the result -/
def cat : List Out → Out
  | [] => .ret []
  | .ret a :: os =>
    match cat os with
    | .ret b => .ret (a ++ b)
    | e => e
  | e :: _ => e

/-- a subcommand, as the template sees it (cobra_tmpl.go:53-57, 78-82) -/
structure HelpCmd where
  name : Bytes
  path : Bytes
  short : Bytes
  namePadding : Nat
  pathPadding : Nat
  available : Bool
  topic : Bool

/-- a command, as the template sees it (cobra_tmpl.go:22-90).  A flag is the pair of what pflag prints on the left (`-o, --output
FILE` with its indent) and its description. -/
structure HelpData where
  useLine : Bytes
  short : Bytes
  long : Bytes
  aliases : Bool
  nameAndAliases : Bytes
  example_ : Bytes
  hasSub : Bool
  cmds : List HelpCmd
  hasLocal : Bool
  localFlags : List (Bytes × Bytes)
  hasInherited : Bool
  inheritedFlags : List (Bytes × Bytes)
  hasTopics : Bool
  path : Bytes

/-- pflag's `FlagUsagesWrapped` (pflag v1.0.5 flag.go:653-725), from the columns of each flag: the descriptions begin two columns
after the widest left column and its end mark -/
def flagUsages (w : Int) (fs : List (Bytes × Bytes)) : Out :=
  let maxlen := fs.foldl (fun m f => max m (f.1.length + 1)) 0
  cat (fs.flatMap fun f => [.ret (f.1 ++ [sp] ++ spaces (maxlen - f.1.length) ++ [sp]), wrapIndent (maxlen + 2) w f.2, .ret [nl]])

/-- what the template does with the result of a function -/
def Out.map (g : Bytes → Bytes) : Out → Out
  | .ret s => .ret (g s)
  | e => e

/-- cobra_tmpl.go:55, 80: a line of a list of commands -/
def cmdLine (w : Int) (name : Bytes) (pad : Nat) (c : HelpCmd) : List Out :=
  [.ret ([nl] ++ lit "  " ++ rpad name pad ++ lit "   "), wrapIndent (c.namePadding + 5) w c.short]

/-- cobra_tmpl.go:22-90 `HelpTemplate` -/
def helpText (w : Int) (d : HelpData) : Out :=
  cat ([.ret (lit "Usage: " ++ d.useLine)] ++
    (if d.short ≠ [] then [.ret ([nl] ++ d.short)] else []) ++
    (if d.long ≠ [] then [.ret [nl, nl], (wrapText w d.long).map trimEnd] else []) ++
    (if d.aliases then [.ret (lit "\n\nAliases:\n  " ++ d.nameAndAliases)] else []) ++
    (if d.example_ ≠ [] then [.ret (lit "\n\nExamples:\n" ++ d.example_)] else []) ++
    (if d.hasSub then .ret (lit "\n\nAvailable Commands:") ::
      d.cmds.flatMap (fun c => if c.available || c.name = lit "help" then cmdLine w c.name c.namePadding c else []) else []) ++
    (if d.hasLocal then [.ret (lit "\n\nFlags:\n"), (flagUsages w d.localFlags).map trimEnd] else []) ++
    (if d.hasInherited then [.ret (lit "\n\nGlobal Flags:\n"), (flagUsages w d.inheritedFlags).map trimEnd] else []) ++
    (if d.hasTopics then .ret (lit "\n\nAdditional help topics:") ::
      d.cmds.flatMap (fun c => if c.topic then cmdLine w c.path c.pathPadding c else []) else []) ++
    (if d.hasSub then [.ret (lit "\n\nUse \"" ++ d.path ++ lit " [command] --help\" for more information about a command.")] else []) ++
    [.ret [nl]])

end Cli
