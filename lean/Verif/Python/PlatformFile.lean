import Verif.Python.InspectCmd
/-!
The platform file: what cmd_python_inspect.go writes with gopkg.in/yaml.v2 and what cmd_layer_wheel.go reads with sigs.k8s.io/yaml,
which turns the YAML into JSON and gives that to encoding/json.  The two libraries name the fields of a struct differently: yaml.v2
writes the lower-cased name of the field (and does not look at `json:` tags), encoding/json takes the `json:` tag or the name of the
field and, failing an exact match, ignores case.

Modelled: the trees that are written and read.  Not modelled: the text of the YAML, whose writer and parser are parameters; floating
point numbers; keys that are not strings; strings that are not UTF-8; the reuse of a slice when a file gives the same field twice.
-/
namespace Python
open Go

/-- a YAML document, as yaml.v2 decodes it into an `interface{}`; a mapping lists its keys in the order of the text -/
inductive Yaml
  | null
  | bool (b : Bool)
  | int (i : Int)
  | str (s : Str)
  | seq (l : List Yaml)
  | map (m : List (Str × Yaml))

/-- the struct of cmd_layer_wheel.go:68-71 and cmd_python_inspect.go:59-62: `python.Platform` (platform.go:11-27) with its `PyCompile`
left out and a `PyCompile []string` in its place -/
structure PlatFile where
  consoleShebang : Str
  graphicalShebang : Str
  scheme : Scheme
  uid : Int
  gid : Int
  uname : Str
  gname : Str
  versionInfo : Option VersionInfo
  magicNumber : List UInt8
  tags : List Pep425.Tag
  pyCompile : List Str

/-! ## Writing -/

/-- yaml.v2 `getStructInfo`: the key of a field without a `yaml:` tag -/
def yamlKey (field : String) : Str := toLower field.toList

/-- platform.go:60-69 as yaml.v2 writes it -/
def encodeScheme (s : Scheme) : Yaml := .map
  [(yamlKey "PureLib", .str s.pureLib), (yamlKey "PlatLib", .str s.platLib), (yamlKey "Headers", .str s.headers),
   (yamlKey "Scripts", .str s.scripts), (yamlKey "Data", .str s.data)]

/-- platform.go:29-35 as yaml.v2 writes it -/
def encodeVersion (v : VersionInfo) : Yaml := .map
  [(yamlKey "Major", .int v.major), (yamlKey "Minor", .int v.minor), (yamlKey "Micro", .int v.micro),
   (yamlKey "ReleaseLevel", .str v.releaseLevel), (yamlKey "Serial", .int v.serial)]

/-- cmd_python_inspect.go:161 `yaml.Marshal(plat)`: the fields of the inlined `python.Platform` but for `PyCompile`, which is tagged
`yaml:"-"`, then the outer `PyCompile`.  A `[]byte` is written as a sequence of numbers, a tag by its `MarshalText` (tags.go:45-47) -/
def encodeReport (r : Report) : Yaml := .map
  [(yamlKey "ConsoleShebang", .str r.consoleShebang), (yamlKey "GraphicalShebang", .str r.graphicalShebang),
   (yamlKey "Scheme", encodeScheme r.scheme), (yamlKey "UID", .int r.owner.uid), (yamlKey "GID", .int r.owner.gid),
   (yamlKey "UName", .str r.owner.uname), (yamlKey "GName", .str r.owner.gname), (yamlKey "VersionInfo", encodeVersion r.version),
   (yamlKey "MagicNumber", .seq (r.magicNumber.map fun b => .int b.toNat)),
   (yamlKey "Tags", .seq (r.tags.map fun t => .str t.string)), (yamlKey "PyCompile", .seq (r.pyCompile.map .str))]

/-! ## Reading -/

/-- sigs.k8s.io/yaml `yamlToJSON`: a mapping becomes a Go map (of keys given twice the last counts), which encoding/json writes in the
order of the keys -/
def insertKey (k : Str) (v : Yaml) : List (Str × Yaml) → List (Str × Yaml)
  | [] => [(k, v)]
  | (k', v') :: m => if k = k' then (k, v) :: m else if k < k' then (k, v) :: (k', v') :: m else (k', v') :: insertKey k v m

/-- see `insertKey` -/
def object (m : List (Str × Yaml)) : List (Str × Yaml) := m.foldl (fun o kv => insertKey kv.1 kv.2 o) []

/-- encoding/json `foldFunc`: the characters that it takes for the same, as the field names are ASCII (U+017F and U+212A are the two
that fold to an ASCII letter) -/
def foldC (c : Char) : Char := if c = '\u017f' then 's' else lowerC c

/-- how one field of a struct is decoded: an error, or a change of the struct -/
abbrev Setter (σ : Type) := Yaml → Option (σ → σ)

/-- encoding/json `(*decodeState).object`: the field for a key, by its name or else ignoring case -/
def findField {σ : Type} (fields : List (Str × Setter σ)) (key : Str) : Option (Setter σ) :=
  match fields.find? (fun f => f.1 == key) with
  | some f => some f.2
  | none => (fields.find? (fun f => f.1.map foldC == key.map foldC)).map (·.2)

/-- encoding/json `(*decodeState).object` with `DisallowUnknownFields` (cmd_layer_wheel.go:72): a key without a field is an error.
An error does not stop the decoder, but it is returned in the end -/
def decodeFields {σ : Type} (fields : List (Str × Setter σ)) : List (Str × Yaml) → Option (σ → σ)
  | [] => some id
  | (k, v) :: m => match findField fields k with
    | none => none
    | some set => match set v with
      | none => none
      | some g => match decodeFields fields m with
        | none => none
        | some f => some (f ∘ g)

/-- a `string`.  sigs.k8s.io/yaml would write a number for a string as a string, but for the fields of an embedded struct it looks at the
type of the embedded struct (`t.Field(f.index[0])`) and for those below them at no type -/
def setStr {σ : Type} (put : Str → σ → σ) : Setter σ
  | .null => some id
  | .str s => some (put s)
  | _ => none

/-- an `int` of 64 bits -/
def setInt {σ : Type} (put : Int → σ → σ) : Setter σ
  | .null => some id
  | .int i => if -9223372036854775808 ≤ i ∧ i < 9223372036854775808 then some (put i) else none
  | _ => none

/-- an element of a `[]byte` -/
def byteOf : Yaml → Option UInt8
  | .null => some 0
  | .int i => if 0 ≤ i ∧ i < 256 then some (UInt8.ofNat i.toNat) else none
  | _ => none

/-- a `[]byte`: numbers, or base64 -/
def setBytes {σ : Type} (b64 : Str → Option (List UInt8)) (put : List UInt8 → σ → σ) : Setter σ
  | .null => some (put [])
  | .str s => (b64 s).map put
  | .seq l => (l.mapM byteOf).map put
  | _ => none

/-- an element of a `pep425.Installer`: tags.go:49-56 `UnmarshalText` -/
def tagOf : Yaml → Option Pep425.Tag
  | .null => some ⟨[], [], []⟩
  | .str s => match Pep425.parseTag s with
    | .ok t => some t
    | .error _ => none
  | _ => none

/-- a `pep425.Installer` -/
def setTags {σ : Type} (put : List Pep425.Tag → σ → σ) : Setter σ
  | .null => some (put [])
  | .seq l => (l.mapM tagOf).map put
  | _ => none

/-- an element of the `[]string`, which is a field of the struct itself: sigs.k8s.io/yaml writes numbers and booleans as strings -/
def wordOf : Yaml → Option Str
  | .null => some []
  | .str s => some s
  | .int i => some (itoa i)
  | .bool b => some (if b then "true".toList else "false".toList)
  | _ => none

/-- the `[]string` -/
def setWords {σ : Type} (put : List Str → σ → σ) : Setter σ
  | .null => some (put [])
  | .seq l => (l.mapM wordOf).map put
  | _ => none

/-- platform.go:60-69, the names of its fields from the `json:` tags -/
def schemeFields : List (Str × Setter Scheme) :=
  [("purelib".toList, setStr fun v s => { s with pureLib := v }), ("platlib".toList, setStr fun v s => { s with platLib := v }),
   ("headers".toList, setStr fun v s => { s with headers := v }), ("scripts".toList, setStr fun v s => { s with scripts := v }),
   ("data".toList, setStr fun v s => { s with data := v })]

/-- platform.go:29-35, the names of its fields from the `json:` tags -/
def versionFields : List (Str × Setter VersionInfo) :=
  [("major".toList, setInt fun v s => { s with major := v }), ("minor".toList, setInt fun v s => { s with minor := v }),
   ("micro".toList, setInt fun v s => { s with micro := v }), ("releaselevel".toList, setStr fun v s => { s with releaseLevel := v }),
   ("serial".toList, setInt fun v s => { s with serial := v })]

/-- the field `Scheme`, a struct -/
def setScheme : Setter PlatFile
  | .null => some id
  | .map m => (decodeFields schemeFields (object m)).map fun f p => { p with scheme := f p.scheme }
  | _ => none

/-- the field `VersionInfo`, a pointer to a struct -/
def setVersion : Setter PlatFile
  | .null => some fun p => { p with versionInfo := none }
  | .map m => (decodeFields versionFields (object m)).map fun f p =>
      { p with versionInfo := some (f (p.versionInfo.getD ⟨0, 0, 0, [], 0⟩)) }
  | _ => none

/-- platform.go:11-27 without `PyCompile` (tagged `json:"-"`), and cmd_layer_wheel.go:70 -/
def platformFields (b64 : Str → Option (List UInt8)) : List (Str × Setter PlatFile) :=
  [("ConsoleShebang".toList, setStr fun v p => { p with consoleShebang := v }),
   ("GraphicalShebang".toList, setStr fun v p => { p with graphicalShebang := v }),
   ("Scheme".toList, setScheme),
   ("UID".toList, setInt fun v p => { p with uid := v }), ("GID".toList, setInt fun v p => { p with gid := v }),
   ("UName".toList, setStr fun v p => { p with uname := v }), ("GName".toList, setStr fun v p => { p with gname := v }),
   ("VersionInfo".toList, setVersion),
   ("MagicNumber".toList, setBytes b64 fun v p => { p with magicNumber := v }),
   ("Tags".toList, setTags fun v p => { p with tags := v }),
   ("PyCompile".toList, setWords fun v p => { p with pyCompile := v })]

/-- the zero value of the struct, cmd_layer_wheel.go:68 -/
def PlatFile.zero : PlatFile := ⟨[], [], ⟨[], [], [], [], []⟩, 0, 0, [], [], none, [], [], []⟩

/-- cmd_layer_wheel.go:72 `yaml.Unmarshal(yamlBytes, &plat, yaml.DisallowUnknownFields)`, from the parsed YAML on -/
def decodePlatform (b64 : Str → Option (List UInt8)) : Yaml → Option PlatFile
  | .null => some PlatFile.zero
  | .map m => (decodeFields (platformFields b64) (object m)).map (· PlatFile.zero)
  | _ => none

/-- py_compile.go:39-189 `ExternalCompiler`, up to the function it returns: the absolute path of the program (`dexec.LookPath`, then
`filepath.Abs`) and the other words.  The outer `none` is the panic of `cmdline[0]` -/
def lookupCompiler (look abs : Str → Option Str) : List Str → Option (Except Unit (Str × List Str))
  | [] => none
  | name :: words => match look name with
    | none => some (.error ())
    | some exe => match abs exe with
      | none => some (.error ())
      | some exe => some (.ok (exe, words))

/-- what `ocibuild layer wheel` works with: the YAML parser, base64, `dexec.LookPath` and `filepath.Abs` -/
structure WheelEnv where
  parse : List UInt8 → Option Yaml
  b64 : Str → Option (List UInt8)
  look : Str → Option Str
  abs : Str → Option Str

/-- cmd_layer_wheel.go:63-78: from the bytes of the platform file to the platform and the compiler.  The outer `none` is a panic -/
def wheelPlatform (env : WheelEnv) (file : List UInt8) : Option (Except Unit (PlatFile × Str × List Str)) :=
  match env.parse file with
  | none => some (.error ())
  | some y => match decodePlatform env.b64 y with
    | none => some (.error ())
    | some p => match lookupCompiler env.look env.abs p.pyCompile with
      | none => none
      | some (.error _) => some (.error ())
      | some (.ok (exe, words)) => some (.ok (p, exe, words))

end Python
