import Verif.Bdist.Install
import Verif.Python.Config
import Verif.Python.Json
import Verif.Go.Regexp
/-!
Model of the post-install hooks:
/repo/pkg/python/pypa/recording_installs/recording_installs.go (`Record`),
/repo/pkg/python/pypa/entry_points/entry_points.go (`CreateScripts`),
/repo/pkg/python/pypa/direct_url/direct_url.go (`Record`),
/repo/pkg/python/pep376/requested.go (`RecordRequested`).

Where a hook ranges over a map it has the order as a parameter: a function that permutes the entries.
-/
namespace Bdist
open Go Fsutil Python

/-- `fsutil.InMemFileReference` (fileref.go) with the `FileInfo` of a `tar.Header`, as all hooks make them: name, mode,
content, and the time `clampTime` -/
def memFile (t : Int) (name : Str) (mode : Int) (content : Bytes) : Ref :=
  .other ⟨name,
    some { name := pathBase name, typeflag := typeReg, linkname := [], size := content.length, mode := mode, uid := 0, gid := 0,
           uname := [], gname := [], modTime := t, accessTime := zeroTime, changeTime := zeroTime, pax := [], other := [] }, some content⟩

/-- `Size` of a reference -/
def Ref.size : Ref → Int
  | .zip h _ _ => h.size
  | .other f => match f.info with
    | some h => h.size
    | none => 0

/-! ### requested.go -/

/-- requested.go:17-70 `RecordRequested` -/
def requestedHook (requested : Str) : Hook := fun t vfs dir =>
  let name := pathJoin [dir, "REQUESTED".toList]
  .ok (vfs.set name (memFile t name 0o644 (if requested = [] then [] else enc (requested ++ ['\n']))))

/-! ### direct_url.go -/

/-- direct_url.go:38-63 `Record` -/
def directUrlHook (d : Json.DirectURL) : Hook := fun t vfs dir =>
  match Json.jsonDumps d.doc with
  | none => .error ()
  | some text =>
    let name := pathJoin [dir, "direct_url.json".toList]
    .ok (vfs.set name (memFile t name 0o644 (enc text)))

/-! ### recording_installs.go -/

/-- `filepath.Rel` (standard library) on the elements of two rooted paths: up from what is left of the first, down to what
is left of the second -/
def relElems : List Str → List Str → List Str
  | b :: bs, t :: ts => if b = t then relElems bs ts else List.replicate (bs.length + 1) "..".toList ++ t :: ts
  | bs, ts => List.replicate bs.length "..".toList ++ ts

/-- `filepath.Rel` (standard library) of two rooted paths on Unix; there is no error then -/
def filepathRel (base targ : Str) : Str :=
  match relElems (cleanElems true (split '/' base)) (cleanElems true (split '/' targ)) with
  | [] => ['.']
  | es => join ['/'] es

/-- hashlib.go:14-30 `HashlibAlgorithmsGuaranteed`: the names -/
def guaranteed : List Str :=
  ["md5".toList, "sha1".toList, "sha224".toList, "sha256".toList, "sha384".toList, "sha512".toList]

/-- what the hooks use: the hash functions as in `Env`, `csv.Writer.WriteAll` with CRLF (which cannot fail when it writes
to a buffer), `sort.Slice`, and the text of a file (strings of the model are lists of characters, not of bytes) -/
structure HookEnv where
  digest : Str → Bytes → Str
  csvWrite : List (List Str) → Bytes
  sortRows : (List Str → List Str → Bool) → List (List Str) → List (List Str)
  decode : Bytes → Str

/-- recording_installs.go:30-57 `recordFile`; only a `*withRecord` is `Recordable` -/
def recordFile (env : HookEnv) (algo base : Str) (r : Ref) : Except Unit (List Str) :=
  let name := filepathRel ('/' :: base) ('/' :: r.fullName)
  match r with
  | .zip _ _ (some rec) => .ok [name, rec.1, itoa rec.2]
  | r =>
    if hasSuffix name ".pyc".toList then .ok [name, [], []]
    else
      match r.content with
      | none => .error ()
      | some c => .ok [name, algo ++ "=".toList ++ env.digest algo c, itoa r.size]

/-- recording_installs.go:109-119: the rows for the files, visited in the order of the list -/
def recordRows (env : HookEnv) (algo base : Str) : List (Str × Ref) → Except Unit (List (List Str))
  | [] => .ok []
  | e :: es =>
    if e.2.isDir then recordRows env algo base es
    else
      match recordFile env algo base e.2 with
      | .error x => .error x
      | .ok row =>
        match recordRows env algo base es with
        | .error x => .error x
        | .ok rows => .ok (row :: rows)

/-- recording_installs.go:120-122: the comparison of rows -/
def rowLess (a b : List Str) : Bool := decide (a.headD [] < b.headD [])

/-- recording_installs.go:74-94: the INSTALLER file, and direct_url.json if there is something to record -/
def recordMeta (installer : Str) (url : Option Json.DirectURL) : Hook := fun t vfs dir =>
  let name := pathJoin [dir, "INSTALLER".toList]
  let vfs := vfs.set name (memFile t name 0o644 (enc (installer ++ ['\n'])))
  match url with
  | none => .ok vfs
  | some d => directUrlHook d t vfs dir

/-- recording_installs.go:59-148 `Record` -/
def recordHook (env : HookEnv) (order : Map Ref → Map Ref) (hashName installer : Str) (url : Option Json.DirectURL) : Hook :=
  fun t vfs dir =>
    match recordMeta installer url t vfs dir with
    | .error e => .error e
    | .ok vfs =>
      let algo := if hashName = [] then "sha256".toList else hashName
      if algo ∉ guaranteed then .error ()
      else
        match recordRows env algo (pathDir dir) (order vfs) with
        | .error e => .error e
        | .ok rows =>
          let rows := env.sortRows rowLess ([pathJoin [pathBase dir, "RECORD".toList], [], []] :: rows)
          let name := pathJoin [dir, "RECORD".toList]
          .ok (vfs.set name (memFile t name 0o644 (env.csvWrite rows)))

/-! ### entry_points.go -/

/-- entry_points.go:36-41 `configParser` -/
def entryParser : Parser := { newConfigParser with transform := id, delimiters := ["=".toList] }

/-- `\w` -/
def wordChar (c : Char) : Bool := isDig c || ('a' ≤ c && c ≤ 'z') || ('A' ≤ c && c ≤ 'Z') || c = '_'

/-- `\w+([:.]\w+)*` -/
def reCallable : Re Unit :=
  .seq (.plus (.chr wordChar)) (.star (.seq (.chr (fun c => c = ':' || c = '.')) (.plus (.chr wordChar))))

/-- `\s*\[.*\]` -/
def reExtras : Re Unit :=
  .seq (.star (.chr reSpace)) (.seq (.chr (lit '[')) (.seq (.star (.chr (fun c => c ≠ '\n'))) (.chr (lit ']'))))

/-- entry_points.go:45 `reFuncRef` without the anchors; the group is `callable` -/
def reFuncRef : Re Unit := .seq (.cap () reCallable) (.opt reExtras)

/-- entry_points.go:83-93: the two parts of a function reference -/
def funcRef (val : Str) : Except Unit (Str × Str) :=
  match reFuncRef.matchFull val with
  | none => .error ()
  | some m =>
    match split ':' (group m ()) with
    | [a, b] => .ok (a, b)
    | _ => .error ()

/-- entry_points.go:24-34 `scriptTmpl`, executed -/
def scriptText (shebang mod func : Str) : Str :=
  "#!".toList ++ shebang ++ "\n# -*- coding: utf-8 -*-\nimport re\nimport sys\nfrom ".toList ++ mod ++ " import ".toList ++ func ++
  "\nif __name__ == '__main__':\n    sys.argv[0] = re.sub(r'(-script\\.pyw|\\.exe)?$', '', sys.argv[0])\n    sys.exit(".toList ++ func ++
  "())\n".toList

/-- entry_points.go:82-115: the loop over the options of a section, in the order of the list -/
def addScripts (t : Int) (scripts shebang : Str) : List (Str × Str) → Map Ref → Except Unit (Map Ref)
  | [], vfs => .ok vfs
  | e :: es, vfs =>
    match funcRef e.2 with
    | .error x => .error x
    | .ok ref =>
      let name := pathJoin [scripts.drop 1, e.1]
      addScripts t scripts shebang es (vfs.set name (memFile t name 0o755 (enc (scriptText shebang ref.1 ref.2))))

/-- entry_points.go:78-115: one of the two sections, if it is there -/
def addSection (t : Int) (scripts : Str) (order : List (Str × Str) → List (Str × Str)) (cfg : Config) (sect shebang : Str) (vfs : Map Ref) :
    Except Unit (Map Ref) :=
  match getKey sect cfg with
  | none => .ok vfs
  | some data => addScripts t scripts shebang (order data) vfs

/-- entry_points.go:48-119 `CreateScripts`; `guiFirst` is the order of the outer loop, over a map with two entries -/
def scriptsHook (env : HookEnv) (guiFirst : Bool) (order : List (Str × Str) → List (Str × Str)) (plat : Platform) : Hook :=
  fun t vfs dir =>
    match plat.init with
    | .error e => .error e
    | .ok p =>
      match vfs.get? (pathJoin [dir, "entry_points.txt".toList]) with
      | none => .ok vfs
      | some r =>
        match r.content with
        | none => .error ()
        | some c =>
          match parseConfig entryParser (env.decode c) with
          | .error e => .error e
          | .ok cfg =>
            let console := addSection t p.scheme.scripts order cfg "console_scripts".toList p.consoleShebang
            let gui := addSection t p.scheme.scripts order cfg "gui_scripts".toList p.graphicalShebang
            if guiFirst then (gui vfs).bind console else (console vfs).bind gui

end Bdist
