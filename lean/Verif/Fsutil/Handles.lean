/-! Readers and files that functions of the program open, read and close.  Only that is modelled: whatever else a function
computes, and whether a call succeeds, is left open (`either` and `call`), so that every execution of the code is among the runs. -/
namespace Handles

/-- where a handle is opened -/
inductive Site where
  | wheel         -- zip.OpenReader, bdist/binary_distribution_format.go:101
  | record        -- wh.Open of RECORD, 837
  | checked       -- wh.Open of a file to check, 855
  | wheelInfo     -- wh.Open of WHEEL, 675
  | shebang       -- vfs[filename].Open, 386
  | original      -- open() of genRecord, bdist/hack.go:29
  | entryPoints   -- configFile.Open, entry_points.go:62
  | recorded      -- file.Open of recordFile, recording_installs.go:43
  | pyOut         -- os.Create, py_compile.go:83
  | pyIn          -- inFile.Open, py_compile.go:92
  | layerFile     -- file.Open of LayerFromFileReferences, fsutil/fileref.go:73
  | dirFile       -- os.Open of LayerFromDir, dir/dir.go:143
  | layer         -- layer.Uncompressed: fsutil/write.go:10, squash/readlayer.go:30, testutil/diff.go:38 and 93
  | compared      -- layer.Uncompressed: fsutil/diff.go:54 and 63
  | output        -- os.OpenFile, cmd_layer_gobuild.go:66
  | body          -- HTTPClient.Do, pep503/simple_repo_api.go:74
  | saved         -- os.Create, testutil/diff.go:145
deriving DecidableEq

/-- a handle, by the order in which they were opened -/
abbrev Handle := Nat

/-- a function's use of handles.  `open` gives the archive that is read from, if any; its continuation gets nothing when
opening fails.  `call` is any other call, or check, that may fail, and `either` a decision that has nothing to do with failing.
The continuations of `call`, `use` and `close` get whether the call succeeded. -/
inductive Prog (α : Type) where
  | ret (a : α)
  | either (k : Bool → Prog α)
  | call (k : Bool → Prog α)
  | open (s : Site) (parent : Option Handle) (k : Option Handle → Prog α)
  | use (h : Handle) (k : Bool → Prog α)
  | close (h : Handle) (k : Bool → Prog α)

/-- one piece of code after another -/
def Prog.bind {α β : Type} : Prog α → (α → Prog β) → Prog β
  | .ret a, f => f a
  | .either k, f => .either fun b => (k b).bind f
  | .call k, f => .call fun b => (k b).bind f
  | .open s p k, f => .open s p fun h => (k h).bind f
  | .use h k, f => .use h fun b => (k b).bind f
  | .close h k, f => .close h fun b => (k b).bind f

/-- what is seen of a run -/
inductive Event where
  | opened (h : Handle) (s : Site) (parent : Option Handle)
  | used (h : Handle)
  | closed (h : Handle)
deriving DecidableEq

/-- what has failed -/
inductive Fault where
  | opening (s : Site)
  | using (h : Handle)
  | closing (h : Handle)
  | other
deriving DecidableEq

/-- `Runs p n tr fs a m`: `p` may run as `tr`, with these failures, and return `a`; `n` and `m` are the numbers of the next handle
before and after -/
inductive Runs {α : Type} : Prog α → Nat → List Event → List Fault → α → Nat → Prop where
  | ret {a n} : Runs (.ret a) n [] [] a n
  | either {k n tr fs a m} (b : Bool) : Runs (k b) n tr fs a m → Runs (.either k) n tr fs a m
  | call {k n tr fs a m} (b : Bool) : Runs (k b) n tr fs a m → Runs (.call k) n tr ((if b then [] else [.other]) ++ fs) a m
  | openOk {s p k n tr fs a m} : Runs (k (some n)) (n + 1) tr fs a m → Runs (.open s p k) n (.opened n s p :: tr) fs a m
  | openFail {s p k n tr fs a m} : Runs (k none) n tr fs a m → Runs (.open s p k) n tr (.opening s :: fs) a m
  | use {h k n tr fs a m} (b : Bool) : Runs (k b) n tr fs a m →
      Runs (.use h k) n (.used h :: tr) ((if b then [] else [.using h]) ++ fs) a m
  | close {h k n tr fs a m} (b : Bool) : Runs (k b) n tr fs a m →
      Runs (.close h k) n (.closed h :: tr) ((if b then [] else [.closing h]) ++ fs) a m

/-! ### idioms of the code -/

/-! The result of a function is whether it returns no error. -/

/-- go on if the call succeeds, otherwise return the error -/
def must (k : Prog Bool) : Prog Bool := .call fun ok => if ok then k else .ret false

/-- `x, err := open(); if err != nil { return err }` -/
def opening (s : Site) (p : Option Handle) (k : Handle → Prog Bool) : Prog Bool :=
  .open s p fun
    | none => .ret false
    | some h => k h

/-- `if err := read(x); err != nil { return err }` -/
def reading (h : Handle) (k : Prog Bool) : Prog Bool := .use h fun ok => if ok then k else .ret false

/-- `defer x.Close()` around the rest of the function; `sets`: an error of Close becomes the result if there is none yet -/
def deferring (h : Handle) (sets : Bool) (rest : Prog Bool) : Prog Bool :=
  rest.bind fun ok => .close h fun c => .ret (ok && (c || !sets))

/-- `defer` of another call whose error becomes the result if there is none yet -/
def cleaning (rest : Prog Bool) : Prog Bool := rest.bind fun ok => .call fun c => .ret (ok && c)

/-- copying from one handle to another (`io.Copy`): any number of reads and writes -/
def copying (src dst : Handle) (k : Prog Bool) : Prog Bool := reading src (reading dst k)

/-- run for each, stop at the first error -/
def each {α : Type} (f : α → Prog Bool) : List α → Prog Bool
  | [] => .ret true
  | x :: xs => (f x).bind fun ok => if ok then each f xs else .ret false

/-- run for each, whatever happens; all errors together are the result -/
def all {α : Type} (f : α → Prog Bool) : List α → Prog Bool
  | [] => .ret true
  | x :: xs => (f x).bind fun ok => (all f xs).bind fun ok' => .ret (ok && ok')

/-- one call, then go on if it succeeded -/
def after (p : Prog Bool) (k : Prog Bool) : Prog Bool := p.bind fun ok => if ok then k else .ret false

/-! ### the functions -/

/-- fsutil/fileref.go:56-85, one file: `p` is the archive it is read from, if any; `regular` whether it has content -/
def layerEntry (f : Bool × Option Handle) : Prog Bool :=
  must (must (
    if f.1 then opening .layerFile f.2 fun h =>
      .use h fun ok =>
        if !ok then .close h fun _ => .ret false
        else .close h fun ok => if !ok then .ret false else .ret true
    else .ret true))

/-- fsutil/fileref.go:26-95 `LayerFromFileReferences` -/
def layerFromRefs (fs : List (Bool × Option Handle)) : Prog Bool :=
  after (each layerEntry fs) (must (must (.ret true)))

/-- dir/dir.go:76-156, the function given to the walk, for one file -/
def dirEntry (regular : Bool) : Prog Bool :=
  must (must (must (
    if regular then opening .dirFile none fun h =>
      .use h fun ok =>
        if !ok then .close h fun _ => .ret false
        else .close h fun ok => if !ok then .ret false else .ret true
    else .ret true)))

/-- dir/dir.go:34-169 `LayerFromDir` -/
def layerFromDir (fs : List Bool) : Prog Bool := after (each dirEntry fs) (must (must (.ret true)))

/-- fsutil/write.go:9-23 `WriteLayer` to a file or to something that is not opened here -/
def writeLayer (dst : Option Handle) : Prog Bool :=
  opening .layer none fun h => deferring h true (
    match dst with
    | some d => copying h d (.ret true)
    | none => reading h (.ret true))

/-- fsutil/diff.go:72-99, a round of the loop after which it goes on: the next header of each, then the contents
(`readersEqual`, 13-36: any number of reads of each) -/
def compareEntry (a b : Handle) (_ : Unit) : Prog Bool :=
  reading a (reading b (reading a (reading b (.ret true))))

/-- a read of contents (diff.go:18-25): a failure with `io.ErrUnexpectedEOF` is passed over; `k` gets whether there was one -/
def readingShort (h : Handle) (k : Bool → Prog Bool) : Prog Bool :=
  .use h fun ok => if ok then k false else .either fun short => if short then k true else .ret false

/-- the last round: the headers decide (81-92), or the contents do (94-98).  If the reading of contents failed and was passed over,
they may differ in what was read; if they do not, the next call of `Next` returns the failure of before. -/
def compareLast (a b : Handle) : Prog Bool :=
  reading a (reading b (.either fun decided =>
    if decided then .ret true
    else readingShort a fun s => readingShort b fun t =>
      if s || t then .either fun differ => .ret differ
      else .ret true))

/-- fsutil/diff.go:46-102 `LayersEqualExceptTimestamps`; `n` the rounds of the loop before the last -/
def layersEqual (n : Nat) : Prog Bool :=
  opening .compared none fun a => deferring a true (
    opening .compared none fun b => deferring b true (
      after (each (compareEntry a b) (List.replicate n ())) (compareLast a b)))

/-- squash/readlayer.go:28-74 `parseLayer`; `n` the entries read.  At the end there is one more call of `Next`. -/
def parseLayer (n : Nat) : Prog Bool :=
  opening .layer none fun h => deferring h false (
    after (each (fun _ : Unit => reading h (must (reading h (.ret true)))) (List.replicate n ())) (reading h (.ret true)))

/-- squash/squash.go:16-47 `loadLayers`, in `Load` (79-86) and in `Squash` (55-77), which then writes to memory, of layers with these numbers of entries -/
def load (ls : List Nat) : Prog Bool := after (each parseLayer ls) (must (.ret true))

/-- testutil/diff.go:21-81 `DumpLayerFull` (`full`, which reads on to the end) and 83-141 `DumpLayerListing` -/
def dumpLayer (full : Bool) (n : Nat) : Prog Bool :=
  opening .layer none fun h => deferring h true (
    after (each (fun _ : Unit => reading h (must (reading h (must (.ret true))))) (List.replicate n ()))
      (reading h (if full then reading h (must (.ret true)) else must (.ret true))))

/-- testutil/diff.go:143-158 `writeLayerToFile`; the result is whether no error is reported.  When the file cannot be created
that is reported, and the function goes on with no file: its calls then fail without any effect. -/
def writeLayerToFile : Prog Bool :=
  .open .saved none fun
    | none => (writeLayer none).bind fun _ => .ret false
    | some h => deferring h true (writeLayer (some h))

/-- pep503/simple_repo_api.go:58-113 `get`.  That the URL's fragment cannot be read as a checksum (93-94) is not an error, but a
decision. -/
def httpGet : Prog Bool :=
  must (opening .body none fun h =>
    .use h fun ok =>
      if !ok then .close h fun _ => .ret false
      else .close h fun ok => if !ok then .ret false else must (.ret true))

/-- cmd_layer_gobuild.go:32-81, from `LayerFromGo` on.  `named`: there is an output file; `old`: and it was there before; `n` the
rounds of comparing.  Opening a layer file (fsutil/open.go:53-63) leaves nothing open. -/
def gobuildCmd (named old : Bool) (n : Nat) : Prog Bool :=
  must (
    if named then
      let write := must (opening .output none fun f => deferring f true (writeLayer (some f)))
      if old then must (after (layersEqual n) (.either fun equal => if equal then .ret true else write))
      else write
    else writeLayer none)

/-! installing a wheel; `z` is the open wheel -/

/-- bdist/binary_distribution_format.go:835-849: reading RECORD -/
def readRecord (z : Handle) : Prog Bool := opening .record (some z) fun h => deferring h false (reading h (.ret true))

/-- binary_distribution_format.go:854-886 `checkFile` -/
def checkFile (z : Handle) (_ : Unit) : Prog Bool :=
  must (opening .checked (some z) fun h => deferring h false (must (reading h (.ret true))))

/-- binary_distribution_format.go:813-936 `integrityCheck`; `rows` the rows of RECORD.  A bad row does not end the loop. -/
def integrityCheck (z : Handle) (rows : Nat) : Prog Bool :=
  must (after (readRecord z) (after (all (checkFile z) (List.replicate rows ())) (must (.ret true))))

/-- binary_distribution_format.go:661-700 `parseDistInfoWheel` -/
def parseDistInfoWheel (z : Handle) : Prog Bool :=
  must (opening .wheelInfo (some z) fun h => deferring h false (reading h (.ret true)))

/-- hack.go:28-44 `genRecord` -/
def genRecord (p : Option Handle) : Prog Bool := opening .original p fun h => deferring h false (reading h (.ret true))

/-- binary_distribution_format.go:381-442, one script -/
def rewriteScript (z : Handle) (_ : Unit) : Prog Bool :=
  after (opening .shebang (some z) fun h => deferring h false (reading h (.ret true)))
    (.either fun python => if python then genRecord (some z) else .ret true)

/-- python/py_compile.go:69-119 `writeFile`.  On an error after a successful Close of the output, or an error of Close itself,
the deferred function closes the file once more, unless the variable has been set to nil. -/
def pyWriteFile (p : Option Handle) : Prog Bool :=
  must (opening .pyOut none fun o =>
    .open .pyIn p fun
      | none => .close o fun _ => .ret false
      | some i =>
        .use i fun r => .use o fun w =>
          if !(r && w) then .close i fun _ => .close o fun _ => .ret false
          else .close o fun co =>
            if !co then .close i fun _ => .close o fun _ => .ret false
            else .close i fun ci =>
              if !ci then .close i fun _ => .ret false
              else must (.ret true))

/-- python/py_compile.go:48-188, the compiler `ExternalCompiler` returns; the output is read whole (`fs.ReadFile`),
and the directory made first is removed in any case -/
def compile (srcs : List (Option Handle)) : Prog Bool := must (cleaning (after (each pyWriteFile srcs) (must (must (.ret true)))))

/-- entry_points.go:48-119 `CreateScripts`'s hook; `config` is the file entry_points.txt, if there is one: the archive it is
read from -/
def createScripts (config : Option (Option Handle)) : Prog Bool :=
  must (match config with
    | none => .ret true
    | some p => opening .entryPoints p fun h => reading h (must (.ret true)))

/-- recording_installs.go:30-57 `recordFile` -/
def recordFile (p : Option Handle) : Prog Bool :=
  must (.either fun known =>
    if known then .ret true
    else opening .recorded p fun h => deferring h false (reading h (.ret true)))

/-- recording_installs.go:59-148 `Record`'s hook -/
def record (fs : List (Option Handle)) : Prog Bool := must (after (each recordFile fs) (must (.ret true)))

/-- the archive a file is read from: the wheel (`true`), or none for a file made during the installation -/
def source (z : Handle) (inWheel : Bool) : Option Handle := if inWheel then some z else none

/-- how much there is of everything in an installation: the rows of RECORD, the scripts, the sources to compile; whether there is a
file entry_points.txt; the files recorded and the files of the layer, each with whether it is read from the wheel -/
structure Install where
  rows : Nat
  scripts : Nat
  srcs : Nat
  config : Bool
  recorded : List Bool
  files : List (Bool × Bool)

/-- binary_distribution_format.go:88-186 `InstallWheel` with the hooks of cmd_layer_wheel.go (`CreateScripts`, then `Record`), and 223-364 `installToVFS` -/
def installWheel (w : Install) : Prog Bool :=
  must (opening .wheel none fun z => deferring z false (
    after (integrityCheck z w.rows) (
    after (parseDistInfoWheel z) (
    must (
    after (each (rewriteScript z) (List.replicate w.scripts ())) (
    after (compile (List.replicate w.srcs (some z))) (
    after (createScripts (if w.config then some (some z) else none)) (
    after (record (w.recorded.map (source z))) (
    must (
    layerFromRefs (w.files.map fun f => (f.1, source z f.2))))))))))))

/-- the functions, with how much there is to do -/
inductive Call where
  | layerFromRefs (fs : List Bool)
  | layerFromDir (fs : List Bool)
  | writeLayer
  | layersEqual (n : Nat)
  | load (ls : List Nat)
  | dumpLayer (full : Bool) (n : Nat)
  | writeLayerToFile
  | httpGet
  | gobuildCmd (named old : Bool) (n : Nat)
  | installWheel (w : Install)

/-- the code of each, as modelled above -/
def code : Call → Prog Bool
  | .layerFromRefs fs => layerFromRefs (fs.map fun b => (b, none))
  | .layerFromDir fs => layerFromDir fs
  | .writeLayer => writeLayer none
  | .layersEqual n => layersEqual n
  | .load ls => load ls
  | .dumpLayer full n => dumpLayer full n
  | .writeLayerToFile => writeLayerToFile
  | .httpGet => httpGet
  | .gobuildCmd named old n => gobuildCmd named old n
  | .installWheel w => installWheel w

end Handles
