# Design of the formal model of datawire/ocibuild

The model is written in Lean 4 (4.33.0) under `lean/Verif/`.  It was transcribed by reading the Go source in
`/repo`; the Go code was neither built nor run.

Layout: `Verif/Go/` holds what the code uses of Go's standard library (machine integers, strings, `path`, `sort`, maps,
regular expressions); every other directory holds one part of the program.  Model files carry file and line citations.
Files called `Spec`, `…Spec` and definitions in a namespace `Spec` are the independent specifications.  Files called
`Props…` hold the property theorems `CNN_…`, each with an example that meets its hypotheses.  The others hold lemmas.

## Trusted base

* Lean's kernel, and the axioms `propext`, `Classical.choice`, `Quot.sound`; see "Axioms".
* The transcription: that the Lean definitions say what the cited Go lines do.
* The Go semantics and the libraries as listed next.

### Go

* `int` is 64 bit two's complement, `int32` wraps.  In the Cli and Bdist parts lengths are unbounded.
* Strings are lists of Unicode code points (valid UTF-8; comparing bytes is comparing code points).  The wrapping code
  (C80, C85) works on bytes, as in Go.
* `for … range` over a map visits the entries in any order; entries deleted before their turn are not visited; entries
  added on the way may or may not be visited (`Go.RangeRun`).  Where the map is not changed, any permutation.
* `sort.Slice`: any function that returns a sorted permutation; it need not be stable (`Go.SortSlice`; there is one,
  `sortSlice_exists`).
* A panic is the outer `none`, or the constructor `panic`; an error is a value without text.
* `sync.Once` is modelled step by step (C81, C123).

### Libraries

* `path.Clean`, `Join`, `Dir`, `Base`, `Split`, and `filepath.Rel` of rooted paths: on path elements.
* `regexp`: a list of successes in order of preference (`Go.Re`); `Go/RegexpLang.lean` proves it sound and complete for
  the language of the expression.
* `strconv.Atoi`, `ParseInt`, `Itoa`; `strings.ToLower` (ASCII), `Split`, `Index`, `LastIndexAny`, `TrimPrefix`;
  `url.ParseQuery`; `bufio.ReadString`; `io.ReadFull`: by definitions after their documentation.
* `intstr.Parse` of k8s.io/apimachinery v0.20.6: `Atoi`, then truncation to `int32`.  From memory of that release; its
  source is not in /repo.
* `archive/tar`: entries; the writer rounds times to the second and may refuse a header (a parameter).  For C136 its blocks: one header
  block per entry, the padding, the two blocks at the end, and what the reader says where these are cut short.
* `archive/zip`: entries, with the mode computed from creator and attributes as the library does.
* `crypto/*`: any function from bytes to texts; for C126 from bytes to bytes, with `encoding/base64` and `encoding/hex` modelled (`Go/Encode.lean`).  `net/textproto`: any function.
* `encoding/csv`: any function in C41, C51, C90, C91; modelled, reader and writer, in `Go/Csv.lean` for C118, after its source in Go 1.17 from memory.
* `encoding/json`: a document is a tree whose leaves carry their JSON text; `Decoder.Token` walks it in order.
* `text/template`: the one template used, written out.  `html.Parse`: any tree.  `net/http`: any response.
* `url.Parse`, `ResolveReference`, and replacing the path of a URL, for the client (`Repo.Net`): any functions.  The request is the
  one URL; headers are not modelled.  base64: any function.
* `os.MkdirTemp`, `MkdirAll`, `Create`, `RemoveAll`, `exec.Cmd.Run`, `fs.WalkDir` for the compiler: functions on a map from
  paths to nodes; the directory that `MkdirTemp` makes is new.
* `filepath.Walk`, `os.Lstat`, `os.SameFile`: a tree of files with identities.
* go-containerregistry: `mutate.Config` replaces the config; layers are lists of entries.
* github.com/spf13/cobra v1.2.1 and github.com/spf13/pflag v1.0.5 (command lines, C111 and C112): finding the command, parsing flags,
  storing values; from memory of these releases.  `strconv.ParseInt(s, 0, 64)` for integer flags: any function.
* For C103: `tarball.LayerFromOpener` and `tarball.Image` open the file one or more times (any number) and judge its bytes by any
  function; `mutate.AppendLayers` and `mutate.Config` are lazy, and their `ConfigFile` returns nil and the error when a layer of the
  base cannot be read (as go-containerregistry v0.6.0 does, from memory).
* gopkg.in/yaml.v2 v2.4.0, sigs.k8s.io/yaml v1.2.0 and encoding/json for structs (C130): which key goes to which field, and which values fit; from memory.  The
  text of YAML is not modelled: writer and parser are parameters.
* `math/rand` (C120): `Intn(n)` gives any number from 0 to n-1, and panics if n is not positive.
* `os/exec`: of two entries for a variable in the environment the last one counts (C101).
* `go build`, `docker load`, `docker image rm`: any functions on the state of the machine; see C101, C102 for what is assumed.
* pflag: values as documented; a flag that was not given is `none`.

## Not modelled

Compression; the byte formats of tar and zip; registries; `docker` and `go build` themselves; the command `python -m
compileall` (a function on file systems, with its assumptions in the theorems); symbolic links and permissions in the
temporary directory of the compiler; `NativeFS` (it calls the operating system); the engine of `text/template` and cobra's use line, padding and flag columns (inputs of C144); the documentation commands of main_aux.go and cobra's completion; the text of YAML; texts of errors; logging (except the warning of C149); concurrency other than in C81, C121 and C123.

## Per property: what is modelled and how it is proved

The status is in MANIFEST.json.  "Violated" means that the negation is proved with a concrete input
(`CNN_violated…`), next to a `_partial` theorem for what is true.

### PEP 440 versions (`Verif/Pep440`)
* C01 order laws: comparison with 64 and 32 bit subtraction.  Violated at the edge of the machine range
  (`1+2147483648`, post number 2^63-1); proved for all other parsed versions.
* C02 an independent key as in `packaging`, compared lexicographically; same sign for all well-formed versions.
* C03 follows from the key.
* C04, C05, C07 round trips: the first success of the matcher on a printed version is that version.  C04 is violated for
  local numbers that wrap, and `C04_exact` (`Verif/Pep440/PropsExact.lean`) says that it fails for no others: a negative number puts a
  `-` behind a `+` or `.`, which the language of the regular expression never has.
* C06 from C05, exactly by the same argument (`C06_exact`); violated for the same local numbers, and the order part also for values with capital letters in the local label.
* C08 the matcher commutes with changing case; white space is tab, LF, FF, CR and space.
* C106 exact grammar: `Verif/Pep440/Grammar.lean` says, piece by piece, which texts mean which version; the theorem is an equivalence with
  `ParseVersion`.  Completeness: the matcher's first success computed on a text given by its pieces (`GrammarMatch`, `GrammarParse`);
  separators and `-N` are first given to the earliest piece that can take them (`GrammarNormal`).  Soundness: every text in the language of
  the regular expression is made of pieces, and then completeness gives the value.  Violated for local numbers from 2^31 on (they wrap) and
  for the two letters outside ASCII that `(?i)` folds into `[a-z]`.  `Verif/Pep440/PropsWide.lean` follows the local numbers through the
  conversion (`Spec.Kept`), so that the only difference from the grammar is in them.
* C107 exact grammar of specifiers (`C107_wide_partial` in `PropsSpecWide.lean` has no proviso on the size of numbers in local labels): `Verif/Pep440/GrammarSpecifier.lean` builds on the relations of C106.  The theorem is an equivalence, by
  induction over the commas; one clause is C106 plus the operator switch.  Violations: `<10`, `==1 .*`.
* C120 random versions (`Generate.lean`): the random source is a list of numbers; induction over the loops shows that all draws succeed and
  stay in range, and gives, for a version, the numbers for which it is drawn.
* C122 queries: by the order's specification (C02), case by case over the markers; Major, Minor and Micro are the first three comparisons.

### Specifiers (`Verif/Pep440`)
* C09 to C13, C22, C23: decision functions over the comparison, specified through the key.
* C14, C15 violated (the exclusions of PEP 440 are not implemented); what the code decides is proved, and for which versions that is wrong
  (`PropsExclusive.lean`, by computing the key).
* C16, C17, C18: clause parser.  Violated for `<` and `>`, of which two bytes are cut off; a lone `<` panics.  Exact
  boundary in `PropsOperators.lean` and `PropsPrint.lean`: a text without its first character says the same version only
  if that character is a blank, `v` or a leading zero, since otherwise its first number is smaller or missing; hence `<`,
  `>` and `.*` never survive printing, and for one clause the set of versions matched differs.
* C19, C21: fold over the choices.  C20 violated (the test is inverted); exact behaviour proved.

### PEP 345 and 425 (`Verif/Pep345`, `Verif/Pep425`)
* C24 to C26, C27 to C30: list inductions over direct models.
* C117 exact grammar of `Requires-Python` (`Verif/Pep345/PropsGrammar.lean`; `PropsGrammarWide.lean` without the proviso on the size of numbers): relations on top of C106's; equivalence by induction over the
  commas.  Violated where C106 is.

### Wheel names (`Verif/Bdist/Filename…`)
* C31 round trip (violated where C04 is), C32 order of build tags, C83 the accepted names as a grammar.

### The simple repository (`Verif/Repo`)
* C33 violated for versions that only compare equal; C34, C35 violated, with the exact behaviour.
* C115 violated: of two versions that compare equal the first listed is taken.  Otherwise by composition: C34's exact behaviour, C33 and
  C35 speak about the set of files only, and single out version, preference and build tag.
* C145 (`Verif/Pep440/GoString.lean`, specification `GoStringSpec.lean`, proofs `PropsGoString.lean`): `%#v` and `strconv.Quote` modelled for
  the types concerned.  C145_reads builds the derivation of the specification from the text; C145_unique: each kind of text can be told
  from what follows it (`Unique`), by induction over string literals and slices.
* C137 (what is not selected does not matter): for `Select` by C19 and C20, for `SelectWheel` by C33, C34 and C35 as for C115.  Violated for
  `SelectWheel`: removing a yanked file makes its version available; versions that compare equal.  `C137_publish_partial` is the consequence for
  an index that grows.
* C36, C37 normalised names.  C38 violated: one part of the fragment that does not decode turns all checks off.
* C39, C40 decision logic.  C84 the walk over the HTML tree, by induction on the tree.
* C95 the command `python getwheel` (`Client.lean`): every step returns the URLs it requested with its result; an iff with a
  specification of the page, the link and the file.  Violated where C38 is.
* C96 violated for every server: the file itself is returned as its signature.

### Installing wheels (`Verif/Bdist`)
`InstallRun` is a relation: it holds for every outcome that some order of the loops over maps can have.
* C41 the integrity check as an iff; C50 the `.dist-info` directory as an iff.
* C42 violated twice: of two entries with one name the first is checked and the last installed; an entry marked as a
  directory without a final slash is installed unchecked.  Proved for all other archives.
* C43 violated: names with `..` are installed outside the scheme.  Proved for names that do not lead upwards.
* C44 violated with purelib = platlib.  Proved when no two files go to the same place, by an invariant of the loop
  whose final map is the same for all orders.
* C45 the exact map after installation, under the condition in the property.
* C46 an invariant of the loop that adds parents while it visits them.  Violated by a scheme directory `//l`, which is
  accepted and makes the call run for ever.
* C47 the rewritten script and the skipping reader, for all ways the input arrives in pieces.
* C48, C49 times and modes.
* C87 violated (panic for nested data directories, and C46); C88 the refused versions.

### Hooks (`Verif/Bdist/Hooks.lean`)
* C51 the rows of RECORD, for all orders and sorting functions.  A script whose interpreter was rewritten is recorded
  with the hash and size it had before (`C51_rewritten_scripts`); the property names this exception, since the code
  does it on purpose.
* C52 the parsed entry points, by the grammar of C75 and a grammar for function references.  Violated three times: a
  dotted attribute gives a script that is not Python; a name in both sections gets an interpreter that depends on the
  order; a name with `..` leaves the scripts directory.
* C118 RFC 4180 is a relation between texts and rows (`Go/CsvSpec.lean`), apart from the model of `encoding/csv` (`Go/Csv.lean`: the
  reader's line by line loop, the writer's quoting with `UseCRLF`).  By induction on the text: the reader returns the rows that the
  text stands for, with CRLF in fields read as LF; the writer's text stands for rows with LF as CRLF and no CR.  Composed with C91 (the
  RECORD that the command writes) and C41 (the check).  Violated for names with CR or LF.  `C118_exact` is an equivalence: the texts that
  are read are those made of empty lines and records once line ends are uniform; both directions by induction over the reader's loops.
* C126 from C41 (an equivalence) and C38, with the texts of checksums modelled and proved injective; base64 is related bit by bit to RFC
  4648 (`Spec.Base64`).  The hash functions are any functions, so that the conclusion is 'the same bytes or a collision'.
* C90, C91 the command `layer wheel` as a whole (`Command.lean`): `InstallRun` with the hooks that the command gives it.
  C44, C51 and C52 put together.  Violated for wheels with a script in both sections (C90) and with a script in the
  place of RECORD (C91); proved for the wheels without such clashes (`Spec.Ordinary`).
* C92 which files the compiler gets; C93 hooks in sequence, the REQUESTED and direct_url.json files.
* The theorems about installing take the byte code compiler as a parameter and say what is assumed of it, only for what
  the installer hands to it: sources with different names ending in `.py` (`Spec.Sources`), in the scheme's directories.
* C94 the compiler that the commands use (`ExtCompile.lean`): a file system, a command that changes it, and a walk.  What
  the command sees and what is collected, as an iff; the file system afterwards; independence of the order.  `C94_bytes`
  shows that it is a compiler as C90 and C91 assume, if the command puts regular files next to the sources or into
  `__pycache__` there.  Violated for names with `..` (files are left behind on the host) and for directories called
  `….py` (handed over as files).
* C89 the members of direct_url.json, and that JSON texts can be read in one way only.

### Layers (`Verif/Fsutil`)
* C53, C54, C61 sorted permutations and invariants of the walk.
* C55 violated: the tar writer rounds, up to half a second past the bound.
* C56 violated: a reader that fails with `io.ErrUnexpectedEOF` is taken to have ended.
* C57, C58 violated: ChangeTime is compared.
* C59 the prefix directories; an absolute prefix makes the call run for ever, and only that (`C59_ends_iff`). `C59_spelling` is about
  prefixes that are not clean; with `..` the directories need not lead to the files (example in `PropsPrefix.lean`).
* C60 violated: the owner is changed after the header was written.
* C132 handles (`Handles.lean`, `HandlesLemmas.lean`, `PropsHandles.lean`): each function as a program that opens, reads and closes
  handles, with the outcome of every call and of every decision on data left open, so that the runs include all executions; runs are
  traces of events, and the property is stated on traces.  Proved by a weakest-precondition calculus (`Wp`, sound by induction on
  runs) and a compositional notion `Keeps`.  **The code violates it**: entry_points.txt is not closed.  Not modelled: panics, handles
  inside libraries (`os.ReadFile`, `tarball.LayerFromOpener`), the pipe of pkg/dockerutil.
* C141 no failure is lost (`FaultsLemmas.lean`, `PropsFaults.lean`): on the programs of C132, whose runs also list what failed.  A
  condition `Hon` on programs, computed along them with "nothing that counts has failed" as its state, implies the claim for all runs
  (`hon_sound`, by induction on the run); each function satisfies it by rules for the idioms of the code (`honest_after`,
  `honest_deferring`, ...).  The specification says which closings may fail unnoticed; that the set cannot be empty is shown by the
  example in which closing a loaded layer fails and no error is returned.  **The code violates it** in the comparison of layers, which
  takes a content that breaks off for one that ends there.
* C136 interrupted runs (`Crash.lean`, `CrashSpec.lean`, `CrashLemmas.lean`, `PropsCrash.lean`): the output file as bytes, the archive in
  blocks of 512 bytes as archive/tar writes and reads it, a run with all the states of the file in which it can stop, and histories of runs.
  `readTar_cut` says what every prefix of an archive reads as (induction over the entries); the comparison of C57 is then followed along
  both archives.  **The code violates it**: a file that ends within a header makes every later run fail, and one that lacks only the end of
  the archive is never completed.  Not modelled: extended headers, writes that reach the disk out of order, compressed layers.

### Squashing (`Verif/Squash`)
The tree of nodes is a map from paths, with fuel for following symlinks (`Fuel.lean`: more fuel changes no result).  The
specification (`ViewSpec.lean`) says what is visible at each path after applying layers one after another.
* C62 violated three times: a directory that is removed and made again; an opaque marker that goes through a symlink of
  the base; a file replaced by a directory without a header of its own.  Proved over every base for the stacks that have
  none of these, in which no entry lies below the path of a symlink entry, and whose markers are well formed.
* C63 names outside the root; C66 what is visible; C70 reading.
* C64, C65 violated for a symlink to `/`; determinism proved for all layers.
* C67 violated by a marker below a symlink that the marker's own layer replaces by a directory (markers are processed first, so it goes through the symlink). Proved for stacks in which no entry lies below the path of a symlink entry.
* C98 violated by a symlink with `..` behind a name that is itself a symlink (targets are cleaned by their text) and by a symlink to `/`.
* C99 violated by an entry below a symlink to `/`: it is put into a directory with the empty name below the root.
* C114 violated likewise: a whiteout below a symlink to `/` does not remove the file.
* C100 violated by a directory in the image's `PATH` with `..` behind a symlink (`/lnk/../bin`): the path is cleaned by its text, so the program is not found; and by absolute paths like `/usr//bin/python3`, which `io/fs` rejects.
* C68 violated by the symlink `a -> a/b`.
* C69 violated: markers can get lost.  Proved up to redundant markers.
* C108 violated: hard links are squashed as opaque entries, in sorted order.  `HardSpec.lean` gives extraction with hard links; the lemma
  `extract_look` says that extracting is applying the entries opaquely and then reading through the links, if targets stay; with C62 and the
  order of the output (C64) this gives the theorem.
* C109 violated: a hard link reads as an empty file.  For the others, C66 with C70 and `extract_look`.
* C71 violated: a failing ReadDir leaves a part of its listing behind.
* C121 shared handles (`Squash/Share.lean`): goroutines as program counters, one access to `pos`, `closed`, `dirents` per step, a mutex
  with an owner.  Invariant over all executions: the accesses still to come of the holder of the mutex complete one sequential call, and
  the completed calls are a sequential execution that fits what was seen at all times; so the traces are linearizable.  The rest follows by
  induction over sequential executions; deadlock freedom by induction over the code still to run.
* C124 results that share memory (`Squash/Alias.lean`): the array behind `f.dirents` with Go's semantics of slicing, assigning and `append`;
  violated (`C124_violated`: `ents, _ := f.ReadDir(1); _ = append(ents, x); f.ReadDir(1)` delivers `x`), because the slices returned keep the
  capacity of the listing.  Partial: callers that assign, or that append without touching what is still to come.
* C125 walking (`Squash/WalkDir.lean`): `fs.WalkDir`, `fs.Stat` and `fs.ReadDir` of the standard library on top of `Open`, `Stat` and `ReadDir`.
  Violated for trees whose root has no entry (`Stat` fails with `ErrMissing`) and by symlinks that cannot be followed (`ReadDir` fails as a
  whole).  Otherwise by induction over the depth that is left, each directory's listing being the good one of C71.

* C127 layers that may fail (`Stream.lean`): an entry carries the result of reading it, and a layer says whether it opens, ends, can be read
  behind its end, and closes.  Equivalences by induction over entries and layers, reducing to the model without errors.  Violated for
  errors behind the end of the archive and of `Close`.

* C128 names and formats (`Go/Tar.lean`, `PropsTarNames.lean`): which names archive/tar's writer can put into a USTAR header
  (`splitUSTARPath`, proved equivalent to the rule of POSIX), on top of the writer of C127.  The format of a header is some function of
  the fields that the package only copies.  Violated: `Squash` keeps the format but changes the name (a slash for directories, the real
  path for entries below symlinks), which may then not fit.  Partial for tame layers with room in their headers: cleaning never makes a
  name need more room (induction over the elements, with the total length as measure), and every header written comes from an entry.
* C129 goroutines that share a file system (`Lazy.lean`, `LazyLemmas.lean`, `PropsLazy.lean`): the variables `children` as nil or a map,
  and `Open` and the listing of `ReadDir` as programs of single reads and writes of them, interleaved in any way.  Invariant: a variable
  is nil only if there are no children, and every program under way ends with the sequential result whatever fitting values it reads.
  **The code violates it**: `Get` makes the missing map also for a mere lookup, so two lookups in an empty directory are a data race
  (`C129_violated`).  Proved: results in all interleavings (`C129_same_partial`), no races without empty directories
  (`C129_race_free_partial`), and exactly then (`C129_iff_partial`): `LazyMaps.lean` follows the maps through `Load` and shows that those
  with a map are the directories with something in them (`C129_maps`), since `Set` deletes only siblings of what it has just put there.

* C133 squashing in steps (`PropsSteps.lean`).  `C133_load_partial`: by C62 the view below the upper layers is the same at every path,
  and the effect of the upper layers at a path depends on the view at that path only.  `C133_squash_partial`: equal trees at the paths
  without markers give equal entries, by the canonical order.  `C133_lower_partial`: the squashed layer with the upper layers on
  top is tame again (`steps_tame`), so C62 applies three times.
* C138 (order and repetition of layers): by C66 the loaded files are those of the view, and an entry does one of four things to what is at a path
  (`acts`: make it a directory, replace, remove, leave).  These commute pairwise if the layers get along; the effect of a whole layer on a path
  is again a constant, a directory, or nothing (`folds`), hence idempotent.
* C135 global headers (`PropsGlobal.lean`): the view at a path depends only on the entries for paths above or below it, so leaving out
  the global headers changes nothing elsewhere.  That tar.Reader returns them as headers with a name and type 'g' and no content is
  from archive/tar's documentation.
* C131 where entries come from (`PropsSource.lean`): an invariant of the file system, for arbitrary layers, kept by lookups (which
  change it in two ways only: an empty node, and clearing a file to make a directory), by `Set` and by loading.

### Python helpers (`Verif/Python`)
* C139 (attribute constants): the constants are modelled by their index in the declaration, as `iota` counts it; Python's values are in
  `Spec.pyAttrs`.  Violated for all constants above the low byte (`C139_violated`): `iota` is not 0 where the second group begins.
* C72, C73, C74 bit vectors: case analysis, and tables decided in the kernel.  `C72_bits` gives every bit of the result of `ToGo` by its
  position.
* C75 the config parser against a grammar, for strict parsers without inline comments and with delimiters of one
  character (`Spec.Usual`), as all parsers in the repository are.
* C76 violated for arrays with an array or object behind the first element; the only exceptions (an iff).
* C77, C78 looking up executables in an image; what is stored at a path is a parameter.
* C82 violated: the serial number is ignored.  C86 Platform.Init as an iff.
* C97 the command `python inspect`: an iff; the first existing directory and the first matching interpreter by list induction.
* C134 sharing a compiler (`CmdAlias.lean`, `PropsCmdAlias.lean`): the array behind the caller's slice as a list of cells, runs as
  threads whose steps are single reads and writes of cells, a schedule as a list of thread numbers.  `C134_private_partial` by induction on the
  schedule; with room by the invariant `Mine` (what the busy run has written is in the array); progress by a rank.
* C130 violated: a platform file without a compiler command crashes. A field's decoder is an error or a function on the struct, so that success does not depend on the state; `Slot` says that a field is set by its own key only (checked for all 21 fields of the three structs), from which the value of each field follows by induction over the keys in any order. `Spec.IsPlatform` describes the accepted documents key by key; the round trip is a corollary. The panic is characterised exactly.
* C98 path resolution as an inductive relation over the loaded nodes (`Spec.Leads`), independent of the code's functions; the code is related to it by a sized relation `R` (Follow.lean): induction on the recursion depth in one direction, strong induction on the number of steps in the other, where determinism of `R` shows that the visited-stack never stops a resolution that ends.
* C68 exactly: `Spec.Fails` is path resolution that ends without a file (missing element, non-directory, circle of symlinks that name each other). Ends.lean relates it to a sized relation `F` beside the `R` of C98 and shows both that the code reports an error for whatever is in `F` (strong induction on the size, the symlink loop bounded by the links not yet on its stack) and that every error of the code has such a cause (induction on the fuel).
* C99 the specification `Spec.LoadsTo` applies each entry (`applyAt`, as in the whole-image view of C67) at the place its path leads to by `Spec.Heads` (as `Spec.Leads`, but missing directories count as made); Through.lean shows that the code's creating walk ends at that place (sized relation of C98, with the create flag), Dangling.lean the same for symlinks to nothing (a second sized relation; the walk through such a symlink equals the walk along its target with the directories made on the way), PropsThrough.lean carries the agreement of the loaded state with the view through all entries of all layers (invariant `Kept`).
* C114 `Shape` (Shape.lean) is the form of the loaded tree wherever the entries were put (no markers inside paths, directories without a header are not empty, ...), kept by every entry (`shape_step`); the tree with all header names corrected (`norm`) writes the same layer and satisfies what C62 needs of a tree (`WFS`), so that the lemma on the effect of a written layer (`out_act`) applies; C99 gives what the tree holds.
* C100 ImageFs.lean models pyinspect's image file system on top of the model of `Load` and `Open`; a place counts as runnable by `Spec.CanRun`, which is path resolution (`Spec.Leads` of C98) to a header with the right type and mode bits. The theorems compose C98 (an iff, and determinism in the fuel) with the search over the directories of `PATH`.
* C123 ImageOnce.lean has the function given to `initOnce.Do` as code of single writes and questions; the image may answer anything each time. The invariant holds a weakest precondition (`Safe`) for the code that the goroutine in the critical section has still to run, so that only the sequential code is unfolded; no deadlock by running the holder to the end and then the others one by one.

### Layers on images (`Verif/Image`)
* C104 violated: a file named like a whiteout marker goes into the layer of a directory as it is and removes a file of the image
  below.  The specification `Spec.Added` compares the image with and without the layer path by path.  Added.lean proves it for the
  layer views of C66 (induction over the entries in the order in which they take effect); Props.lean shows that the entries made by
  LayerFromFileReferences and LayerFromDir describe a tree and carries the headers and contents over.

* C110 like C104, in terms of extraction with hard links (C108): C61 says which entries are hard links and to what, `tree_extract` what
  extracting a layer does that describes a tree.
* C104, C105 on images with symlinks (`Image/Complete.lean`, `PropsComplete.lean`): in the layers of InstallWheel (by C54 and C46) and of
  LayerFromDir (prefix first, then the walk) an entry comes after those of the directories above it; such a layer, by induction along it,
  takes effect at its own names whatever symlinks the image has, because its directories replace them first (`complete_loads`); then
  C99's refinement gives the loaded file system.
* C119 violated by that very replacement: a symlink of the image in the place of one of the layer's directories is lost with all that was reached
  through it.  Partial (`Image/PropsReach.lean`): path resolution (`Spec.Leads`, C98) is monotone where the layer replaces only files by files
  and directories by directories; induction along the resolution; C98 turns this into `Open`.
* C140 (several layers or wheels in one image, `Verif/Image/PropsWheels.lean`): `Chain` is one `Spec.Added` after the other; by induction, what is
  apart from all later layers stays, directories stay directories, and nothing comes to be below files.  `chain_loads` gets the chain from
  C104 on images with symlinks; the wheels' layers are such layers by `command_names` and `command_shape`, and RECORD by C91.
* C142 (such layers squashed first, `Verif/Image/Squashed.lean`, `PropsSquashed.lean`): `TreeStack` says what the layers of C140 are together;
  they are tame in the sense of C62, and the squashed layer is again a tree with entries for all directories, each before what is below it, with
  the same symlinks.  So it goes straight on any image (`complete_loads`), and C62 says it acts on every view as the layers do.  Layers above act
  on equal views equally.
* C105 violated by a wheel with a file named like a whiteout marker.  Composition of C104 with C91 (RECORD of the command's layer) and
  the names of the layer's entries.

### Commands (`Verif/Cli`)
* C79 the config of an image; C80, C85 wrapping, for indents that are not negative (`strings.Repeat` panics on others).
* C144 (`Verif/Cli/Help.lean`, `PropsHelp.lean`, `PropsHelpWidth.lean`): the template is modelled as what `text/template` makes of it,
  a list of parts; what cobra computes (use line, padding, which commands are available) is input, and so are the left columns of
  the flags, while pflag's layout of flags is modelled.  Each part begins with white space, so the words of the help are those of the
  parts (C80 for the wrapped ones); C144_fits likewise, from C85.  Subtraction in `wrap` is on 64 bits.
* C81 one time per run, for all interleavings.
* C146 copies of a directory (`Verif/Gobuild/PropsCopy.lean`): the entries agree but for times as in C101_rebuild (the log of earlier files finds
  the same name whatever the inode numbers), the times by C55; an iff.
  `C146_both` carries the characterisation of success of C147 from one copy to the other.
* C147 when a layer can be made (`Verif/Fsutil/PropsComplete.lean`): `walkEntries` succeeds iff each step does, by induction with the log of
  earlier files in view; each step is compared with the specification `Spec.Packable`, which looks for an earlier name of the same file.
* C148 sound wheels are installed (`Verif/Bdist/PropsSound.lean`): an invariant through all steps of `InstallWheel` (each file is a readable
  regular file or directory of the size in its header, and no name has a NUL), which excludes each error of the model in turn; the layer at
  the end exists by C147.  `C148_command` adds that the two hooks of the command keep the invariant.  `SoundWheel` is stated with the
  specifications of C41 and C50, not with the functions of the model.  `C148_compiler` (`Verif/Bdist/PropsSoundExt.lean`) reduces the condition on
  the compiler to one on the command that `ExternalCompiler` runs, by C94; what the command does stays a parameter.
* C149 warnings about newer repositories (`Verif/Repo/Warn.lean`, `PropsWarn.lean`): decision logic over the page's version; violated: only the
  minor numbers are compared, so that a page of version 0.9 is called newer than 1.0.
* C150 empty lines as separators of options (`Verif/Python/ConfigSplitSpec.lean`, `PropsConfigSplit.lean`): a second grammar, in which values end
  at empty lines; the run is simulated by that of the parser of C75 on the lines that say something, and the two grammars are compared by
  induction.  Violated for indented lines after empty ones.
* C151 inline comments (`Verif/Python/ConfigInlineSpec.lean`, `PropsConfigInline.lean`): each line is treated as the stripped one is by the parser
  without inline comments, by computing the smallest index over all prefixes; then induction on the lines.  Violated for prefixes without white
  space before them, and for prefixes at the start of a line.
* C152 interpolation (`Verif/Python/Interpolate.lean`, `InterpolateSpec.lean`, `PropsInterpolate.lean`, and `PropsInterpolateMerge.lean` for parsers that are not strict): the loops over the maps for an arbitrary
  order and an arbitrary function that does not change the configuration it gets; induction on the order with the invariant that the values
  visited are replaced and the others are not.  Violated for functions that look at other options.
* C153 repeated sections and options without Strict (`Verif/Python/ConfigMergeSpec.lean`, `PropsConfigMerge.lean`): refinement of the grammar of C75,
  by induction on the lines with a value open or not; then lookups in the maps that result, by induction on the document.
* C101 violated: the files of the layer get the owner of the files, as in C60.  What `go build` puts into the directory, `os.RemoveAll`
  and `filepath.Walk` are parameters with hypotheses (`Spec.Removes`, `Spec.Walks`); the model (`Verif/Gobuild`) joins the argument
  list, the environment, the temporary directory and the model of LayerFromDir; proof by composition with its theorems (C60).
* C102 violated: the image is removed with the context of the call, so it stays if that is cancelled.  The Docker daemon is a
  parameter with hypotheses on `load` and `rm` (`Spec.Loads`, `Spec.Rms`); proof by cases on each step; tags by injectivity of the
  decimal notation.
* C103 violated: `image build` ignores the error of `ConfigFile` and follows a nil pointer if the base archive is incomplete.
  Openers as functions of the state of the files, pipes being emptied by reading; induction on the arguments with the invariant
  that files not yet opened are unchanged; exact conditions for success and panic; composition with C62 and C79.
* C111 violated: a missing `--platform-file` exits with 1, not 2 (cobra returns that error, it does not pass `FlagErrorFunc`), and
  pflag ignores `-test.x`, so that the tag `est.x` is lost.  The command tree, flags and operand counts are data; finding the
  command and parsing follow cobra v1.2.1 and pflag v1.0.5, whose sources are not here, so this rests on their documented behaviour.
  The grammar of command lines is an inductive relation (`Spec.Line`); soundness and completeness of the parser by induction.
* C112 values of flags as folds over the uses; composition of C111 with C79, and explicit command lines for every value, of all
  commands; which spellings of true and false are taken (`C112_switch`).  `C111_first`: flags with `=` may precede the words.
* C113 `io.Copy` as a loop over reads and writes; induction on the reads; composition with C111.

### Test support (`Verif/Testutil`)
* C116 violated by `QuickCheck`, which calls the function with other arguments than those of the case.  The loops over the static cases of
  pkg/testutil/quick.go; the functions under test are arbitrary (also partial: they may panic); `quick.Check` itself is a parameter.
  Induction on the cases.
* C143 (`Verif/Testutil/Diff.lean`, `PropsDiff.lean`): the dump of what a reading delivers determines it, by induction on the entries, if
  go-spew's texts can be told apart (hypothesis); the loops of `DumpLayerFull` and `DumpLayerListing` return a dump exactly if nothing
  failed.  The difference of the listings only decides whether the full dumps are compared too, and equal layers have equal listings.

## Axioms

From `#print axioms` for each theorem in MANIFEST.json.  All others in it use `propext`, `Classical.choice` and
`Quot.sound`.

* none: `C55_violated`, `C58_unreadable`, `C79_no_flags`, `C93_none`, `C93_single`, `C93_sequence`,
  `C103_opener_missing`.
* `propext`: `C79_config`, `C79_command_line`, `C81_same`, `C81_progress`, `C85_long_word`, `C116_violated_panic`,
  `C132_witness`, `C136_history`, `C141_violated`.
* `propext`, `Quot.sound`: `C27_decompress`, `C28_intersect`, `C30_round_trip`, `C46_rooted_name_hangs`, `C47_stream`,
  `C47_stream_ends`, `C47_short`, `C47_resumes`, `C48_no_times`, `C49_modes`, `C49_names`, `C49_rename`, `C52_place`,
  `C55_written_rounded`, `C59_ends`, `C59_absolute_never_ends`, `C59_ends_iff`, `C60_chown_ignored`, `C70_missing`,
  `C72_kind`, `C72_bits`, `C73_parse_raw`, `C73_raw_parse`, `C80_words`, `C80_no_wrapping`, `C81_exact`, `C81_epoch`,
  `C81_clock`, `C86_init`, `C103_opener`, `C103_build`, `C103_panics_iff`, `C103_no_panic_partial`, `C116_equal`,
  `C116_check_partial`, `C116_violated_missed`, `C118_read`, `C118_exact`, `C120_operators`, `C143_errors`,
  `C144_width`.

## Tests against wrong programs

`seeded/LOG.jsonl` has one line for each wrong edit of the model that was tried in a scratch copy.
