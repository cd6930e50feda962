{"id": "C01", "title": "Version comparison is a total preorder on everything ParseVersion returns", "statement": "For versions a, b, c returned by pep440.ParseVersion: a.Cmp(a) = 0; the sign of a.Cmp(b) is the opposite of the sign of b.Cmp(a); a.Cmp(b) <= 0 and b.Cmp(c) <= 0 imply a.Cmp(c) <= 0. Hence sorting and taking a maximum are meaningful.", "quantifier": "all triples of versions that ParseVersion can return, with any number of release and local segments", "why_tests_cant": "transitivity ranges over unboundedly many triples of unbounded-length versions; Cmp is implemented by machine-integer subtraction, whose overflow corner a random generator with small numbers never hits", "anchors": ["pkg/python/pep440/01_version_scheme.go: LocalVersion.Cmp, PublicVersion.Cmp, cmpLocalSegment, cmpRelease, cmpPreRelease", "pkg/python/pep440/03_tail.go: parseVersion"]}
{"id": "C02", "title": "Version comparison is the PEP 440 order", "statement": "The sign of a.Cmp(b) is the one PEP 440 prescribes: compare epochs; then zero-padded release tuples; then the suffix class in the order .devN < aN < bN < rcN < none < .postN (a .devN of a pre- or post-release sorting just before that release); then the local label segment by segment, numeric segments above alphanumeric ones, a proper prefix below its extensions.", "quantifier": "all pairs of well-formed versions (non-negative components, pre-release letter one of the accepted spellings, numeric local segments that fit the representation)", "why_tests_cant": "the order is defined over an infinite set of version shapes; a finite table of pairs cannot show that no shape is misplaced", "anchors": ["pkg/python/pep440/01_version_scheme.go: PublicVersion.Cmp, cmpEpoch, cmpRelease, cmpPreRelease, cmpPostRelease, cmpDevRelease, cmpLocal"]}
{"id": "C03", "title": "Trailing zero release components and spelling variants of pre-release letters do not matter", "statement": "Appending any number of 0 components to the release, or replacing a pre-release letter by an equivalent spelling (alpha/a, beta/b, c/pre/preview/rc), gives a version that compares equal to the original and compares the same way against every other version.", "quantifier": "all well-formed versions, any number of appended zeros, every spelling, every version compared against", "why_tests_cant": "ranges over unboundedly many release lengths and comparison partners", "anchors": ["pkg/python/pep440/01_version_scheme.go: releaseSegment, cmpRelease, preReleaseOrder, cmpPreRelease"]}
{"id": "C04", "title": "Parsing the printed form of a parsed version gives the same version back", "statement": "If ParseVersion(s) returns v then ParseVersion(v.String()) succeeds and returns exactly v (field by field), so version strings can be used as map keys and written to file names.", "quantifier": "all strings s that ParseVersion accepts", "why_tests_cant": "infinitely many input strings and spellings; the parser is a backtracking regular expression whose preferred match must be shown to be the intended one for every printed form", "anchors": ["pkg/python/pep440/01_version_scheme.go: PublicVersion.writeTo, LocalVersion.String, ParseVersion", "pkg/python/pep440/03_tail.go: reVersion, parseVersion"]}
{"id": "C05", "title": "Every version value in PEP 440 canonical form is accepted and read back", "statement": "For every version value with a non-empty release of non-negative components below 2^63, pre-release letter a, b or rc, and local segments that are non-negative 31-bit numbers or non-empty lower-case alphanumeric strings that are not all digits, ParseVersion(v.String()) returns v.", "quantifier": "all such version values", "why_tests_cant": "infinitely many values; needs an induction over segment lists and digits", "anchors": ["pkg/python/pep440/01_version_scheme.go: PublicVersion.writeTo, LocalVersion.String", "pkg/python/pep440/03_tail.go: reVersion, parseVersion"]}
{"id": "C06", "title": "Normalisation is idempotent and order preserving", "statement": "If v.Normalize() returns n then n.Normalize() returns n, n uses only canonical spellings, and v.Cmp(n) = 0 for well-formed v.", "quantifier": "all version values for which Normalize succeeds", "why_tests_cant": "infinitely many versions", "anchors": ["pkg/python/pep440/01_version_scheme.go: PublicVersion.Normalize, LocalVersion.Normalize"]}
{"id": "C07", "title": "Distinct parsed versions print differently", "statement": "If v and w are returned by ParseVersion and v.String() = w.String() then v = w; in particular grouping by String() never merges different versions.", "quantifier": "all pairs of parsed versions", "why_tests_cant": "injectivity over an infinite set", "anchors": ["pkg/python/pep440/01_version_scheme.go: LocalVersion.String", "pkg/python/pep440/03_tail.go: parseVersion"]}
{"id": "C08", "title": "Parsing ignores ASCII case, surrounding whitespace and a leading v", "statement": "ParseVersion gives the same result (same version or an error) for s, for s with any ASCII letters changed in case, for s surrounded by ASCII whitespace, and, when s starts with a digit, for v+s.", "quantifier": "all input strings, all case changes, any amount of whitespace", "why_tests_cant": "the relation must hold for every string, including malformed ones", "anchors": ["pkg/python/pep440/03_tail.go: reVersion, parseVersion"]}
{"id": "C09", "title": "A specifier is the conjunction of its clauses", "statement": "Specifier.Match(v) is true iff every clause matches v; hence clause order and repetition are irrelevant, appending clauses can only remove matches, and the empty specifier matches everything.", "quantifier": "all clause lists and all versions", "why_tests_cant": "all list lengths and permutations", "anchors": ["pkg/python/pep440/02_version_specifiers.go: Specifier.Match, SpecifierClause.Match"]}
{"id": "C10", "title": "Exclusion clauses are the exact complement of matching clauses, and ordered clauses are complementary", "statement": "For every clause version s and candidate v: != matches iff == does not; !=s.* matches iff ==s.* does not; <= matches iff > does not; >= matches iff < does not; at least one of <= and >= matches.", "quantifier": "all clause versions and candidates that are well-formed", "why_tests_cant": "infinitely many pairs", "anchors": ["pkg/python/pep440/02_version_specifiers.go: matchStrictExclude, matchPrefixExclude, matchLE, matchGE, matchLT, matchGT"]}
{"id": "C11", "title": "A compatible-release clause means >= V.N together with == V.*", "statement": "For every clause version with at least two release components, ~= matches v iff >= of the same version matches v and the prefix-match clause for the release without its last component (suffixes dropped) matches v. The clause parser never produces a ~= clause with fewer than two components.", "quantifier": "all clause versions with at least two release components, all candidates, all clause strings", "why_tests_cant": "infinitely many pairs and strings", "anchors": ["pkg/python/pep440/02_version_specifiers.go: matchCompatible, parseSpecifierClause"]}
{"id": "C12", "title": "== compares by version order and ignores the candidate's local label unless the clause has one", "statement": "A strict == clause without local label matches v iff v and the clause version have equal public versions in the PEP 440 order; with a local label it matches iff the full versions compare equal.", "quantifier": "all clause versions and candidates", "why_tests_cant": "infinitely many pairs", "anchors": ["pkg/python/pep440/02_version_specifiers.go: matchStrictMatch"]}
{"id": "C13", "title": "Prefix matching compares exactly the components the clause gives", "statement": "==s.* matches v iff the epochs are equal and: when s is a plain release, every release component of s equals the corresponding (zero-padded) component of v, whatever follows; when s ends in a pre-release, the zero-padded releases are equal and v has that pre-release; when s ends in a post-release, additionally v has that post-release. The candidate's local label and dev number never matter.", "quantifier": "all clause versions and candidates", "why_tests_cant": "infinitely many pairs of unbounded length", "anchors": ["pkg/python/pep440/02_version_specifiers.go: matchPrefixMatch"]}
{"id": "C14", "title": "Exclusive ordered comparison follows PEP 440", "statement": "<V does not match a pre-release of V unless V is itself a pre-release; >V does not match a post-release of V unless V is itself a post-release, and does not match V with a local label added.", "quantifier": "all clause versions and candidates", "why_tests_cant": "infinitely many pairs", "anchors": ["pkg/python/pep440/02_version_specifiers.go: matchLT, matchGT"]}
{"id": "C15", "title": "Inclusive ordered comparison ignores the candidate's local label", "statement": "<=V and >=V give the same answer for v and for v with its local label removed (local labels are not permitted in the clause).", "quantifier": "all clause versions and candidates", "why_tests_cant": "infinitely many pairs", "anchors": ["pkg/python/pep440/02_version_specifiers.go: matchLE, matchGE"]}
{"id": "C16", "title": "Every PEP 440 operator can be written without white space before the version", "statement": "For each of ~=, ==, !=, <=, >=, <, > and every version string ver accepted by ParseVersion (two release components for ~=, no local label unless == or !=), ParseSpecifier(op + ver) succeeds and yields one clause with that operator and that version.", "quantifier": "all operators and all accepted version strings", "why_tests_cant": "infinitely many strings; the failing operator cases need the whole string space", "anchors": ["pkg/python/pep440/02_version_specifiers.go: ParseSpecifier, parseSpecifierClause"]}
{"id": "C17", "title": "Printing a specifier and parsing it back preserves its meaning", "statement": "If ParseSpecifier(s) returns sp then ParseSpecifier(sp.String()) succeeds and returns a specifier matching the same versions.", "quantifier": "all accepted specifier strings and all candidate versions", "why_tests_cant": "infinitely many specifiers", "anchors": ["pkg/python/pep440/02_version_specifiers.go: Specifier.String, SpecifierClause.String, ParseSpecifier"]}
{"id": "C18", "title": "ParseSpecifier never panics", "statement": "For every input string ParseSpecifier returns a specifier or an error.", "quantifier": "all input strings", "why_tests_cant": "a crash may need one particular string out of infinitely many", "anchors": ["pkg/python/pep440/02_version_specifiers.go: ParseSpecifier, parseSpecifierClause"]}
{"id": "C19", "title": "Select returns a matching choice, or nothing exactly when nothing matches", "statement": "spec.Select(choices, ex) is nil iff no element of choices matches spec; otherwise the result is an element of choices that matches spec.", "quantifier": "all specifiers, all choice lists, all exclusion behaviours", "why_tests_cant": "all list lengths and orders", "anchors": ["pkg/python/pep440/02_version_specifiers.go: Specifier.Select"]}
{"id": "C20", "title": "Select prefers allowed versions and returns the latest of them", "statement": "If some choice matches spec and is allowed by the exclusion behaviour, Select returns an allowed matching choice that is maximal among the allowed matching choices; excluded versions are returned only if every match is excluded (and then the latest).", "quantifier": "all specifiers, choice lists and exclusion behaviours", "why_tests_cant": "all list lengths, orders and exclusion predicates", "anchors": ["pkg/python/pep440/02_version_specifiers.go: Specifier.Select, ExclusionBehavior"]}
{"id": "C21", "title": "Select does not depend on the order of the choices", "statement": "For any permutation of choices, Select returns versions that compare equal.", "quantifier": "all specifiers, choice lists, permutations and exclusion behaviours", "why_tests_cant": "all permutations of all lists", "anchors": ["pkg/python/pep440/02_version_specifiers.go: Specifier.Select"]}
{"id": "C22", "title": "Versions that compare equal satisfy the same clauses", "statement": "If v and w are well-formed and v.Cmp(w) = 0 then every well-formed clause matches both or neither.", "quantifier": "all clauses and all pairs of equal versions", "why_tests_cant": "infinitely many pairs", "anchors": ["pkg/python/pep440/02_version_specifiers.go: SpecifierClause.Match, matchPrefixMatch"]}
{"id": "C23", "title": "Pre-release exclusion admits exactly non-pre-releases and listed versions", "statement": "ExcludePreReleases{list}.Allow(v) is true iff v has neither a pre-release nor a dev part, or some element of list compares equal to v; MultiExcluder allows iff every member allows.", "quantifier": "all lists and versions", "why_tests_cant": "all list lengths", "anchors": ["pkg/python/pep440/02_version_specifiers.go: ExcludePreReleases.Allow, MultiExcluder.Allow, AllowAll.Allow", "pkg/python/pep440/01_version_scheme.go: IsPreRelease"]}
{"id": "C24", "title": "Requires-Python clauses: != is the complement of ==, and the ordered operators follow the version order", "statement": "For pep345 specifiers: != V matches iff == V does not; <=, >, >= agree with Cmp; < V implies Cmp < 0 and additionally rejects pre-releases of V; a specifier is the conjunction of its clauses.", "quantifier": "all clauses and candidate versions", "why_tests_cant": "infinitely many pairs", "anchors": ["pkg/python/pep345/metadata.go: VersionSpecifierClause.Match, VersionSpecifier.Match"]}
{"id": "C25", "title": "Requires-Python equality fixes the precision given and excludes other release types", "statement": "== V (no dev part, no local label) matches v iff V is a prefix of v in the sense of prefix matching and v has no pre/post/dev part beyond those V has; so ==3.6 matches 3.6.9 but not 3.6.9rc1.", "quantifier": "all clause versions and candidates", "why_tests_cant": "infinitely many pairs", "anchors": ["pkg/python/pep345/metadata.go: VersionSpecifierClause.Match"]}
{"id": "C26", "title": "Requires-Python clauses parse with every operator, and a bare version means ==", "statement": "For each operator (or none) and every version string accepted by ParseVersion, pep345.ParseVersionSpecifier(op+ver) gives one clause with that operator (== when absent) and that version; comma separated lists give the clauses in order; nothing panics.", "quantifier": "all operators, all accepted version strings, all strings for the no-panic part", "why_tests_cant": "infinitely many strings", "anchors": ["pkg/python/pep345/metadata.go: ParseVersionSpecifier, parseVersionSpecifierClause, HaveRequiredPython"]}
{"id": "C27", "title": "Compressed tag sets expand to exactly the product of their components", "statement": "Tag.Decompress yields exactly the tags (x,y,z) with x, y, z dot-components of the three fields, each field free of dots.", "quantifier": "all tags", "why_tests_cant": "all numbers of components", "anchors": ["pkg/python/pep425/tags.go: Tag.Decompress"]}
{"id": "C28", "title": "Tag intersection is existence of a common simple tag and is symmetric", "statement": "Intersect(a,b) is true iff some simple tag belongs to the expansion of an element of a and of an element of b; Supports(t) is true iff some supported tag's expansion meets t's.", "quantifier": "all tag lists", "why_tests_cant": "all list lengths", "anchors": ["pkg/python/pep425/tags.go: Intersect, Installer.Supports"]}
{"id": "C29", "title": "Preference ranks by the first supported tag", "statement": "Preference(t) lies in [1, len+1]; it is len+1 iff Supports(t) is false; otherwise it is 1 + the least index whose tag matches t. Appending lower-priority tags never changes the rank of a supported tag.", "quantifier": "all installer tag lists and tags", "why_tests_cant": "all list lengths", "anchors": ["pkg/python/pep425/tags.go: Installer.Preference, Installer.Supports"]}
{"id": "C30", "title": "Tags round-trip through their text form", "statement": "ParseTag(t.String()) = t iff no field contains '-'; ParseTag(s) = t implies t.String() = s.", "quantifier": "all tags and strings", "why_tests_cant": "infinitely many strings", "anchors": ["pkg/python/pep425/tags.go: ParseTag, Tag.String, UnmarshalText, MarshalText"]}
{"id": "C31", "title": "Wheel file names round-trip", "statement": "If GenerateFilename(d) succeeds, with tag fields non-empty, distribution non-empty and build string empty or starting with neither digit nor '-', then ParseFilename of the result succeeds and gives the normalised distribution, a version equal to the normalised version, the same build tag and the same compatibility tag.", "quantifier": "all file name data", "why_tests_cant": "infinitely many names; requires showing that the regular expression has a single way to match", "anchors": ["pkg/python/pypa/bdist/binary_distribution_format.go: GenerateFilename, ParseFilename, reFilename"]}
{"id": "C32", "title": "Build tags are totally ordered, absent lowest", "statement": "BuildTag.Cmp is a total order (antisymmetric up to equality, transitive) in which nil is below every tag and tags compare by number then string, for build numbers >= 0.", "quantifier": "all build tags with non-negative numbers", "why_tests_cant": "infinitely many triples; integer subtraction", "anchors": ["pkg/python/pypa/bdist/binary_distribution_format.go: BuildTag.Cmp"]}
{"id": "C33", "title": "SelectWheel returns a supported wheel of a matching version", "statement": "If SelectWheel returns a link, the link was in the package's file list, its name is a valid wheel name, its tag is supported, its version satisfies the specifier, and no supported wheel of the same version has a more preferred tag.", "quantifier": "all file lists, specifiers, tag lists", "why_tests_cant": "all list lengths and contents", "anchors": ["pkg/python/pypa/simple_repo_api/pypa_repo_api.go: Client.SelectWheel"]}
{"id": "C34", "title": "SelectWheel avoids yanked files and pre-releases when something else matches", "statement": "If a supported, non-yanked wheel of a non-pre-release matching version exists, SelectWheel returns a non-yanked, non-pre-release wheel of the latest such version.", "quantifier": "all file lists, specifiers, tag lists", "why_tests_cant": "all list lengths and contents", "anchors": ["pkg/python/pypa/simple_repo_api/pypa_repo_api.go: Client.SelectWheel", "pkg/python/pep592/yank.go: excludeYanked.Allow, ExcludeYanked"]}
{"id": "C35", "title": "Among otherwise equal wheels SelectWheel takes the highest build number", "statement": "PEP 427: the build tag is a tie-breaker and the highest build wins; SelectWheel returns a wheel whose build tag is maximal among wheels of the selected version with the best tag.", "quantifier": "all file lists", "why_tests_cant": "all list lengths and contents", "anchors": ["pkg/python/pypa/simple_repo_api/pypa_repo_api.go: Client.SelectWheel", "pkg/python/pypa/bdist/binary_distribution_format.go: BuildTag.Cmp"]}
{"id": "C36", "title": "Project name normalisation is idempotent and canonical", "statement": "normalize(normalize(s)) = normalize(s); two valid names are requested from the same index page iff they are equal up to ASCII case and replacing runs of - _ . by one another; the result contains no run of separators, no '_' or '.'.", "quantifier": "all strings (validity: ASCII letters, digits, - _ .)", "why_tests_cant": "infinitely many strings", "anchors": ["pkg/python/pep503/simple_repo_api.go: normalize, ListPackageFiles"]}
{"id": "C37", "title": "A project name can never reach outside the index directory", "statement": "For every accepted non-empty project name the requested path is the base path followed by exactly one more path element, free of '/', '.' and '..' components, query or fragment characters.", "quantifier": "all project names and all base paths", "why_tests_cant": "infinitely many names and base paths", "anchors": ["pkg/python/pep503/simple_repo_api.go: ListPackageFiles"]}
{"id": "C38", "title": "Downloaded content matches every recognised checksum in the link", "statement": "If FileLink.Get succeeds, then for every key=value of the URL fragment whose key is one of md5, sha1, sha224, sha256, sha384, sha512, the hex digest of the returned bytes equals the value.", "quantifier": "all contents, all fragments with any number of key/value pairs, any iteration order of the fragment map", "why_tests_cant": "all fragments and all map iteration orders", "anchors": ["pkg/python/pep503/simple_repo_api.go: Client.get, FileLink.Get"]}
{"id": "C39", "title": "Files are filtered by Requires-Python only when they demonstrably do not fit", "statement": "ListPackageFiles keeps a link iff it has no (or an empty) data-requires-python, no Python version is configured, the attribute does not parse, or the Python version satisfies it; the order of links is preserved.", "quantifier": "all link lists", "why_tests_cant": "all list lengths", "anchors": ["pkg/python/pep503/simple_repo_api.go: ListPackageFiles"]}
{"id": "C40", "title": "A server with a newer major API version is refused", "statement": "HTMLVersionCheck returns an error iff the page's repository-version meta value does not parse or has a major version above 1; with no meta tag it succeeds; with several, the last one in document order counts.", "quantifier": "all HTML documents (trees)", "why_tests_cant": "all tree shapes", "anchors": ["pkg/python/pep629/simple_api_versions.go: GetVersion, HTMLVersionCheck", "pkg/htmlutil/htmlutil.go: VisitHTML, GetAttr"]}
{"id": "C41", "title": "A wheel passing the integrity check has every file recorded and correctly hashed", "statement": "If the integrity check of InstallWheel passes, then every non-directory archive entry name other than RECORD.jws and RECORD.p7s is named by a RECORD row, and for each RECORD row with a hash the archive file of that name exists and has that strong hash (sha256/384/512) and that size; only RECORD itself may lack them.", "quantifier": "all archives (any number of entries and rows)", "why_tests_cant": "all archives; an attacker chooses the counterexample", "anchors": ["pkg/python/pypa/bdist/binary_distribution_format.go: integrityCheck, wheel.Open, strongHashes"]}
{"id": "C42", "title": "Only verified content is installed", "statement": "Every byte string placed in the layer by the unpack step comes from an archive entry whose content was verified against RECORD.", "quantifier": "all archives, including ones with repeated entry names", "why_tests_cant": "adversarial archives", "anchors": ["pkg/python/pypa/bdist/binary_distribution_format.go: integrityCheck, installToVFS, wheel.Open", "pkg/python/pypa/bdist/ioutil.go: create"]}
{"id": "C43", "title": "Installation stays inside the configured scheme directories", "statement": "Every file the unpack and spread steps produce is at or below one of the platform's purelib, platlib, headers, scripts or data directories.", "quantifier": "all archives and platforms", "why_tests_cant": "adversarial archive names ('..' components)", "anchors": ["pkg/python/pypa/bdist/binary_distribution_format.go: installToVFS", "pkg/python/pypa/bdist/ioutil.go: create, rename"]}
{"id": "C44", "title": "The installed file set does not depend on map iteration order", "statement": "For a given wheel and platform the resulting set of files (names, contents, modes) is the same for every iteration order of the internal maps.", "quantifier": "all archives and all iteration orders of Go maps", "why_tests_cant": "iteration order is chosen by the runtime on every run", "anchors": ["pkg/python/pypa/bdist/binary_distribution_format.go: installToVFS (range over vfs), rewritePython, InstallWheel"]}
{"id": "C45", "title": "Root files land in purelib or platlib as WHEEL says and data subtrees in their scheme directory", "statement": "Without map-order interference: an entry NAME outside the .data directory is installed as <purelib or platlib>/NAME; an entry under DIST.data/KEY/ is installed under the KEY directory; unknown keys are an error; RECORD, RECORD.jws and RECORD.p7s are not installed.", "quantifier": "all archives", "why_tests_cant": "all archives", "anchors": ["pkg/python/pypa/bdist/binary_distribution_format.go: installToVFS"]}
{"id": "C46", "title": "Every file in a produced layer has all its parent directories in the layer", "statement": "In the layer returned by InstallWheel every proper parent directory of every entry occurs, as a directory unless the wheel itself supplied something else at that name.", "quantifier": "all sets of installed files, all map iteration orders (including entries added while iterating)", "why_tests_cant": "iterating over a map while inserting is nondeterministic", "anchors": ["pkg/python/pypa/bdist/binary_distribution_format.go: InstallWheel (ensure that parent directories exist)"]}
{"id": "C47", "title": "#!python script rewriting changes only the interpreter, and sizes stay consistent", "statement": "For a script starting with #!python (or #!pythonw) the installed content is '#!' + configured console (graphical) interpreter + the original content after that marker; the declared size equals the new content length; all other files are unchanged.", "quantifier": "all contents and interpreter strings, any read chunking", "why_tests_cant": "all contents; streaming readers", "anchors": ["pkg/python/pypa/bdist/binary_distribution_format.go: rewritePython", "pkg/python/pypa/bdist/ioutil.go: skipReader"]}
{"id": "C48", "title": "The default upper time bound is later than every archive timestamp", "statement": "When maxTime is zero and some entry has a timestamp, the bound used is a whole second and strictly after every entry timestamp, so clamping never alters wheel timestamps and compiled files are newer than their sources.", "quantifier": "all timestamp lists", "why_tests_cant": "sub-second rounding corner cases", "anchors": ["pkg/python/pypa/bdist/binary_distribution_format.go: InstallWheel"]}
{"id": "C49", "title": "Installed modes keep only the executable bit", "statement": "Every unpacked entry is a directory with mode 0755 iff its archive name ends in '/', else a regular file with mode 0755 if its external attributes say regular and some x bit, else 0644.", "quantifier": "all external attribute words", "why_tests_cant": "2^32 attribute words", "anchors": ["pkg/python/pypa/bdist/ioutil.go: create", "pkg/python/pypa/bdist/misc.go: isExecutable"]}
{"id": "C50", "title": "The .dist-info directory is found iff it is unique", "statement": "distInfoDir returns d iff exactly one top-level name ending in .dist-info occurs among the cleaned entry names, and it is d.", "quantifier": "all archives", "why_tests_cant": "all lists of entries", "anchors": ["pkg/python/pypa/bdist/misc.go: distInfoDir"]}
{"id": "C51", "title": "RECORD lists exactly the installed files, once each, sorted", "statement": "The RECORD file written by the recording hook has one row per installed non-directory file (including INSTALLER and direct_url.json) plus one for RECORD, in increasing order of paths, independent of map iteration order; the path in a row leads from the directory of the .dist-info directory to the file; each row except those for .pyc files and RECORD carries the hash of the content and its size. (Scripts whose first line the installer rewrote are a documented exception: as with pip, their rows have the hash and size from before.) The hook fails exactly if the hash is not a guaranteed one or a file whose hash is needed cannot be read.", "quantifier": "all installed file sets and map iteration orders", "why_tests_cant": "all file sets and orders", "anchors": ["pkg/python/pypa/recording_installs/recording_installs.go: Record, recordFile"]}
{"id": "C52", "title": "Entry point scripts are created for exactly the declared scripts", "statement": "For entry_points.txt that parses, CreateScripts adds for every key of console_scripts and gui_scripts one executable file in the scripts directory, whose shebang is the console/graphical interpreter and which imports and calls the named function; malformed references are errors.", "quantifier": "all configurations and map iteration orders", "why_tests_cant": "all configurations; order dependence", "anchors": ["pkg/python/pypa/entry_points/entry_points.go: CreateScripts"]}
{"id": "C53", "title": "Layers built from file references do not depend on input order", "statement": "LayerFromFileReferences gives the same entry sequence for every permutation of the input when cleaned names are distinct.", "quantifier": "all file lists and permutations", "why_tests_cant": "all permutations; unstable sort", "anchors": ["pkg/fsutil/fileref.go: LayerFromFileReferences"]}
{"id": "C54", "title": "Directories precede their contents in produced layers", "statement": "In the output of LayerFromFileReferences an entry named d comes before every entry whose name starts with d/ , even with names containing characters below '/'.", "quantifier": "all file lists with cleaned distinct names", "why_tests_cant": "all names", "anchors": ["pkg/fsutil/fileref.go: LayerFromFileReferences"]}
{"id": "C55", "title": "Timestamps are clamped and otherwise unchanged", "statement": "Every output entry's modification, access and change times are the minimum of the original time and the clamp time.", "quantifier": "all times", "why_tests_cant": "all inputs", "anchors": ["pkg/fsutil/fileref.go: LayerFromFileReferences", "pkg/dir/dir.go: LayerFromDir"]}
{"id": "C56", "title": "Stream comparison decides byte equality", "statement": "readersEqual(a,b) returns true iff the two readers deliver the same bytes, however the readers split them into chunks, and reports read errors.", "quantifier": "all contents and all chunkings", "why_tests_cant": "all lengths and chunk boundaries (in particular multiples of the buffer size)", "anchors": ["pkg/fsutil/diff.go: readersEqual"]}
{"id": "C57", "title": "Layer comparison ignores exactly the timestamps", "statement": "LayersEqualExceptTimestamps(a,b) is true iff the layers have the same entries in the same order with equal contents and headers up to ModTime, AccessTime and ChangeTime; so it is an equivalence relation.", "quantifier": "all pairs of layers", "why_tests_cant": "all layers", "anchors": ["pkg/fsutil/diff.go: LayersEqualExceptTimestamps, headersEqualExceptTimestamps"]}
{"id": "C58", "title": "layer gobuild --output keeps the old file iff only timestamps differ", "statement": "With --output, the file is rewritten iff it is absent or differs from the new layer in more than timestamps.", "quantifier": "all old and new layers", "why_tests_cant": "all layers", "anchors": ["cmd_layer_gobuild.go: RunE", "pkg/fsutil/diff.go: LayersEqualExceptTimestamps"]}
{"id": "C59", "title": "LayerFromDir emits the prefix directories first, outermost first, then the tree under the prefix", "statement": "With a relative cleaned prefix a/b/c the layer starts with a, a/b, a/b/c as directories with the prefix mode and owner; every other entry is named prefix/REL for a file REL of the tree. A relative prefix without .. elements may have doubled slashes, a slash at its end and . elements: the directories and the names of the files are the same, only the prefix itself is written as given (after its cleaned form, if it ends in a slash or a .). The call ends exactly if the prefix does not begin with a slash.", "quantifier": "all prefixes and trees", "why_tests_cant": "all depths", "anchors": ["pkg/dir/dir.go: LayerFromDir"]}
{"id": "C60", "title": "The requested ownership is applied to the layer", "statement": "With a chown argument every tree entry in the layer has that uid/gid (when >= 0) and names (when non-empty).", "quantifier": "all trees and ownerships", "why_tests_cant": "the effect must hold for every entry", "anchors": ["pkg/dir/dir.go: LayerFromDir"]}
{"id": "C61", "title": "Hard links in a layer point to an earlier entry", "statement": "Every hard-link entry emitted by LayerFromDir names an earlier entry of the same layer which is the same file and is itself not a hard link; content is emitted exactly once per file.", "quantifier": "all trees and all link structures", "why_tests_cant": "all trees", "anchors": ["pkg/dir/dir.go: LayerFromDir"]}
{"id": "C62", "title": "Squashing is equivalent to applying the layers one after another", "statement": "Applying Squash(layers) on top of any base file system gives the same file system as applying the layers one by one.", "quantifier": "all bases, all layer lists of any length", "why_tests_cant": "unbounded layer stacks, whiteouts and type changes interact", "anchors": ["pkg/squash/squash.go: Squash, loadLayers", "pkg/squash/vfs.go: fsfile.Get, fsfile.Set, fsfile.WriteTo"]}
{"id": "C63", "title": "A layer entry outside the image root is rejected", "statement": "Load and Squash fail if some entry's cleaned name is absolute, '..' or starts with '../'; otherwise every name in the result is relative, clean and free of '..'.", "quantifier": "all layers", "why_tests_cant": "all names", "anchors": ["pkg/squash/readlayer.go: parseLayer"]}
{"id": "C64", "title": "Squash output is in a canonical order: parents before children, whiteouts before siblings, siblings sorted", "statement": "The entry sequence of Squash(layers) has no repeated name, each directory precedes its contents, and within a directory whiteout markers come first and then the others, each group sorted by name; so it is determined by the resulting tree, not by map iteration order.", "quantifier": "all layer lists and map iteration orders", "why_tests_cant": "all layers and orders", "anchors": ["pkg/squash/vfs.go: fsfile.WriteTo"]}
{"id": "C65", "title": "A non-directory never has children after loading", "statement": "In the loaded file system no path has an entry below a path whose entry is a regular file, symlink or other non-directory.", "quantifier": "all layer lists", "why_tests_cant": "invariant over every sequence of Set/Get operations", "anchors": ["pkg/squash/vfs.go: fsfile.Get, fsfile.Set"]}
{"id": "C66", "title": "Later layers win", "statement": "For layers without symlinks, the content and header found at a path after loading is that of the last layer that mentions the path, unless a later whiteout, opaque marker or type change removed it; a path removed and not re-added is absent.", "quantifier": "all layer lists", "why_tests_cant": "all histories of additions and removals", "anchors": ["pkg/squash/squash.go: loadLayers", "pkg/squash/vfs.go"]}
{"id": "C67", "title": "Whiteouts hide lower entries and only them", "statement": "A whiteout .wh.X in a layer removes X and everything below it that came from earlier layers, but not entries of the same layer or other names; an opaque marker removes all earlier siblings.", "quantifier": "all layer lists", "why_tests_cant": "all histories", "anchors": ["pkg/squash/vfs.go: fsfile.Set", "pkg/squash/squash.go: loadLayers"]}
{"id": "C68", "title": "Path lookup terminates", "statement": "Opening any path of a loaded file system returns a file or an error in finite time, for every arrangement of symlinks.", "quantifier": "all layer lists and paths", "why_tests_cant": "non-termination needs a particular symlink configuration; a test would hang", "anchors": ["pkg/squash/vfs.go: fsGet, fsfile.Get"]}
{"id": "C69", "title": "Squashing one squashed layer changes nothing", "statement": "Squash([Squash(ls)]) has the same entries as Squash(ls).", "quantifier": "all layer lists without symlinks", "why_tests_cant": "all layer stacks", "anchors": ["pkg/squash/squash.go: Squash"]}
{"id": "C70", "title": "Reading a file in pieces delivers exactly its content", "statement": "For an opened file with content in memory, the concatenation of the results of any sequence of Reads with positive buffer sizes up to EOF is the content; after Close every Read, ReadDir and Close fails.", "quantifier": "all contents and all sequences of buffer sizes", "why_tests_cant": "all histories of calls", "anchors": ["pkg/squash/vfs_fs.go: fsfileReader.Read, Close"]}
{"id": "C71", "title": "Reading a directory in pieces delivers each visible entry once, sorted", "statement": "The concatenation of the results of any sequence of ReadDir(n) calls with n > 0 up to EOF equals ReadDir(-1) on a fresh handle: each child without whiteout prefix exactly once in name order; and a failing call leaves no partial listing behind.", "quantifier": "all directories and call sequences", "why_tests_cant": "all histories of calls and map orders", "anchors": ["pkg/squash/vfs_fs.go: fsfileReader.ReadDir"]}
{"id": "C72", "title": "Python mode bits survive conversion to Go and back", "statement": "ModeFromGo(m.ToGo()) = m for every mode whose type bits are one of the seven known types, and ModeFromGo(g).ToGo() = g for every Go mode made of permission, setuid/setgid/sticky and one known type.", "quantifier": "all 65536 modes, all Go modes", "why_tests_cant": "exhaustive table, and 2^32 Go modes", "anchors": ["pkg/python/stat.go: StatMode.ToGo, ModeFromGo"]}
{"id": "C73", "title": "ZIP external attributes pack and unpack without loss", "statement": "ParseZIPExternalAttributes(ea.Raw()) = ea and Parse(raw).Raw() = raw.", "quantifier": "all attribute structs and all 32-bit words", "why_tests_cant": "2^32 words", "anchors": ["pkg/python/zip.go: ZIPExternalAttributes.Raw, ParseZIPExternalAttributes"]}
{"id": "C74", "title": "The ls-style rendering of a mode determines the permission bits", "statement": "StatMode.String() never panics, has 10 characters, and two modes with the same rendering have the same 12 permission bits; with known types the same type.", "quantifier": "all modes and pairs of modes", "why_tests_cant": "2^32 pairs", "anchors": ["pkg/python/stat.go: StatMode.String"]}
{"id": "C75", "title": "Config parsing: no data is silently lost or invented", "statement": "In strict mode every key/value line outside a continuation becomes exactly one option in its section (last flushed value intact), repeated sections or options are errors, lines before any section are errors, comment lines have no effect on other options.", "quantifier": "all texts", "why_tests_cant": "all line sequences", "anchors": ["pkg/python/configparser.go: ConfigParser.Parse"]}
{"id": "C76", "title": "direct_url.json formatting changes only white space", "statement": "jsonDumps' output is the JSON text of the same value with ', ' and ': ' separators, hence parses to the same value.", "quantifier": "all JSON values that can occur (objects of scalars and objects), and all JSON values", "why_tests_cant": "all nesting structures", "anchors": ["pkg/python/pypa/direct_url/json.go: jsonDumps"]}
{"id": "C77", "title": "Executable lookup in an image follows PATH order", "statement": "LookPath(name without slash) returns the join of the first PATH directory in which name is an executable non-directory, resolved against the image's working directory when relative, and an error iff there is none.", "quantifier": "all PATH values, images and names", "why_tests_cant": "all lists", "anchors": ["pkg/python/pyinspect/fs_image.go: LookPath, checkExecutable, lookupEnv, linuxFilepathSplitList"]}
{"id": "C78", "title": "Shebang interpreters are real executables", "statement": "If Shebangs succeeds both returned paths were found executable by LookPath; console is the non-w variant if available and graphical the w variant if available.", "quantifier": "all file systems and names", "why_tests_cant": "all lookup functions", "anchors": ["pkg/python/pyinspect/pyinspect.go: Shebangs"]}
{"id": "C79", "title": "image build applies exactly the requested config changes", "statement": "ApplyTo keeps every config field not mentioned by a flag, replaces Entrypoint/Cmd/WorkingDir when given, and makes Env the (possibly cleared) base list followed by the appended variables in order; with no flags the config is untouched.", "quantifier": "all configs and flag values", "why_tests_cant": "all flag combinations", "anchors": ["cmd_image_build.go: configFlags.ApplyTo, IsZero"]}
{"id": "C80", "title": "Word wrapping never changes the words", "statement": "wrap(i,w,s) terminates and contains the same non-blank characters in the same order as s; with w=0 only indentation is added after newlines; no line break is introduced inside a word.", "quantifier": "all strings, widths and indents", "why_tests_cant": "all strings", "anchors": ["pkg/cliutil/borrowed_pflag.go: wrapN, wrap", "pkg/cliutil/wordwrap.go: Wrap, WrapIndent"]}
{"id": "C81", "title": "A run uses a single reproducible time", "statement": "reproducible.Now returns the same instant for every call in a process, whatever the interleaving of calls, and it is SOURCE_DATE_EPOCH when that is a valid decimal integer.", "quantifier": "all call sequences, environments and clocks", "why_tests_cant": "all schedules", "anchors": ["pkg/reproducible/source_date_epoch.go: Now"]}
{"id": "C82", "title": "The interpreter version used for Requires-Python orders like the interpreter's release", "statement": "VersionInfo.PEP440 yields a version whose order agrees with (major, minor, micro, releaselevel, serial).", "quantifier": "all version_info tuples", "why_tests_cant": "infinitely many tuples", "anchors": ["pkg/python/platform.go: VersionInfo.PEP440"]}
{"id": "C83", "title": "ParseFilename accepts exactly the wheel names and splits them in one way only", "statement": "ParseFilename(s) succeeds iff s is distribution-version[-build]-python-abi-platform.whl with each component non-empty and dash-free, the build component (if present) starting with a digit, and the version component a readable PEP 440 version; it returns exactly those components, and no string has two such readings.", "quantifier": "all strings", "why_tests_cant": "infinitely many strings; the regular expression could match in several ways", "anchors": ["pkg/python/pypa/bdist/binary_distribution_format.go: ParseFilename, reFilename"]}
{"id": "C84", "title": "An index page yields one link per anchor, in order", "statement": "For a page that passes the version check, the listing succeeds iff every anchor's href resolves, and then has exactly one link per <a> element in document order, carrying the element's text, its resolved href and its data- attributes.", "quantifier": "all HTML trees in which text nodes are leaves and anchors are not nested", "why_tests_cant": "all tree shapes", "anchors": ["pkg/python/pep503/simple_repo_api.go: getHTML5Index, visitHTML"]}
{"id": "C85", "title": "Wrapped help text fits the width", "statement": "If next to the indent there is room for 24 columns and every word is at least 7 columns shorter than the room, no line of wrap's result is longer than the width, the first one counted with what the caller printed before it; the same when the text is moved below with indent 16.", "quantifier": "all texts, widths below 2^63 and indents", "why_tests_cant": "all strings", "anchors": ["pkg/cliutil/borrowed_pflag.go: wrapN, wrap"]}
{"id": "C86", "title": "A platform is usable exactly if it names an interpreter and absolute directories", "statement": "Platform.Init accepts a platform iff at least one of the two interpreters is given and all five scheme directories are absolute paths; it then fills in a missing interpreter with the other one and changes nothing else.", "quantifier": "all platforms", "why_tests_cant": "all combinations of strings", "anchors": ["pkg/python/platform.go: Init"]}
{"id": "C87", "title": "InstallWheel always returns a layer or an error", "statement": "InstallWheel never panics and never runs for ever, whatever order the maps are visited in.", "quantifier": "all archives, platforms and iteration orders", "why_tests_cant": "iteration order is random; loops over maps that change while visited", "anchors": ["pkg/python/pypa/bdist/binary_distribution_format.go: InstallWheel, installToVFS"]}
{"id": "C88", "title": "Wheels with a later major Wheel-Version are refused", "statement": "If InstallWheel returns a layer, the WHEEL file in the only .dist-info directory has a Wheel-Version that is a valid PEP 440 version and whose major number is at most 1.", "quantifier": "all archives, platforms and iteration orders", "why_tests_cant": "all archives", "anchors": ["pkg/python/pypa/bdist/binary_distribution_format.go: installToVFS, parseDistInfoWheel"]}
{"id": "C89", "title": "direct_url.json says exactly what was given", "statement": "The document direct_url.Record writes has the member url; archive_info, dir_info and vcs_info exactly if the corresponding field was given, with hash, editable and requested_revision in them exactly if set, and vcs and commit_id always; no other members and none twice. Two different DirectURLs are never written as the same text.", "quantifier": "all DirectURL values, whatever characters their strings contain", "why_tests_cant": "all strings, including ones with quotes, spaces, commas and brackets, and all combinations of optional fields", "anchors": ["pkg/python/pypa/direct_url/direct_url.go: DirectURL, Record", "pkg/python/pypa/direct_url/json.go: jsonDumps"]}
{"id": "C90", "title": "`ocibuild layer wheel` is reproducible", "statement": "Making a layer from the same wheel with the same platform file gives the same layer, or fails both times; if a file of the wheel has a time, it does not matter when the command is run. It neither panics nor runs for ever.", "quantifier": "all wheels, platforms, byte code compilers, orders in which maps are visited, sorting functions that need not be stable, and clock times", "why_tests_cant": "map iteration order is random and cannot be controlled; a test sees a few orders for a few wheels", "anchors": ["cmd_layer_wheel.go: RunE", "pkg/python/pypa/bdist/binary_distribution_format.go: InstallWheel, installToVFS", "pkg/python/pypa/entry_points/entry_points.go: CreateScripts", "pkg/python/pypa/recording_installs/recording_installs.go: Record"]}
{"id": "C91", "title": "The RECORD in a wheel's layer lists the layer", "statement": "A layer made by `ocibuild layer wheel` contains a RECORD in the wheel's .dist-info directory, in purelib or platlib. Its rows have different names in increasing order. Every entry of the layer that is not a directory has a row, and every row belongs to such an entry: the name leads to it from purelib or platlib; the checksum and size are those of the entry's content in the layer, empty for RECORD itself and for byte code, and those from before the interpreter was replaced for scripts whose interpreter was replaced.", "quantifier": "all wheels, platforms, byte code compilers, orders in which maps are visited and sorting functions", "why_tests_cant": "relates the end result of the whole pipeline (installing, compiling, scripts, RECORD, parents, tar) to a file inside it, for all wheels and orders", "anchors": ["cmd_layer_wheel.go: RunE", "pkg/python/pypa/bdist/binary_distribution_format.go: InstallWheel", "pkg/python/pypa/recording_installs/recording_installs.go: Record", "pkg/fsutil/fileref.go: LayerFromFileReferences"]}
{"id": "C92", "title": "Exactly the installed .py files are compiled", "statement": "If installing a wheel's files succeeds, the byte code compiler was called with the upper bound for times, purelib and platlib, and exactly the installed files whose names end in .py, each once; what it made is installed under its names and nothing else is replaced.", "quantifier": "all wheels, platforms, compilers and iteration orders", "why_tests_cant": "all wheels and map orders", "anchors": ["pkg/python/pypa/bdist/binary_distribution_format.go: installToVFS"]}
{"id": "C93", "title": "Post-install hooks run in sequence; REQUESTED and direct_url.json", "statement": "PostInstallHooks runs its hooks one after the other, each on what the ones before it left, and succeeds exactly if all do. RecordRequested and direct_url.Record each write one regular file of the .dist-info directory, with the given text, mode 0644 and the clamp time, and touch nothing else.", "quantifier": "all hooks, file sets, directories and texts", "why_tests_cant": "all lists of hooks and all file sets", "anchors": ["pkg/python/pypa/bdist/misc.go: PostInstallHooks", "pkg/python/pep376/requested.go: RecordRequested", "pkg/python/pypa/direct_url/direct_url.go: Record"]}
{"id": "C94", "title": "The external compiler sees exactly the sources and leaves no trace", "statement": "The Compiler that ExternalCompiler returns runs the given command with -s TMP -p / TMP, a fixed hash seed, the import directories inside TMP before the caller's PYTHONPATH, and SOURCE_DATE_EPOCH if a clamp time is given; in TMP there are exactly the sources with their contents and times. It succeeds exactly if the sources can be read and be in one directory tree, the command succeeds and its results can be read; it returns exactly the files ending in .pyc that are then in TMP, with the names they have there. The result does not depend on the order of the sources, and whatever the outcome, the file system is afterwards as it was.", "quantifier": "all source lists, commands (as functions on file systems), hosts, clamp times and import directories", "why_tests_cant": "all file names and contents, all behaviours of the external command, all orders; and the absence of side effects anywhere on the host", "anchors": ["pkg/python/py_compile.go: ExternalCompiler"]}
{"id": "C95", "title": "getwheel writes exactly the linked, verified file", "statement": "`ocibuild python getwheel FILE` writes a body exactly if FILE is a valid wheel file name, the page of its project in the index (base URL plus the project's name in the normal form of PEP 503; PyPI if no index is given) can be fetched and declares a repository version that is understood, the page has a link whose text is FILE, and the file behind the first such link can be fetched and agrees with every checksum in the URL; it then writes the bytes served. It requests no URL other than that page and that file, in this order.", "quantifier": "all file names, index URLs, responses, pages (HTML trees) and hash functions", "why_tests_cant": "all pages and all servers; and the absence of other requests", "anchors": ["cmd_python_getwheel.go: RunE", "pkg/python/pep503/simple_repo_api.go: ListPackageFiles", "pkg/python/pep503/simple_repo_api.go: FileLink.Get"]}
{"id": "C96", "title": "GetSignature returns the signature", "statement": "FileLink.GetSignature requests the URL of the file with '.asc' behind it and returns what is served there; it requests nothing and says that there is no signature if data-gpg-sig is false, and also says so if the attribute is missing and the server answers 404.", "quantifier": "all links, URLs and responses", "why_tests_cant": "all links and servers", "anchors": ["pkg/python/pep503/simple_repo_api.go: GetSignature"]}
{"id": "C97", "title": "python inspect describes the inspected interpreter, and picks a compiler for it", "statement": "`ocibuild python inspect` reports the version, tags, scheme and decoded magic number that the inspected interpreter gives, and the owner of the first of purelib, platlib, headers, scripts and data that exists. The byte code command is the interpreter itself if the host is inspected; for an image it is the first of pythonX.Y, pythonX and python on the host whose magic number is the same. It fails exactly if one of these cannot be found.", "quantifier": "all file systems, interpreters, images and hosts", "why_tests_cant": "all combinations of missing directories and interpreters with other magic numbers; a test runs on one host", "anchors": ["cmd_python_inspect.go: RunE"]}
{"id": "C98", "title": "Opening a file follows symlinks as the operating system would", "statement": "Opening a name in the file system that Load returns opens the file that path resolution of the operating system leads to, with the image's root as '/': symlinks in any position are replaced by their targets, relative ones from the directory the link is in, '..' goes to the parent of the directory reached so far, and only directories are passed through. It fails if and only if path resolution does not lead to a file.", "quantifier": "all layer stacks, names and arrangements of symlinks", "why_tests_cant": "chains and nestings of symlinks of any length, in any position of any target", "anchors": ["pkg/squash/vfs.go: fsGet, fsfile.Get", "pkg/squash/vfs_fs.go: fsfile.Open"]}
{"id": "C99", "title": "Entries below symlinks take effect where the symlinks lead", "statement": "When layers are squashed, an entry whose path passes through symlinks of the image takes effect at the place the operating system would extract it to: a file 'lib/f' where 'lib' is a symlink to 'usr/lib' replaces 'usr/lib/f', a whiteout 'lib/.wh.g' removes 'usr/lib/g', the symlink itself stays, and nothing else changes.", "quantifier": "all layer stacks, all arrangements and chains of symlinks in them, all entries", "why_tests_cant": "it speaks about every arrangement of symlinks, every position at which an entry can pass through them, and every other path of the image", "anchors": ["pkg/squash/squash.go: loadLayers", "pkg/squash/vfs.go: fsGet, fsfile.Get, fsfile.Set"]}
{"id": "C100", "title": "Stat and LookPath see the files of an image that a container would", "statement": "For an image given as base of Python layers, looking up a program gives its absolute path in the first directory of the image's PATH (relative ones seen from its working directory) in which the operating system, following the image's symlinks, would find a file that is not a directory and that someone may execute; a name with a slash is looked for only where it says. If there is none there is an error. The information about a file is that of the file which path resolution leads to, and asking for it never panics. The interpreters written into scripts are such programs.", "quantifier": "all images (layer stacks, symlinks, working directories, environments) and all names", "why_tests_cant": "every arrangement of symlinks, PATH and working directory counts, and a wrong interpreter path shows only when the container runs", "anchors": ["pkg/python/pyinspect/fs_image.go: ensureInitialized, Stat, checkExecutable, LookPath", "pkg/python/pyinspect/pyinspect.go: Shebangs", "pkg/squash/vfs_fs.go: Open, Stat"]}
{"id": "C101", "title": "layer gobuild puts the built programs, owned by root, in usr/local/bin and leaves no trace", "statement": "LayerFromGo runs exactly one command, 'go build' with -trimpath for exactly the given packages (also when their names look like flags), with GOOS=linux and GOARCH=amd64 and all other environment variables passed through. If it succeeds the layer has the directories usr, usr/local, usr/local/bin (root, 0755) and one entry owned by root for each file the build made, with its content. Whether or not anything fails, the temporary directory is gone afterwards and nothing else has changed. With --output, a later build that makes the same files but for their times leaves the output file untouched.", "quantifier": "all package names, environments, file systems, builds (including ones that fail midway), times and earlier output files", "why_tests_cant": "it speaks about every environment, every set of files a build may leave, every point of failure, and pairs of builds at any two times", "anchors": ["pkg/gobuild/gobuild.go: LayerFromGo", "cmd_layer_gobuild.go: RunE", "pkg/dir/dir.go: LayerFromDir"]}
{"id": "C102", "title": "WithImage gives the callback a loaded image and removes it afterwards", "statement": "WithImage calls the function exactly if the image could be loaded into Docker, once, with a tag that no other call uses and under which Docker then has the image. When it returns, by whatever way, Docker has no image under that tag, and all other images are as the function left them. It returns nil exactly if loading, the function and removing all succeeded.", "quantifier": "all images, Docker states, callbacks, points of failure and of cancellation", "why_tests_cant": "it needs every combination of failures, which a test with a working Docker never sees, and all pairs of calls", "anchors": ["pkg/dockerutil/docker.go: WithImage, newTag", "cmd_python_inspect.go: RunE"]}
{"id": "C103", "title": "layer squash and image build use the given files as they are, in order", "statement": "Input files may be regular files or pipes. 'layer squash' of two or more layer files writes what Squash makes of their layers in the order of the arguments. 'image build' writes an image whose layers are those of the base, followed by the layer files byte for byte in the order of the arguments, with the config that the flags ask for and the given tag; it does so exactly if there is a layer file, all of them hold layers, the base is a complete image and the tag is valid, and otherwise returns an error. Squashing first and building from the result gives an image with the same files and config.", "quantifier": "all machines, files, pipes, arguments, flags, and numbers of times the libraries open a file", "why_tests_cant": "it needs every combination of input kinds, orders, broken files and flags", "anchors": ["pkg/fsutil/open.go: PathOpener, OpenLayer, OpenImage", "cmd_layer_squash.go: RunE", "cmd_image_build.go: RunE"]}
{"id": "C104", "title": "A layer made of files, put on an image, adds exactly these files", "statement": "A layer made by LayerFromFileReferences or LayerFromDir, put as top layer on an image, gives an image in which each of the files is at its path (below the prefix if there is one) with its type, size, mode and content and can be opened; the directories leading to it exist, with the header they had in the image below if they were directories there; nothing is left below a path that the layer turns into something other than a directory; and every other path is as it was.", "quantifier": "all images below, all sets of files and directory trees, all prefixes and sort orders", "why_tests_cant": "it relates every layer that can be made to every image it can be put on, including names that clash with files, directories and markers below", "anchors": ["pkg/fsutil/fileref.go: LayerFromFileReferences", "pkg/dir/dir.go: LayerFromDir", "pkg/squash/squash.go: loadLayers, Load", "pkg/squash/vfs_fs.go: Open"]}
{"id": "C105", "title": "A wheel installed onto an image adds the wheel's files, and RECORD describes them as they are in the image", "statement": "The layer made by 'layer wheel', put as top layer on an image, gives an image with exactly the layer's files added and everything else as it was. The image has the wheel's RECORD in its .dist-info directory; every file of the image that was not there before, or was another one, has a row in RECORD with the checksum and size of its content in the image (none for RECORD and byte code, those from before for scripts whose interpreter was replaced); and every row is that of a file in the image.", "quantifier": "all wheels, platforms, iteration orders, and images below", "why_tests_cant": "it relates every wheel to every image it can be installed onto", "anchors": ["cmd_layer_wheel.go: RunE", "pkg/python/pypa/bdist/binary_distribution_format.go: InstallWheel", "pkg/python/pypa/recording_installs/recording_installs.go: Record", "pkg/squash/squash.go: loadLayers"]}
{"id": "C106", "title": "ParseVersion accepts exactly PEP 440's version grammar and returns the numbers and words written", "statement": "A text is accepted by ParseVersion if and only if it belongs to the grammar of PEP 440 (optional blanks, v, epoch, release, pre-, post- and dev-release in all their spellings and separators, local label) and its public numbers fit an int; the version returned has exactly the epoch, release numbers, pre-release phase and number, post-release, dev-release and local segments the text says, a number that is left out being zero.", "quantifier": "all strings, all versions", "why_tests_cant": "it is an equality between the set of accepted strings and a grammar, both infinite, with the values for each", "anchors": ["pkg/python/pep440/03_tail.go: reVersion", "pkg/python/pep440/03_tail.go: parseVersion", "pkg/python/pep440/03_tail.go: parseLetterNumber", "pkg/python/pep440/01_version_scheme.go: ParseVersion"]}
{"id": "C107", "title": "ParseSpecifier accepts exactly PEP 440's specifier grammar and returns the clauses written", "statement": "A text is accepted by ParseSpecifier if and only if it is a comma-separated list of clauses of PEP 440's grammar: an operator (~=, ==, !=, <=, >=, <, >) and a version, with optional blanks around both; at least two release numbers after ~=, a local label only after == and !=, and .* only after == and != behind a version without developmental release and local label. Empty parts count as nothing. The result has exactly the written operators and versions, in order.", "quantifier": "all strings, all lists of clauses", "why_tests_cant": "it is an equality between the set of accepted strings and a grammar, both infinite, with the clauses for each", "anchors": ["pkg/python/pep440/02_version_specifiers.go: ParseSpecifier", "pkg/python/pep440/02_version_specifiers.go: parseSpecifierClause"]}
{"id": "C108", "title": "Squashing keeps what hard links give", "statement": "If layers extract, on some file system, one after the other (a hard link becoming another name of the file that is at its target at that moment), then the layer Squash makes of them extracts on it too, and every path then has the same file, hard links included.", "quantifier": "all stacks of layers, all file systems underneath, all map iteration orders and sorts", "why_tests_cant": "depends on every combination of the order of entries within and between layers, and on what is underneath", "anchors": ["pkg/squash/squash.go: Squash", "pkg/squash/squash.go: loadLayers", "pkg/squash/vfs.go: fsfile.WriteTo"]}
{"id": "C109", "title": "A file reads from the loaded layers with the content it has when they are extracted", "statement": "If layers load and extract, every regular file of the extracted file system, opened in the fs.FS that Load returns and read to the end, gives the content it has in the extracted file system, hard links included.", "quantifier": "all stacks of layers, all names, all sequences of buffer sizes", "why_tests_cant": "relates two interpretations of the same layers for every stack and every file in it", "anchors": ["pkg/squash/squash.go: Load", "pkg/squash/vfs_fs.go: fsfileReader.Read", "pkg/squash/vfs_fs.go: fsfile.Open"]}
{"id": "C110", "title": "The layer of a directory, extracted, is a copy of the directory", "statement": "On every file system, extracting the layer that LayerFromDir makes of a directory succeeds; afterwards every name in the directory, also each further name of a file that has several, is below the prefix with the type, size, mode, content and symlink target it has in the directory, names of one file name one file, and everything else is as it was.", "quantifier": "all directory trees with any hard links, all prefixes, all file systems extracted to", "why_tests_cant": "every tree and every pattern of hard links is a case of its own, and so is every file system underneath", "anchors": ["pkg/dir/dir.go: LayerFromDir"]}
{"id": "C111", "title": "A command line either runs the command it spells, with exit status 0 or 1, or exits with 2 without running anything", "statement": "For each of the seven commands and every continuation of its words: if the continuation follows the GNU-style grammar (long and short flags, `=`, clusters, `--`, interspersed operands), has the right number of operands and the required flags, the command runs with exactly those flag values and operands and the process exits 0 iff it succeeds and 1 otherwise; asking for help exits 0; anything else exits 2 and runs nothing. Flags spelled with their value may also stand before or between the words of the command. For arbitrary arguments, nothing runs unless the arguments spell it, and status 0 without running means help was asked for.", "quantifier": "all argument lists, all outcomes of the command, all sets of strings accepted as integers", "why_tests_cant": "the set of argument lists is infinite and the property is an equivalence between a grammar and a parser", "anchors": ["main.go:16-73", "pkg/cliutil/cobra.go:13-74", "cmd_layer_wheel.go:106-110", "cmd_image_build.go:43-68,179-181", "cmd_layer_dir.go:38-58"]}
{"id": "C112", "title": "Every setting can be expressed on the command line and arrives unchanged", "statement": "Whatever order and spelling the flags of `image build` have, the resulting config is the base's with the environment cleared if the last --config.Env.clear says so, followed by all --config.Env.append values unchanged and in order, and with Entrypoint, Cmd and WorkingDir replaced when given. For all strings (commas, quotes, dashes and equals signs included) there is a command line whose base, tag, environment, entrypoint, command, working directory and layers are exactly these, and likewise one for every prefix and ownership of `layer dir`, and for every value of the flags of the other commands. --config.Env.clear=v runs exactly for the twelve spellings of true and false, and clears exactly for those of true.", "quantifier": "all command lines in the grammar, all strings, all base configs, all prefixes and ownerships", "why_tests_cant": "it must hold for all values, in particular those with special characters, and all orders of flags", "anchors": ["cmd_image_build.go:43-115,179-181", "cmd_layer_dir.go:15-58"]}
{"id": "C113", "title": "A layer command that exits with status 0 has written the complete layer", "statement": "For every command line, layer and standard output (including one that fails or is full): if a layer command ran and the status is 0, then the layer was made, was read and closed without error, and exactly its bytes were written to standard output; if the status is 1, what was written is nothing or a beginning of the layer.", "quantifier": "all argument lists, all layers as sequences of reads ending in end-of-file or an error, all writers", "why_tests_cant": "failures at every byte position of the output and of the input must be considered", "anchors": ["pkg/fsutil/write.go:9-23", "cmd_layer_dir.go:21-35", "main.go:62-73"]}
{"id": "C114", "title": "Squashing a whole image keeps what the image shows, also where entries pass through symlinks", "statement": "Squashing all layers of an image gives one layer in which every entry has the name of the place where it took effect and none lies below a symlink; extracted onto an empty file system, or loaded, it shows at every path the same file, directory or symlink, with the same metadata and content, as the stack of layers does when each entry takes effect where the symlinks on its path lead at that time.", "quantifier": "all layer stacks, all arrangements of symlinks, all map iteration orders and all results of the unstable sort, all paths", "why_tests_cant": "it speaks about every combination of symlinks, replacements and whiteouts over any number of layers, and about every path of the image", "anchors": ["pkg/squash/squash.go: Squash, loadLayers", "pkg/squash/vfs.go: fsGet, fsfile.Get, fsfile.Set, fsfile.WriteTo"]}
{"id": "C115", "title": "The wheel that SelectWheel picks does not depend on the order of the index page", "statement": "For the same set of files in another order, and however sort.Slice orders equal elements, SelectWheel fails in both cases or returns files of the same version with equally preferred tags and the same build tag; the same file, if these three single one out.", "quantifier": "all file lists, permutations, specifiers, tag lists, sorts", "why_tests_cant": "all permutations of all lists, and every behaviour of an unstable sort", "anchors": ["pkg/python/pypa/simple_repo_api/pypa_repo_api.go: Client.SelectWheel"]}
{"id": "C116", "title": "A static test case fails the test exactly if the function under test fails on it", "statement": "QuickCheck and QuickCheckEqual call the functions under test with the arguments of each static case, report every case of the wrong size and every case on which the function is false (or the two functions differ), and report nothing else; they do not panic if the functions do not.", "quantifier": "all functions, numbers of arguments, lists of cases", "why_tests_cant": "all functions and case lists; a checker that calls the function with other arguments passes every test that it does not fail", "anchors": ["pkg/testutil/quick.go: QuickCheck, QuickCheckEqual"]}
{"id": "C117", "title": "Requires-Python: exactly the comma-separated conditions of PEP 345 are accepted and read as written", "statement": "ParseVersionSpecifier accepts a text exactly if it is a list of conditions separated by commas, each an operator out of < > <= >= == != (or none, meaning ==) and a version in PEP 440's grammar, and returns these conditions in order; HaveRequiredPython fails exactly for the other texts.", "quantifier": "all texts", "why_tests_cant": "both directions, over all texts", "anchors": ["pkg/python/pep345/metadata.go: ParseVersionSpecifier, parseVersionSpecifierClause, HaveRequiredPython"]}
{"id": "C118", "title": "RECORD as a text: what is written is what is read, and what a wheel's RECORD says by RFC 4180 is what is checked", "statement": "The text of RECORD in the layer that the command makes reads back, as CSV, as rows that list exactly the layer's files, and stands for these rows by RFC 4180. The integrity check goes by the rows that the text of the wheel's RECORD stands for by RFC 4180, whatever its quoting and line ends.", "quantifier": "all wheels, file names and contents; all RECORD texts", "why_tests_cant": "all names and texts: quoting, commas, quotes and line breaks in names interact", "anchors": ["pkg/python/pypa/recording_installs/recording_installs.go: Record", "pkg/python/pypa/bdist/binary_distribution_format.go: integrityCheck"]}
{"id": "C119", "title": "Putting a layer on an image leaves the image's other files where they could be reached", "statement": "After the layer of a wheel (or of a directory, or any layer in which directories come before what they hold) has been put on top of an image, every name that could be opened in the image, directly or through symlinks, still opens and leads to the same place, with the content it had unless the layer has a file of its own there.", "quantifier": "all wheels, directories and layers; all images below; all names", "why_tests_cant": "every combination of layer contents and symlinks of the image; effects on files the layer does not name", "anchors": ["pkg/python/pypa/bdist/binary_distribution_format.go: InstallWheel", "pkg/dir/dir.go: LayerFromDir", "pkg/squash/squash.go: Squash, loadLayers", "pkg/squash/vfs_fs.go: Open"]}
{"id": "C120", "title": "Random versions are valid, and every small version can come up", "statement": "Generate on a version (as called by testing/quick), whatever the random numbers and the size, returns without a panic a version in canonical form that is read back from its printed form; every version with parts below 3000, at most ten release and ten label segments and label strings of up to ten characters beginning with a letter is returned for some random numbers, if it is not larger than the size asked for; and likewise for the comparison operators, each of which can come up.", "quantifier": "all sequences of random numbers, all sizes, all versions in the range", "why_tests_cant": "a generator that leaves out some versions, or rarely produces an invalid one, makes the tests that use it pass; no sample of runs shows that none is left out", "anchors": ["pkg/python/pep440/generate.go: PublicVersion.Generate, LocalVersion.Generate, CmpOp.Generate"]}
{"id": "C121", "title": "Goroutines can share an open file of an image", "statement": "Whatever goroutines call Read, ReadDir and Close of one handle of a file in an image, and however their steps are interleaved, each call returns what it would if the calls were made one after the other in some order that respects which returned before which was made. So every byte of a file (every entry of a directory whose links can all be followed) is given to exactly one of them, from the beginning on, all of it once EOF has been returned; Close succeeds at most once, and every call made after it has returned fails; and no call waits for ever for another.", "quantifier": "all files and directories, all numbers of goroutines, all sequences of calls, all interleavings of accesses to the variables of the handle", "why_tests_cant": "a missing or misplaced lock shows only in some interleavings, which a test cannot choose; a race detector sees only the executions that happen", "anchors": ["pkg/squash/vfs_fs.go: fsfileReader.Read, fsfileReader.ReadDir, fsfileReader.Close"]}
{"id": "C122", "title": "What a version says about itself agrees with the order", "statement": "IsFinal holds of a version if and only if it compares equal to its epoch and release alone; IsPreRelease if and only if it compares below the same version without its pre-release and development markers; of two versions of the same epoch the one with the smaller (Major, Minor, Micro) compares below the other, and final versions with at most three numbers in which these agree compare equal.", "quantifier": "all well-formed versions (those that parsing returns, without numbers at the edge of the machine's range)", "why_tests_cant": "all combinations of markers, and all numbers", "anchors": ["pkg/python/pep440/01_version_scheme.go: PublicVersion.IsFinal, LocalVersion.IsFinal, PublicVersion.IsPreRelease, PublicVersion.Major, PublicVersion.Minor, PublicVersion.Micro, LocalVersion.Cmp"]}
{"id": "C123", "title": "An ImageFS that goroutines share reads its image once", "statement": "Whatever the interleaving of goroutines that call methods of one ImageFS, the image is asked for its config and for its layers at most once, even if it would answer differently the next time; every call gets the same error, or goes on with the same working directory, search path and file system, namely those that reading the image from beginning to end gives, and never with part of them; if the image answers and its layers can be loaded or are refused, then every call comes back.", "quantifier": "all images and all answers they may give, all numbers of goroutines, all interleavings of the single reads and writes", "why_tests_cant": "the interleavings cannot be enumerated by running, and a race that shows a field half initialized is rare", "anchors": ["pkg/python/pyinspect/fs_image.go: ImageFS.ensureInitialized, ImageFS.Stat, ImageFS.LookPath"]}
{"id": "C124", "title": "What a caller does with the entries it got does not change the entries to come", "statement": "The calls of ReadDir on a directory handle of a squashed file system return the same entries whatever the caller does between the calls with the slices it got before: assigning to their elements, appending to them, or nothing.", "quantifier": "all layers, all directories whose links can be followed, all iteration orders of maps, all sequences of calls, assignments and appends", "why_tests_cant": "tests do not write into the results between two calls; whether results share memory with the handle only shows for such callers", "anchors": ["pkg/squash/vfs_fs.go: fsfileReader.ReadDir"]}
{"id": "C125", "title": "Walking over a loaded image visits every file once", "statement": "fs.WalkDir on the file system that Load returns, from any file or directory on, returns and calls its function once for every file, directory and symlink at and below there, except whiteout markers and what is below them, directories before what they hold and otherwise in the order of the names, with the entry's own name and kind and without an error.", "quantifier": "all layer stacks, all places to begin, all iteration orders of maps and all results of the unstable sort", "why_tests_cant": "whether a walk is complete depends on the whole tree: directories without entries, links and markers anywhere in it; the tree is unbounded", "anchors": ["pkg/squash/vfs_fs.go: fsfile.Open, fsfileReader.Stat, fsfileReader.ReadDir, dirEntry, missingDirEntry", "pkg/squash/squash.go: Load"]}
{"id": "C126", "title": "Checksums bind contents", "statement": "Two wheels that both pass the integrity check and have the same RECORD text (in a .dist-info directory of the same name) have the same files, RECORD.jws, RECORD.p7s and directories aside, and reading a file by name gives the same bytes in both, unless the two contents, of the same length, have the same SHA-256, SHA-384 or SHA-512 sum. Likewise two successful downloads of one URL, whose fragment can be decoded and promises a checksum, give the same bytes unless they have the same sum. The text of a checksum is its base64 (URL-safe, unpadded) or hexadecimal form, which determines it.", "quantifier": "all pairs of archives, all RECORD texts, all pairs of responses, all hash functions", "why_tests_cant": "that no second archive passes with the same RECORD is a statement about all pairs of archives; a test can try only some tampered ones", "anchors": ["pkg/python/pypa/bdist/binary_distribution_format.go: strongHashes, integrityCheck", "pkg/python/pypa/bdist/hack.go", "pkg/python/pypa/recording_installs/recording_installs.go", "pkg/python/pep503/simple_repo_api.go: Client.get"]}
{"id": "C127", "title": "A layer that cannot be read to its end is an error", "statement": "Load and Squash return a file system or a layer only if every given layer could be opened, read to its end and closed without an error, whether contents are kept or not, and (for Squash) the tar writer took every entry; the result is then that of the complete layers.", "quantifier": "all stacks of layers, each with any error at any place", "why_tests_cant": "an error can occur at any byte of any layer, in any combination with the other layers; tests inject a few", "anchors": ["pkg/squash/readlayer.go: parseLayer", "pkg/squash/squash.go: loadLayers, Load, Squash"]}
{"id": "C128", "title": "Layers that could be read can be squashed", "statement": "`squash.Squash` does not fail at writing: if the layers can be read to their ends, have no entry outside the root, and loading them succeeds, then the `tar.Writer` takes every header that the squashed layer gets, whatever the length of the names and whatever format (USTAR, PAX, GNU) the layers' headers have. In particular `ocibuild layer squash` accepts the layers that `ocibuild layer dir` writes.", "quantifier": "all stacks of layers, all names, all formats of the headers, all iteration orders of the maps", "why_tests_cant": "Whether a name fits depends on where its slashes are, on its length modulo the two fields of the header, and on the names of directories that symlinks in other layers lead to; the header's format is a field that no code of the package mentions, so no test of it can vary it.", "anchors": ["pkg/squash/vfs.go:205-220", "pkg/squash/squash.go:55-77", "pkg/squash/readlayer.go:28-74"]}
{"id": "C129", "title": "Goroutines can share a loaded file system", "statement": "Any number of goroutines can open names in the fs.FS that Load returns, and list its directories through handles of their own, at the same time and without locks of their own (as users of an io/fs.FS, such as http.FS or an ImageFS asked by several goroutines, do): each call returns what it would have returned had the others not been there, and there is no data race, that is, no variable is accessed by two goroutines at once of which one writes.", "quantifier": "all layer stacks, all numbers of goroutines, all names and directories, all iteration orders of maps, all interleavings of the accesses to the variables", "why_tests_cant": "Races depend on the interleaving; the race detector reports those that happen in a run, not their absence, and the sequential result is the same in nearly all runs.", "anchors": ["pkg/squash/vfs.go:63-153", "pkg/squash/vfs_fs.go:30-57", "pkg/squash/vfs_fs.go:164-225"]}
{"id": "C130", "title": "A platform file is read as it is written, and a wrong one is refused", "statement": "`ocibuild layer wheel --platform-file` reads what `ocibuild python inspect` wrote as the platform that was inspected, field by field, and then compiles with the command that was reported. A file written by hand is read key by key, whatever the order and the case of the keys; what it leaves out is empty; a key that a platform does not have, or a value of the wrong kind, is refused with an error. No platform file makes the program crash.", "quantifier": "all reports of python inspect, all YAML documents (as trees), all results of looking up the compiler", "why_tests_cant": "The file is written by one library (gopkg.in/yaml.v2, lower-cased field names) and read by another (sigs.k8s.io/yaml and encoding/json, json tags and names ignoring case); that every field survives for all values, and which documents are refused, are statements on all documents, and no test runs the two commands one after the other.", "anchors": ["cmd_layer_wheel.go:62-76", "cmd_python_inspect.go:59-164", "pkg/python/platform.go:11-69", "pkg/python/py_compile.go:40-48", "pkg/python/pep425/tags.go:29-56"]}
{"id": "C131", "title": "Squash and Load invent nothing", "statement": "Every entry of Squash(layers) has the type, link target, size, mode, all other metadata, the content and the last name element of some entry of the given layers; the only other entries are added opaque markers: empty regular files of mode 0644 named .wh..wh..opq. Likewise whatever Load's file system holds under a path has the metadata and name of an entry, and its content unless contents are left out.", "quantifier": "all layers (also with symlinks, whiteouts, replaced files, repeated names), all iteration orders, all paths", "why_tests_cant": "Files are moved between places while layers are applied (through symlinks, over files that become directories); that no combination of entries mixes up metadata and content, or makes an entry of its own, is a statement on all stacks of layers; the tests compare a few results.", "anchors": ["pkg/squash/squash.go:16-77", "pkg/squash/vfs.go:63-248", "pkg/squash/readlayer.go:28-74"]}
{"id": "C132", "title": "Whatever is opened is closed, and read only while it and its archive are open", "statement": "Each function that opens files, layers, archive members or response bodies closes each of them before it returns, on every path, whichever call fails; it reads a handle only between opening and closing it, and a file of a wheel only while the wheel is open.", "quantifier": "all executions of LayerFromFileReferences, LayerFromDir, WriteLayer, LayersEqualExceptTimestamps, Load and Squash, the simple repository's get, the gobuild command's output, the dumps of testutil and InstallWheel with its hooks; any number of files, rows, scripts and layers; any of the calls failing", "why_tests_cant": "A handle that stays open on an error path changes no result; tests would have to make every call fail in turn and count open files. The order of deferred calls across hooks that get lazily opened files is not visible in any one function.", "anchors": ["pkg/fsutil/fileref.go:52-94", "pkg/fsutil/diff.go:46-103", "pkg/fsutil/write.go:10-24", "pkg/dir/dir.go:143-154", "pkg/squash/readlayer.go:28-74", "pkg/python/py_compile.go:69-119", "pkg/python/pypa/bdist/binary_distribution_format.go:86-180", "pkg/python/pypa/entry_points/entry_points.go:48-139", "pkg/python/pypa/recording_installs/recording_installs.go:28-58", "pkg/python/pep503/simple_repo_api.go:58-110", "cmd_layer_gobuild.go:34-84"]}
{"id": "C133", "title": "Some of an image's layers may be squashed first", "statement": "Replacing any run of consecutive layers of an image by their squashed layer changes nothing: loading the image gives the same files, squashing the result gives the same entries in the same order (apart from markers), and squashing the lower layers first and then the rest acts on every file system underneath as squashing all of them at once.", "quantifier": "all images split into layers below, the squashed run and layers above; every file system underneath; every iteration order of maps and every sort function", "why_tests_cant": "Tests squash a fixed stack once. Squashing in steps composes the output of one run with arbitrary further layers; whether the markers kept in the first result suffice depends on every layer below and above.", "anchors": ["pkg/squash/squash.go:16-91", "pkg/squash/vfs.go:67-307", "cmd_layer_squash.go"]}
{"id": "C134", "title": "One compiler can be used for several runs", "statement": "Every run of a Compiler returned by ExternalCompiler calls the command with the command line's arguments followed by the options for the run's own temporary directory, also when goroutines use the compiler at the same time, and the caller's command line is left as it is.", "quantifier": "all command lines, all capacities of the slice they are given in, any number of runs, all interleavings of their single memory accesses", "why_tests_cant": "append writes into the caller's array only if there is room, which depends on how the slice was made; then the runs' arguments mix only in some interleavings, and the race detector sees it only if these occur.", "anchors": ["pkg/python/py_compile.go:38-58", "pkg/python/py_compile.go:126-133", "cmd_layer_wheel.go:75"]}
{"id": "C135", "title": "Global headers of an archive are not files", "statement": "An entry of type 'g' (PAX global header), which describes no file, does not appear in the file system that Load returns or change anything in it.", "quantifier": "all stacks of layers with global headers anywhere in them", "why_tests_cant": "The test layers are written by Go's tar writer, which writes no global headers unless asked to; archives of git archive have them.", "anchors": ["pkg/squash/readlayer.go:24-74", "pkg/squash/squash.go:16-46", "pkg/squash/vfs.go:200-222"]}
{"id": "C136", "title": "An interrupted `layer gobuild --output` can be repeated", "statement": "If `ocibuild layer gobuild --output=FILE` is killed or fails at any point, repeating it (with the same or other programs) succeeds and FILE then holds the layer of the programs as they are now; a run that exits with status 0 never leaves part of an earlier layer, whatever runs were interrupted before.", "quantifier": "all layers, all points of interruption down to the single byte, all histories of interrupted and complete runs with programs that change in between", "why_tests_cant": "A test does not kill the program after each possible byte; what the next run makes of the beginning of an archive depends on where it was cut.", "anchors": ["cmd_layer_gobuild.go:44-80", "pkg/fsutil/diff.go:46-102", "pkg/fsutil/open.go", "pkg/fsutil/write.go"]}
{"id": "C137", "title": "Versions and files that are not selected do not matter", "statement": "If Select returns a version, or SelectWheel a file, it returns the same (up to versions that compare equal, and files that share version, rank of the tags and build tag) when choices that were not selected are removed, repeated or listed in another order; so publishing a further file leads to that file or changes nothing.", "quantifier": "all specifiers, all lists of versions and files, all parts of them that have the selected one, all exclusion behaviours (for Select), every algorithm for sort.Slice", "why_tests_cant": "It compares the results for a list and for every part of it; tests compare few lists. The failures found need three files in a particular relation.", "anchors": ["pkg/python/pep440/02_version_specifiers.go:624-649", "pkg/python/pypa/simple_repo_api/pypa_repo_api.go:43-106", "pkg/python/pep592/yank.go:21-40"]}
{"id": "C138", "title": "Order and repetition of layers matter only where the layers overlap", "statement": "For images in which no entry lies below a symlink: two neighbouring layers that get along (neither removes or replaces what the other brings; they may share directories and equal files) can change places; a layer that is put on again, directly or after layers that get along with it, changes nothing; a layer all of whose entries the next one has again can be left out. Loading gives the same files each time, and squashing (if no symlink leads to /) the same entries in the same order, apart from whiteout markers.", "quantifier": "all layers, with any whiteouts, between any layers below and above", "why_tests_cant": "The laws relate the results for two stacks, for all of them; tests look at single stacks.", "anchors": ["pkg/squash/squash.go:14-70", "pkg/squash/vfs.go", "pkg/squash/readlayer.go"]}
{"id": "C139", "title": "The file attribute constants are Python's", "statement": "For every attribute of Python's stat module (FILE_ATTRIBUTE_*) that the package has a constant for, and every attribute word, testing the word against the package's constant tells whether the attribute is set; and StatFileAttribute.ToDOS keeps exactly the attributes read-only, hidden, system, directory and archive, as they were.", "quantifier": "all 32-bit attribute words, all attributes that have a constant", "why_tests_cant": "The constants are exported and not used or tested in the repository; there are 2^32 words.", "anchors": ["pkg/python/stat.go: StatFileAttribute and its constants, ToDOS", "pkg/python/zip.go: DOSAttribute constants"]}
{"id": "C140", "title": "Wheels and layers that share only directories do not disturb each other in an image", "statement": "Put on top of an image one after the other, layers as the repository makes them (trees of files with entries for all directories, parents first) that share nothing but directories: every file of every layer is in the image with its type, mode, size, link and content and can be opened, nothing is below it, directories are directories, and all else is as it was; in any other order the image has the same files. For ordinary wheels installed by 'ocibuild layer wheel', possibly at different times and with different platforms, each wheel's RECORD is in the image, each of its rows is that of a file that is in the image as the wheel's layer has it, and every file that is new in the image, or another than before, has a row in the RECORD of the wheel it comes from.", "quantifier": "all images with symlinks as in C98 and C99, all finite lists of such layers or wheels, all orders, all schedules of the installations", "why_tests_cant": "The number of layers, what they share and their order are unbounded, and the base image is arbitrary.", "anchors": ["cmd_layer_wheel.go: RunE", "pkg/python/pypa/bdist/binary_distribution_format.go: InstallWheel", "pkg/python/pypa/recording_installs/recording_installs.go: Record", "pkg/squash/squash.go: loadLayers", "pkg/squash/vfs.go"]}
{"id": "C141", "title": "No failure is lost", "statement": "For the functions that make, load, compare, dump and write layers, the command 'ocibuild layer gobuild', the repository client's GET and InstallWheel with the hooks of 'ocibuild layer wheel': whatever fails during a run (opening a file, reading, writing, any check or other call, closing), the function returns no error if and only if nothing failed but the closing of files that were only read and whose closing error the code does not look at (the wheel and what is read from it to check and record it; layers that are loaded). So when it returns no error, everything was opened, read and written, and every file that was written has been closed successfully.", "quantifier": "all runs: every combination of failing calls, all numbers of files, rows, scripts, sources, layers and entries", "why_tests_cant": "The failing calls can be combined in unboundedly many ways and tests rarely make a close or a late read fail.", "anchors": ["pkg/fsutil/fileref.go: LayerFromFileReferences", "pkg/fsutil/write.go: WriteLayer", "pkg/fsutil/diff.go: LayersEqualExceptTimestamps", "pkg/dir/dir.go: LayerFromDir", "pkg/squash/readlayer.go: parseLayer", "pkg/python/py_compile.go: ExternalCompiler", "pkg/python/pypa/bdist/binary_distribution_format.go: InstallWheel, integrityCheck", "pkg/python/pep503/simple_repo_api.go: get", "pkg/testutil/diff.go", "cmd_layer_gobuild.go: RunE"]}
{"id": "C142", "title": "Layers that share only directories can be squashed before they are put on an image", "statement": "Layers as the repository makes them that share nothing but directories, squashed into one ('ocibuild layer squash') and that layer put in their place, give the same image as the layers one after the other: at every path without markers the same header and content. So every file of every layer is in the image as its layer has it and can be opened, and all else is as in the image below. This holds also over images with symlinks that lead elsewhere and under further layers that change their files.", "quantifier": "all images with symlinks as in C98 and C99 whose root is a directory, all finite lists of such layers below and above, all map iteration orders and sorting algorithms", "why_tests_cant": "The number of layers, what they share, the base image and the layers above are unbounded; tests squash a few fixed layers.", "anchors": ["pkg/squash/squash.go: Squash, loadLayers", "pkg/squash/vfs.go: WriteTo", "cmd_layer_squash.go: RunE", "README.md"]}
{"id": "C143", "title": "The comparison of layers in tests fails exactly for different layers", "statement": "AssertEqualLayers returns true and reports nothing if the two layers hold the same headers and contents in the same order and the same bytes behind the end of the archive, and otherwise it returns false and fails the test, whatever is printed as their difference. It returns true only if everything could be read from both layers, each time: a layer that cannot be opened, read to its end or closed fails the test.", "quantifier": "all pairs of layers, all combinations of failing reads, all outputs of the diff library", "why_tests_cant": "The tests of the repository rely on this function: a pair of different layers that it lets pass hides a bug, and there are unboundedly many pairs.", "anchors": ["pkg/testutil/diff.go: AssertEqualLayers, DumpLayerFull, DumpLayerListing"]}
{"id": "C144", "title": "Help says everything at every terminal width", "statement": "--help of every command prints, whatever COLUMNS holds (not a number, 0, negative, beyond 64 bits) and whatever the terminal is, and the words printed are exactly those of the usage line, the short and long text, aliases, examples, available commands, flags, topics and footer, in this order: the width changes white space only. The width is COLUMNS if that is a number, else the terminal's, 80 if it is unknown, and without a terminal nothing is wrapped, so the long text is printed as written. On a terminal of at least 40 columns where the names and the lines printed as they are fit and no described word is longer than 17 bytes, no line is longer than the terminal is wide.", "quantifier": "all commands (texts, subcommands, flags), all values of COLUMNS, all terminal sizes", "why_tests_cant": "The tests of the template run at one width; texts, names and widths are unbounded, and widths near the limits of int are never tried.", "anchors": ["pkg/cliutil/cobra_tmpl.go: HelpTemplate", "pkg/cliutil/term.go: GetTerminalWidth", "pkg/cliutil/borrowed_pflag.go: wrap", "pkg/cliutil/wordwrap.go"]}
{"id": "C145", "title": "What %#v prints for a version is a Go expression for exactly that version", "statement": "The text GoString gives for a public version or a version with a local part is a Go expression whose value is that version: composite literals with the fields by name, numbers, interpreted string literals with every character escaped where it has to be, nil or a pointer for each optional part. A text is such an expression for one version at most, so two versions are printed the same by %#v if and only if they are equal in every field (String, in contrast, prints the local labels 1 and \"1\" alike).", "quantifier": "all versions, also ones ParseVersion never gives: negative numbers, empty releases, letters and local labels with quotes, backslashes, control characters or any other characters", "why_tests_cant": "The texts are only looked at when a test fails; letters and labels are arbitrary strings, and that no two versions look the same is a statement about all pairs.", "anchors": ["pkg/python/pep440/01_version_scheme.go: PublicVersion.GoString", "pkg/python/pep440/01_version_scheme.go: LocalVersion.GoString"]}
{"id": "C146", "title": "Two copies of a directory give the same layer", "statement": "Take two directories with the same names, where corresponding names have the same content and attributes (type, mode, owner, link target) and the same names are hard links of each other. LayerFromDir, with the same prefix, ownership and clamp time, makes of them layers that are the same when read if and only if corresponding modification times are the same after being limited to the clamp time and rounded to seconds; in particular if all files are modified at or after the clamp time, as in a fresh checkout. Where the directories are, inode numbers, access times and change times do not matter. If the tar writer's ability to write a header does not depend on times, a layer can be made of both directories or of neither.", "quantifier": "all pairs of directory trees, prefixes, ownerships, clamp times and sets of headers that the tar writer accepts", "why_tests_cant": "A test compares a few trees on one host; inode numbers, time stamps and link structures of all pairs of trees are not enumerable.", "anchors": ["pkg/dir/dir.go:34-169", "cmd_layer_dir.go:21-35"]}
{"id": "C147", "title": "A layer can be made exactly if everything in it can be read and written", "statement": "LayerFromDir returns a layer, rather than an error, if and only if walking the directory reports no error, the headers of the directories leading to the prefix can be written, and for every file of the tree other than the root: its attributes can be turned into a header; if an earlier name of the same file was seen, a hard link entry to the first such name can be written, and neither the target nor the content of the file is needed; otherwise its header (with its name under the prefix, clamped times, and for a symlink the target, which must be readable) can be written and, for a regular file, its content can be read and has the announced size. LayerFromFileReferences returns a layer if and only if this holds for each reference, in whatever order they are given. So one bad file always makes the call fail, and a call never fails for any other reason.", "quantifier": "all directory trees, prefixes, ownerships, clamp times, lists of file references, sort implementations and sets of headers that the tar writer accepts", "why_tests_cant": "A test provokes a few errors in a few trees; that no combination of good files fails and that no bad file at any place is passed over is a statement about all trees.", "anchors": ["pkg/dir/dir.go:34-169", "pkg/fsutil/fileref.go:26-95"]}
{"id": "C148", "title": "Every sound wheel is installed", "statement": "InstallWheel, and the command `ocibuild layer wheel`, return a layer, and neither an error nor a panic, for every wheel with which nothing is wrong, in whatever order they visit their maps: if the platform has an interpreter and proper absolute directories; the wheel has one .dist-info directory with a RECORD that is true and complete and a WHEEL file with a version up to 1; every file of its .data directory is of one of the five kinds; every file can be read, has the size that the archive says and a name without NUL; no two files are for the same place and none would be moved twice; the byte-code compiler succeeds on the installed files of the wheel whose names end in .py, the hook on readable regular files and directories, and both produce such; and the tar writer accepts plain headers of regular files and directories. For the command, whose hooks are in the model, instead of the condition on the hook: names do not lead upwards, and entry_points.txt, if there is one, is a valid configuration in which every script is a function reference and no two scripts are for the same place.", "quantifier": "all wheels, platforms, orders of visiting maps, sort implementations, hash functions, compilers, hooks and clamp times that meet the stated conditions", "why_tests_cant": "Tests install some wheels. That no sound wheel is refused, whatever its files, shebangs and names and whatever order Go's maps happen to have, is a statement about all of them.", "anchors": ["pkg/python/pypa/bdist/binary_distribution_format.go:88-445", "pkg/python/pypa/bdist/ioutil.go:43-130", "pkg/python/pypa/entry_points/entry_points.go:48-119", "pkg/python/pypa/recording_installs/recording_installs.go:30-148", "cmd_layer_wheel.go:82-95"]}
{"id": "C149", "title": "A newer repository is reported, and only a newer one", "statement": "When a page of the index is read (ListPackages, ListFiles, ListPackageFiles, getwheel), exactly one warning that names the declared version is logged if the page is used and declares a version newer than the client's 1.0 (major number 1, minor number above 0); no warning is logged for a page that declares 1.0 or an older version or none, nor for a page that is refused (a greater major number, or a version that cannot be read).", "quantifier": "all pages, all declared versions, all answers of the server", "why_tests_cant": "infinitely many pages and versions; the rule compares two numbers of the version separately", "anchors": ["pkg/python/pep629/simple_api_versions.go: HTMLVersionCheck, GetVersion", "pkg/python/pep503/simple_repo_api.go: getHTML5Index", "pkg/python/pypa/simple_repo_api/pypa_repo_api.go: NewClient"]}
{"id": "C150", "title": "Without EmptyLinesInValues, empty lines separate options", "statement": "A strict ConfigParser with EmptyLinesInValues switched off (as Python's configparser with empty_lines_in_values=False, which it mimics) ends every value at an empty line or a line with only a comment: the next line that says something begins an option or a section, however it is indented. Parse succeeds exactly for the texts that are documents in this sense without repeated sections and options, and gives what they say.", "quantifier": "all texts; all delimiters of one character, comment prefixes and key transformations", "why_tests_cant": "infinitely many texts; what a line means depends on the indentation of lines before it", "anchors": ["pkg/python/configparser.go: ConfigParser.Parse, EmptyLinesInValues"]}
{"id": "C151", "title": "Inline comments can be left out", "statement": "If a ConfigParser has InlineCommentPrefixes, a comment begun by one of them at the start of a line or behind white space says nothing: Parse gives for the text what it gives, without inline comments, for the text from which they are removed, lines with nothing else being left out. What only contains such a character, without white space before it, is no comment and stays (as in Python's configparser, which it mimics: inline comments have to be preceded by white space).", "quantifier": "all texts; all inline comment prefixes of one character that is not white space, delimiters of one character, comment prefixes and key transformations", "why_tests_cant": "infinitely many texts, and several prefixes can occur on a line, inside and outside of comments", "anchors": ["pkg/python/configparser.go: ConfigParser.Parse, InlineCommentPrefixes"]}
{"id": "C152", "title": "Interpolation does not depend on the order of a map", "statement": "If a ConfigParser has an Interpolate function, Parse gives the sections and options of the text, every value being what the function makes of it in the configuration as it is written, and fails exactly if the text cannot be read or the function fails on a value. The result does not depend on the order in which Go goes over the maps. With NoInterpolation the values stay as they are read.", "quantifier": "all texts, all Interpolate functions, all orders of map iteration; all strict parsers with empty lines in values, no inline comments and delimiters of one character", "why_tests_cant": "the order of map iteration is random and cannot be controlled in a test; functions and texts are infinitely many", "anchors": ["pkg/python/configparser.go: ConfigParser.Parse, Interpolate, NoInterpolation"]}
{"id": "C153", "title": "Without Strict, the last value of an option holds", "statement": "A ConfigParser with Strict switched off accepts exactly the texts that are documents, also if sections and options are repeated. The sections it gives are those of the text, parts with the same name being one section, and an option of a section has the value that is given last for it; no other options appear and none is lost. A text that the strict parser accepts means the same without Strict.", "quantifier": "all texts; all delimiters of one character, comment prefixes and key transformations", "why_tests_cant": "infinitely many texts; repetitions can be anywhere, and between them other sections", "anchors": ["pkg/python/configparser.go: ConfigParser.Parse, Strict"]}
