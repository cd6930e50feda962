{
 "claims": [
  {
   "property": "C01",
   "status": "partial",
   "theorems": [
    "Pep440.C01_total_preorder_partial",
    "Pep440.C01_refl",
    "Pep440.C01_violated_local",
    "Pep440.C01_violated_post",
    "Pep440.C01_violated_trans"
   ],
   "note": "Order laws proved for all parsed versions without a component at the edge of the machine range; without that proviso the claim is false (three counterexamples reachable through ParseVersion: local numbers wrap to int32, post number 2^63-1 overflows)."
  },
  {
   "property": "C02",
   "status": "proved",
   "theorems": [
    "Pep440.C02_pep440_order",
    "Pep440.C02_parsed_covered"
   ],
   "note": "For all well-formed versions; every parsed version not at the machine edge is well-formed."
  },
  {
   "property": "C03",
   "status": "proved",
   "theorems": [
    "Pep440.C03_padding_and_spelling"
   ],
   "note": ""
  },
  {
   "property": "C04",
   "status": "partial",
   "theorems": [
    "Pep440.C04_parse_print_parse_partial",
    "Pep440.C04_exact",
    "Pep440.C04_violated"
   ],
   "note": "Proved unless a numeric local segment is 2^31 or more; then the claim is false (counterexample 1+2147483648). C04_exact: it comes back if and only if no local segment is a negative number, and otherwise the text printed is no version."
  },
  {
   "property": "C05",
   "status": "proved",
   "theorems": [
    "Pep440.C05_canonical_accepted"
   ],
   "note": ""
  },
  {
   "property": "C06",
   "status": "partial",
   "theorems": [
    "Pep440.C06_normalize_partial",
    "Pep440.C06_exact",
    "Pep440.C06_violated",
    "Pep440.C06_violated_order"
   ],
   "note": "Idempotence proved unless a local number wrapped negative (false then, counterexample; C06_exact is an iff); order preservation proved for well-formed versions with canonical local label, and false for values with capital letters in it (counterexample)."
  },
  {
   "property": "C07",
   "status": "proved",
   "theorems": [
    "Pep440.C07_string_injective"
   ],
   "note": ""
  },
  {
   "property": "C08",
   "status": "proved",
   "theorems": [
    "Pep440.C08_case_space_v"
   ],
   "note": "Whitespace is the regexp class \\s (tab, LF, FF, CR, space)."
  },
  {
   "property": "C09",
   "status": "proved",
   "theorems": [
    "Pep440.C09_conjunction"
   ],
   "note": ""
  },
  {
   "property": "C10",
   "status": "proved",
   "theorems": [
    "Pep440.C10_complements"
   ],
   "note": ""
  },
  {
   "property": "C11",
   "status": "proved",
   "theorems": [
    "Pep440.C11_compatible"
   ],
   "note": ""
  },
  {
   "property": "C12",
   "status": "proved",
   "theorems": [
    "Pep440.C12_strict_match"
   ],
   "note": ""
  },
  {
   "property": "C13",
   "status": "proved",
   "theorems": [
    "Pep440.C13_prefix_match",
    "Pep440.C13_local_dev_irrelevant"
   ],
   "note": ""
  },
  {
   "property": "C14",
   "status": "partial",
   "theorems": [
    "Pep440.C14_exclusive_partial",
    "Pep440.C14_exact_lt",
    "Pep440.C14_exact_gt",
    "Pep440.C14_violated_lt",
    "Pep440.C14_violated_gt"
   ],
   "note": "The code does not implement the PEP 440 exclusions; proved what it does, and counterexamples to the claim. C14_exact_lt and C14_exact_gt say for which versions it fails: for all post-releases and local versions of V, and for all pre-releases of V but developmental releases of later post-releases."
  },
  {
   "property": "C15",
   "status": "partial",
   "theorems": [
    "Pep440.C15_inclusive_partial",
    "Pep440.C15_exact",
    "Pep440.C15_violated"
   ],
   "note": ">= ignores local labels; <= does unless the public versions are equal, where the claim is false (counterexample; C15_exact is an iff)."
  },
  {
   "property": "C16",
   "status": "partial",
   "theorems": [
    "Pep440.C16_operators_partial",
    "Pep440.C16_prefix",
    "Pep440.C16_violated",
    "Pep440.C16_exact_partial"
   ],
   "note": "True for ~= == != <= >= and the .* forms; false for < and > (counterexample). C16_exact_partial: for < and > directly before a version text (without U+017F and U+212A) the clause comes out right if and only if the text starts with a blank, v or V, or a zero that another digit follows."
  },
  {
   "property": "C17",
   "status": "partial",
   "theorems": [
    "Pep440.C17_print_parse_partial",
    "Pep440.C17_violated_prefix",
    "Pep440.C17_violated_lt",
    "Pep440.C17_exact",
    "Pep440.C17_single"
   ],
   "note": "True for ~= == != <= >=; false for .*, < and > (counterexamples). Exact: C17_exact says which specifiers are read back as the same clauses, C17_single says of one clause when what it prints matches the same versions: never for .*, < and >."
  },
  {
   "property": "C18",
   "status": "partial",
   "theorems": [
    "Pep440.C18_no_panic_partial",
    "Pep440.C18_exact",
    "Pep440.C18_violated"
   ],
   "note": "Panics only for a part that is just < or >; it does panic there (counterexample). C18_exact is an iff."
  },
  {
   "property": "C19",
   "status": "proved",
   "theorems": [
    "Pep440.C19_select_membership"
   ],
   "note": ""
  },
  {
   "property": "C20",
   "status": "partial",
   "theorems": [
    "Pep440.C20_select_preference_partial",
    "Pep440.C20_violated"
   ],
   "note": "The test is inverted in the code: exact behaviour proved, and a counterexample to the claim; the claim holds for a nil exclusion behaviour."
  },
  {
   "property": "C21",
   "status": "proved",
   "theorems": [
    "Pep440.C21_select_order_independent"
   ],
   "note": ""
  },
  {
   "property": "C22",
   "status": "proved",
   "theorems": [
    "Pep440.C22_equal_versions_same_clauses"
   ],
   "note": ""
  },
  {
   "property": "C23",
   "status": "proved",
   "theorems": [
    "Pep440.C23_excluders"
   ],
   "note": ""
  },
  {
   "property": "C24",
   "status": "proved",
   "theorems": [
    "Pep345.C24_requires_python",
    "Pep345.C24_lt_rejects_prereleases"
   ],
   "note": ""
  },
  {
   "property": "C25",
   "status": "proved",
   "theorems": [
    "Pep345.C25_requires_python_eq"
   ],
   "note": ""
  },
  {
   "property": "C26",
   "status": "proved",
   "theorems": [
    "Pep345.C26_parse"
   ],
   "note": ""
  },
  {
   "property": "C27",
   "status": "proved",
   "theorems": [
    "Pep425.C27_decompress"
   ],
   "note": ""
  },
  {
   "property": "C28",
   "status": "proved",
   "theorems": [
    "Pep425.C28_intersect"
   ],
   "note": ""
  },
  {
   "property": "C29",
   "status": "proved",
   "theorems": [
    "Pep425.C29_preference"
   ],
   "note": ""
  },
  {
   "property": "C30",
   "status": "proved",
   "theorems": [
    "Pep425.C30_round_trip"
   ],
   "note": ""
  },
  {
   "property": "C31",
   "status": "partial",
   "theorems": [
    "Bdist.C31_round_trip_partial",
    "Bdist.C31_exact",
    "Bdist.C31_parsed_versions",
    "Bdist.C31_violated"
   ],
   "note": "Proved unless the normalised version has a negative numeric local segment (32-bit wrap-around); then the claim is false (counterexample). C31_exact: an iff; otherwise the name generated is no wheel name at all."
  },
  {
   "property": "C32",
   "status": "proved",
   "theorems": [
    "Bdist.C32_build_order"
   ],
   "note": ""
  },
  {
   "property": "C33",
   "status": "partial",
   "theorems": [
    "Repo.C33_selected_wheel_partial",
    "Repo.C33_violated"
   ],
   "note": "Proved with 'same version' meaning equal components; false for versions that only compare equal, 1.0 and 1.0.0 (counterexample)."
  },
  {
   "property": "C34",
   "status": "partial",
   "theorems": [
    "Repo.C34_exact_partial",
    "Repo.C34_avoids_yanked_partial",
    "Repo.C34_violated"
   ],
   "note": "Exact behaviour proved; yanked versions are avoided when no matching wheel is a pre-release; pre-releases are not avoided (counterexample)."
  },
  {
   "property": "C35",
   "status": "partial",
   "theorems": [
    "Repo.C35_lowest_build_partial",
    "Repo.C35_violated"
   ],
   "note": "The code takes the lowest build tag: proved for any sorting algorithm, and a counterexample to the claim."
  },
  {
   "property": "C36",
   "status": "proved",
   "theorems": [
    "Repo.C36_normalize"
   ],
   "note": ""
  },
  {
   "property": "C37",
   "status": "proved",
   "theorems": [
    "Repo.C37_one_element"
   ],
   "note": ""
  },
  {
   "property": "C38",
   "status": "partial",
   "theorems": [
    "Repo.C38_checksums_partial",
    "Repo.C38_exact",
    "Repo.C38_violated"
   ],
   "note": "Proved when every part of the URL fragment decodes; one undecodable part switches all checks off (counterexample). C38_exact is an iff without any condition on the URL."
  },
  {
   "property": "C39",
   "status": "proved",
   "theorems": [
    "Repo.C39_filter",
    "Repo.C39_fetched"
   ],
   "note": "C39_fetched: for ListPackageFiles, with the request it makes. (FileLink lists that are got with ListFiles are not filtered.)"
  },
  {
   "property": "C40",
   "status": "proved",
   "theorems": [
    "Repo.C40_version_check"
   ],
   "note": ""
  },
  {
   "property": "C41",
   "status": "proved",
   "theorems": [
    "Bdist.C41_exact",
    "Bdist.C41_directories"
   ],
   "note": "Exact: the check passes iff the stated condition holds, for all archives, digests and CSV readers; which entries count as directories is characterised too. ZIP, CSV and the hashes themselves are parameters."
  },
  {
   "property": "C42",
   "status": "partial",
   "theorems": [
    "Bdist.C42_verified_partial",
    "Bdist.C42_violated",
    "Bdist.C42_violated_directory"
   ],
   "note": "The code violates the property in two ways: of two files with the same name the first is checked and the last installed; and a file marked as a directory whose name does not end in '/' is installed unchecked. Proved for all archives without these two, for all orders of the loops."
  },
  {
   "property": "C43",
   "status": "partial",
   "theorems": [
    "Bdist.C43_inside_partial",
    "Bdist.C43_violated"
   ],
   "note": "The code violates the property: an archive name with '..' is installed outside the scheme although it passes the integrity check (C43_violated). Proved for all archives in which no name leads upwards, clean absolute scheme directories and compilers that write into them, for all orders of the loops."
  },
  {
   "property": "C44",
   "status": "partial",
   "theorems": [
    "Bdist.C44_order_partial",
    "Bdist.C44_violated"
   ],
   "note": "The code violates the property: with purelib = platlib, files for the same place in both data directories give layers that depend on the order a map is visited. Proved for all archives in which no two files go to the same place, and compilers and hooks that do not depend on the order themselves."
  },
  {
   "property": "C45",
   "status": "proved",
   "theorems": [
    "Bdist.C45_installed",
    "Bdist.C45_unknown_kind"
   ],
   "note": "The exact contents of the map after installation, for every order of the loops, under the condition the property states (no two files go to the same place, compiler independent of order); an unknown data directory is an error for every archive."
  },
  {
   "property": "C46",
   "status": "partial",
   "theorems": [
    "Bdist.C46_parents_partial",
    "Bdist.C46_loop",
    "Bdist.C46_rooted_name_hangs",
    "Bdist.C46_violated"
   ],
   "note": "For the layers InstallWheel returns, all iteration orders (including visits of entries added on the way), all scheme directories other than '/' and ones beginning with '//', and compilers and hooks that keep names relative. A directory '//l' is accepted by Platform.Init and makes InstallWheel run for ever (C46_violated)."
  },
  {
   "property": "C47",
   "status": "proved",
   "theorems": [
    "Bdist.C47_rewrite",
    "Bdist.C47_stream",
    "Bdist.C47_stream_ends",
    "Bdist.C47_short",
    "Bdist.C47_resumes"
   ],
   "note": "Map-level effect for every order, and the skipping reader for every chunking."
  },
  {
   "property": "C48",
   "status": "proved",
   "theorems": [
    "Bdist.C48_max_time",
    "Bdist.C48_no_times",
    "Bdist.C48_not_clamped"
   ],
   "note": ""
  },
  {
   "property": "C49",
   "status": "proved",
   "theorems": [
    "Bdist.C49_modes",
    "Bdist.C49_names",
    "Bdist.C49_rename"
   ],
   "note": ""
  },
  {
   "property": "C50",
   "status": "proved",
   "theorems": [
    "Bdist.C50_dist_info"
   ],
   "note": ""
  },
  {
   "property": "C51",
   "status": "proved",
   "theorems": [
    "Bdist.C51_record",
    "Bdist.C51_paths",
    "Bdist.C51_order",
    "Bdist.C51_error",
    "Bdist.C51_rewritten_scripts"
   ],
   "note": "For all file sets, iteration orders and sorting functions. Hashes, CSV writing are parameters. C51_rewritten_scripts shows the documented exception. Hypotheses: no name leads upwards, and there is no RECORD yet (the installer removes it)."
  },
  {
   "property": "C52",
   "status": "partial",
   "theorems": [
    "Bdist.C52_error",
    "Bdist.C52_scripts",
    "Bdist.C52_each_partial",
    "Bdist.C52_order",
    "Bdist.C52_place",
    "Bdist.C52_config",
    "Bdist.C52_violated",
    "Bdist.C52_violated_order",
    "Bdist.C52_violated_outside"
   ],
   "note": "C52_error and C52_scripts are exact and unconditional. The code violates the property in three ways: 'm:o.f' gives 'from m import o.f', which is not Python; a script in both sections gets an interpreter that depends on map order; a name with '..' is put outside the scripts directory."
  },
  {
   "property": "C53",
   "status": "proved",
   "theorems": [
    "Fsutil.C53_order_independent"
   ],
   "note": "For every input order and every sorting algorithm that meets sort.Slice's contract."
  },
  {
   "property": "C54",
   "status": "proved",
   "theorems": [
    "Fsutil.C54_directories_first",
    "Fsutil.C54_entries_are_the_files"
   ],
   "note": ""
  },
  {
   "property": "C55",
   "status": "partial",
   "theorems": [
    "Fsutil.C55_clamped_refs_partial",
    "Fsutil.C55_clamped_dir_partial",
    "Fsutil.C55_written_rounded",
    "Fsutil.C55_violated"
   ],
   "note": "Proved for the headers handed to the tar writer. The tar writer then rounds to the second, so the time in the layer can exceed the clamp time by up to half a second (C55_violated), though not when that is a whole second (C55_written_rounded)."
  },
  {
   "property": "C56",
   "status": "partial",
   "theorems": [
    "Fsutil.C56_readers_partial",
    "Fsutil.C56_violated"
   ],
   "note": "Proved for all chunkings; a reader failing with io.ErrUnexpectedEOF is taken for one that ended (C56_violated)."
  },
  {
   "property": "C57",
   "status": "partial",
   "theorems": [
    "Fsutil.C57_sound",
    "Fsutil.C57_exact_partial",
    "Fsutil.C57_exact",
    "Fsutil.C57_error_only_if_unreadable",
    "Fsutil.C57_equivalence",
    "Fsutil.C57_violated"
   ],
   "note": "ChangeTime is compared (C57_violated); exactness is proved for layers without differing change times, soundness, errors and the equivalence-relation laws for all; C57_exact says what is compared, for all layers that can be read."
  },
  {
   "property": "C58",
   "status": "partial",
   "theorems": [
    "Fsutil.C58_kept_sound",
    "Fsutil.C58_rewritten_iff_partial",
    "Fsutil.C58_exact",
    "Fsutil.C58_unreadable",
    "Fsutil.C58_violated"
   ],
   "note": "As C57."
  },
  {
   "property": "C59",
   "status": "proved",
   "theorems": [
    "Fsutil.C59_prefix",
    "Fsutil.C59_ends",
    "Fsutil.C59_no_prefix",
    "Fsutil.C59_absolute_never_ends",
    "Fsutil.C59_ends_iff",
    "Fsutil.C59_spelling"
   ],
   "note": "Also: with an absolute prefix, outside the property, the call never returns."
  },
  {
   "property": "C60",
   "status": "partial",
   "theorems": [
    "Fsutil.C60_chown_ignored",
    "Fsutil.C60_violated",
    "Fsutil.C60_owned_partial"
   ],
   "note": "The code violates the property: the result does not depend on the chown argument at all (proved for all inputs), with a counterexample. What is left is proved: entries have the requested owner when the files have it."
  },
  {
   "property": "C61",
   "status": "proved",
   "theorems": [
    "Fsutil.C61_hardlinks"
   ],
   "note": ""
  },
  {
   "property": "C62",
   "status": "partial",
   "theorems": [
    "Squash.C62_squash_partial",
    "Squash.C62_load_partial",
    "Squash.C62_violated",
    "Squash.C62_violated_symlink",
    "Squash.C62_violated_header"
   ],
   "note": "The code violates the property (three counterexamples: a directory removed and re-created, an opaque marker that goes through a base symlink, a file replaced by an undescribed directory). Proved for all other stacks in which no entry lies below a symlink's path and markers are well-formed, over every base."
  },
  {
   "property": "C63",
   "status": "proved",
   "theorems": [
    "Squash.C63_rejected",
    "Squash.C63_names"
   ],
   "note": "Rejection for Load and Squash; names of all entries of a squashed layer, for all layers including those with symlinks."
  },
  {
   "property": "C64",
   "status": "partial",
   "theorems": [
    "Squash.C64_canonical_partial",
    "Squash.C64_deterministic",
    "Squash.C64_violated"
   ],
   "note": "Determinism is proved for all layers. Canonical order, no repeated name and parents first are proved when no symlink's target is \"/\"; with such a symlink the code writes a file twice (C64_violated)."
  },
  {
   "property": "C65",
   "status": "partial",
   "theorems": [
    "Squash.C65_no_children",
    "Squash.C65_squash_partial",
    "Squash.C65_violated"
   ],
   "note": "Proved for the loaded tree for all layers. For the names in a squashed layer it needs that no symlink's target is \"/\" (C65_violated shows the failure otherwise)."
  },
  {
   "property": "C66",
   "status": "proved",
   "theorems": [
    "Squash.C66_view",
    "Squash.C66_last_wins",
    "Squash.C66_mentioned"
   ],
   "note": "Proved more generally: symlinks are allowed as long as no entry lies below the path of one."
  },
  {
   "property": "C67",
   "status": "partial",
   "theorems": [
    "Squash.C67_whiteout_partial",
    "Squash.C67_opaque_partial",
    "Squash.C67_only_partial",
    "Squash.C67_violated"
   ],
   "note": "Proved for stacks in which no entry lies below the path of a symlink entry. Without that the code violates the property: a marker is looked up through a symlink that its own layer replaces (C67_violated)."
  },
  {
   "property": "C68",
   "status": "partial",
   "theorems": [
    "Squash.C68_returns_partial",
    "Squash.C68_error_partial",
    "Squash.C68_open_returns_partial",
    "Squash.C68_violated"
   ],
   "note": "The code violates the property: with a symlink a -> a/b Open and Load do not return. Proved exactly when Open returns and when it returns an error (iff), for straight symlink targets: path resolution ends at a file, at a missing element, at a non-directory, or in a circle of symlinks that name each other. C68_open_returns_partial, for all targets: it returns when no symlink's target passes through another symlink."
  },
  {
   "property": "C69",
   "status": "partial",
   "theorems": [
    "Squash.C69_idempotent_partial",
    "Squash.C69_violated"
   ],
   "note": "Proved up to redundant whiteout markers, for the same stacks as C62; markers can get lost (counterexample)."
  },
  {
   "property": "C70",
   "status": "proved",
   "theorems": [
    "Squash.C70_read",
    "Squash.C70_whole",
    "Squash.C70_missing",
    "Squash.C70_close"
   ],
   "note": ""
  },
  {
   "property": "C71",
   "status": "partial",
   "theorems": [
    "Squash.C71_readDir_partial",
    "Squash.C71_fails",
    "Squash.C71_violated"
   ],
   "note": "Proved for directories whose links can all be followed; with a dangling link a failing ReadDir leaves a partial listing behind (C71_violated). C71_fails: what happens then, for all such directories."
  },
  {
   "property": "C72",
   "status": "proved",
   "theorems": [
    "Python.C72_py_round_trip",
    "Python.C72_go_round_trip",
    "Python.C72_kind",
    "Python.C72_bits"
   ],
   "note": "C72_bits says for every bit of the result what it is, with the positions as numbers."
  },
  {
   "property": "C73",
   "status": "proved",
   "theorems": [
    "Python.C73_parse_raw",
    "Python.C73_raw_parse"
   ],
   "note": ""
  },
  {
   "property": "C74",
   "status": "proved",
   "theorems": [
    "Python.C74_string"
   ],
   "note": ""
  },
  {
   "property": "C75",
   "status": "proved",
   "theorems": [
    "Python.C75_parse",
    "Python.C75_before_section",
    "Python.C75_comments",
    "Python.C75_usual"
   ],
   "note": "For strict parsers with no inline comments and one-character delimiters, as used everywhere in the repository: an exact characterisation of the accepted texts and their configurations by a separate grammar."
  },
  {
   "property": "C76",
   "status": "partial",
   "theorems": [
    "Python.Json.C76_exact_partial",
    "Python.Json.C76_white_space_partial",
    "Python.Json.C76_direct_url_partial",
    "Python.Json.C76_violated"
   ],
   "note": "The code violates the property for arrays with an array or object behind their first element ([[1],[2]] becomes [[1][2]]). Exactly these values are excluded (C76_exact_partial is an iff); every DirectURL, the only type jsonDumps is called with, comes out right."
  },
  {
   "property": "C77",
   "status": "proved",
   "theorems": [
    "Python.C77_path_order",
    "Python.C77_with_slash"
   ],
   "note": "For ImageFS; NativeFS only calls the operating system."
  },
  {
   "property": "C78",
   "status": "proved",
   "theorems": [
    "Python.C78_found",
    "Python.C78_python",
    "Python.C78_pythonw"
   ],
   "note": "C78_found for every file system; the other two, which say which file is chosen, for images."
  },
  {
   "property": "C79",
   "status": "proved",
   "theorems": [
    "Cli.C79_config",
    "Cli.C79_no_flags",
    "Cli.C79_command_line"
   ],
   "note": ""
  },
  {
   "property": "C80",
   "status": "proved",
   "theorems": [
    "Cli.C80_words",
    "Cli.C80_no_wrapping"
   ],
   "note": "For indents that are not negative (others make strings.Repeat panic)."
  },
  {
   "property": "C81",
   "status": "proved",
   "theorems": [
    "Cli.C81_same",
    "Cli.C81_exact",
    "Cli.C81_epoch",
    "Cli.C81_clock",
    "Cli.C81_progress"
   ],
   "note": "For all interleavings of any number of goroutines, with sync.Once modelled step by step."
  },
  {
   "property": "C82",
   "status": "partial",
   "theorems": [
    "Python.C82_order_partial",
    "Python.C82_exact",
    "Python.C82_violated",
    "Python.C82_other_level"
   ],
   "note": "The serial number is ignored (C82_violated); the order is proved to agree otherwise (C82_exact is an iff)."
  },
  {
   "property": "C83",
   "status": "proved",
   "theorems": [
    "Bdist.C83_parse_exact",
    "Bdist.C83_reading_unique"
   ],
   "note": ""
  },
  {
   "property": "C84",
   "status": "proved",
   "theorems": [
    "Repo.C84_index_links",
    "Repo.C84_fetched"
   ],
   "note": "C84_fetched: for ListPackages and ListFiles, with the requests they make."
  },
  {
   "property": "C85",
   "status": "proved",
   "theorems": [
    "Cli.C85_fits",
    "Cli.C85_fits_block",
    "Cli.C85_long_word"
   ],
   "note": "C85_long_word shows that the limit on the word length is needed."
  },
  {
   "property": "C86",
   "status": "proved",
   "theorems": [
    "Python.C86_init"
   ],
   "note": "An iff characterisation of Platform.Init."
  },
  {
   "property": "C87",
   "status": "partial",
   "theorems": [
    "Bdist.C87_returns_partial",
    "Bdist.C87_violated",
    "Bdist.C46_violated"
   ],
   "note": "Violated: a file inside two nested data directories makes it panic, and a '//' scheme directory makes it run for ever. Proved for archives in which no two files go to the same place and none is moved twice."
  },
  {
   "property": "C88",
   "status": "proved",
   "theorems": [
    "Bdist.C88_version"
   ],
   "note": ""
  },
  {
   "property": "C89",
   "status": "proved",
   "theorems": [
    "Python.Json.C89_members",
    "Python.Json.C89_recoverable"
   ],
   "note": "Strings are given by their JSON text (any valid string literal). That json.Marshal gives different strings different texts belongs to encoding/json and is not modelled: it is false for strings with invalid UTF-8, which are outside the model."
  },
  {
   "property": "C90",
   "status": "partial",
   "theorems": [
    "Bdist.C90_reproducible_partial",
    "Bdist.C90_returns",
    "Bdist.C90_any_time",
    "Bdist.C90_violated"
   ],
   "note": "The code violates the property: a script declared in both sections of entry_points.txt makes the layer depend on the order a map is visited. Proved for wheels whose files and scripts do not go to the same places, names that do not lead upwards, and compilers that make byte code below the scheme's directories (Spec.Ordinary)."
  },
  {
   "property": "C91",
   "status": "partial",
   "theorems": [
    "Bdist.C91_record_partial",
    "Bdist.C91_violated"
   ],
   "note": "The code violates the property: an entry point named after RECORD, with scripts = purelib, makes RECORD list itself twice. Proved for ordinary wheels (Spec.Ordinary), for every run of the whole command."
  },
  {
   "property": "C92",
   "status": "proved",
   "theorems": [
    "Bdist.C92_compiled"
   ],
   "note": "For every run, whether or not files get into each other's way. The compiler is a parameter."
  },
  {
   "property": "C93",
   "status": "proved",
   "theorems": [
    "Bdist.C93_none",
    "Bdist.C93_single",
    "Bdist.C93_sequence",
    "Bdist.C93_requested",
    "Bdist.C93_direct_url"
   ],
   "note": "Directories are paths without '.', '..' or empty elements, as the installer gives them."
  },
  {
   "property": "C94",
   "status": "partial",
   "theorems": [
    "Bdist.C94_restored_partial",
    "Bdist.C94_compiled_partial",
    "Bdist.C94_order_partial",
    "Bdist.C94_bytes",
    "Bdist.C94_violated",
    "Bdist.C94_violated_directory"
   ],
   "note": "The code violates the property: a source named '../a.py' is written outside of the temporary directory and left there; a directory called '….py' is handed over as a file, so that sources in it cannot be compiled. Proved for all sources whose names do not lead upwards, all commands and hosts. C94_bytes: the compiler meets what C90 and C91 assume."
  },
  {
   "property": "C95",
   "status": "partial",
   "theorems": [
    "Repo.C95_getwheel_partial",
    "Repo.C95_violated"
   ],
   "note": "An iff for what is written, with the exact requests; but checksums count only if the whole fragment of the URL can be decoded (as in C38): with one part that does not decode, a file with a wrong checksum is written (C95_violated). HTTP, HTML parsing and URL resolution are parameters."
  },
  {
   "property": "C96",
   "status": "partial",
   "theorems": [
    "Repo.C96_exact_partial",
    "Repo.C96_violated"
   ],
   "note": "The code violates the property for all servers and links: it requests the file itself and returns it as the signature. The exact behaviour is proved."
  },
  {
   "property": "C97",
   "status": "proved",
   "theorems": [
    "Python.C97_inspect"
   ],
   "note": "An iff. What Python prints and docker are parameters; the shebangs are C78."
  },
  {
   "property": "C98",
   "status": "partial",
   "theorems": [
    "Squash.C98_open_partial",
    "Squash.C98_violated",
    "Squash.C98_violated_root"
   ],
   "note": "An iff, for all loaded file systems in which the targets of symlinks have '..' only in front and are not '/' (or empty). The code violates the property otherwise: targets are cleaned by their text, so a symlink in front of '..' is not followed, and a symlink to '/' cannot be opened."
  },
  {
   "property": "C99",
   "status": "partial",
   "theorems": [
    "Squash.C99_through_partial",
    "Squash.C99_entry_partial",
    "Squash.C99_violated"
   ],
   "note": "For all layer stacks in which symlink targets have '..' only in front and are not '/' (or empty), and no whiteout marker is used as a directory: the loaded file system agrees at every path with applying the entries where path resolution leads, symlinks to nothing leading to directories that are made. The code violates the property for a symlink to '/'."
  },
  {
   "property": "C100",
   "status": "partial",
   "theorems": [
    "Python.C100_stat_partial",
    "Python.C100_lookpath_partial",
    "Python.C100_relative_partial",
    "Python.C100_absolute_partial",
    "Python.C100_found_partial",
    "Python.C100_shebangs_partial",
    "Python.C100_returns_partial",
    "Python.C100_no_panic",
    "Python.C100_violated",
    "Python.C100_violated_unclean"
   ],
   "note": "For all images whose symlink targets have '..' only in front and are not '/' (or empty); C100_returns_partial says when the call returns. The code violates the property for '..' in PATH behind a symlink, which is removed by its text, and for absolute paths with double slashes or dots, which are not found."
  },
  {
   "property": "C101",
   "status": "partial",
   "theorems": [
    "Gobuild.C101_command",
    "Gobuild.C101_layer",
    "Gobuild.C101_succeeds_iff",
    "Gobuild.C101_removed",
    "Gobuild.C101_unchanged",
    "Gobuild.C101_returns",
    "Gobuild.C101_output",
    "Gobuild.C101_rebuild",
    "Gobuild.C101_failure",
    "Gobuild.C101_violated"
   ],
   "note": "All but the owner of the files is proved for all machines. The owner is not root but that of the files, as in C60 (C101_violated). What go build does, os.RemoveAll and the walk over a directory are parameters with their documented behaviour as hypotheses."
  },
  {
   "property": "C102",
   "status": "partial",
   "theorems": [
    "Cli.C102_called",
    "Cli.C102_result",
    "Cli.C102_removed_partial",
    "Cli.C102_others",
    "Cli.C102_reported",
    "Cli.C102_tags",
    "Cli.C102_violated"
   ],
   "note": "The code violates the property: the image is removed with the context of the call, so if that is cancelled the image stays (C102_violated; the error is reported, C102_reported). Proved without cancellation, for all failures. Docker is a parameter with the documented behaviour of load and rm as hypotheses."
  },
  {
   "property": "C103",
   "status": "partial",
   "theorems": [
    "Cli.C103_opener",
    "Cli.C103_opener_missing",
    "Cli.C103_squash",
    "Cli.C103_squash_error",
    "Cli.C103_build",
    "Cli.C103_panics_iff",
    "Cli.C103_no_panic_partial",
    "Cli.C103_same_files_partial",
    "Cli.C103_violated"
   ],
   "note": "What is written, and when, is proved for all machines in which no pipe is given twice. The code violates one part: if layers are missing from the base archive and a flag changes the config, 'image build' panics instead of returning an error (C103_panics_iff: exactly then). That squashing first gives the same files is proved for the layers of C62."
  },
  {
   "property": "C104",
   "status": "partial",
   "theorems": [
    "Onto.C104_added",
    "Onto.C104_refs",
    "Onto.C104_dir_partial",
    "Onto.C104_complete",
    "Onto.C104_dir_links_partial",
    "Onto.C104_violated"
   ],
   "note": "The code violates the property for directories that hold a file named like a whiteout marker: LayerFromDir puts it into the layer as it is, and it removes files of the image below (C104_violated). Proved for all other names, for layers without entries below symlinks (NoThrough), and for layers in which an entry comes after the directories above it, as those of LayerFromDir do, on images with symlinks as in C98 and C99 (C104_complete, C104_dir_links_partial). For a file with several names the further names are hard links (C61), whose type is that of a link."
  },
  {
   "property": "C105",
   "status": "partial",
   "theorems": [
    "Onto.C105_wheel_partial",
    "Onto.C105_links_partial",
    "Onto.C105_violated"
   ],
   "note": "The code violates the property for wheels with a file named like a whiteout marker, which removes a file of the image below (C105_violated). Proved for ordinary wheels (as C91) without such names and without files that have others below them, on images without symlinks above the wheel's files (C105_wheel_partial) and on images with symlinks anywhere as in C98 and C99 (C105_links_partial)."
  },
  {
   "property": "C106",
   "status": "partial",
   "theorems": [
    "Pep440.C106_exact_partial",
    "Pep440.C106_wide_partial",
    "Pep440.C106_iff_partial",
    "Pep440.C106_violated_wrap",
    "Pep440.C106_violated_fold"
   ],
   "note": "The code violates the property for numbers of 2^31 and more in the local label, which wrap (C106_violated_wrap), and accepts U+017F and U+212A in the local label (C106_violated_fold). Proved, in both directions, for all texts without these; and with such numbers that everything else is read right and what becomes of them (C106_wide_partial), so that the result is right exactly if they are below 2^31 (C106_iff_partial). The grammar is specified as relations between a text and what it says (Verif/Pep440/Grammar.lean), independent of the regular expression."
  },
  {
   "property": "C107",
   "status": "partial",
   "theorems": [
    "Pep440.C107_exact_partial",
    "Pep440.C107_wide_partial",
    "Pep440.C107_violated_angle",
    "Pep440.C107_violated_blank"
   ],
   "note": "The code violates the property: a < or > directly before the version loses the version's first character (C107_violated_angle, also C16, C18), and a blank before .* is accepted (C107_violated_blank). Proved, in both directions, for all texts in which < and > are followed by = or a blank and no blank precedes .*, and with the provisos of C106. === is outside the claim: the code refuses it."
  },
  {
   "property": "C108",
   "status": "partial",
   "theorems": [
    "Squash.C108_squash_partial",
    "Squash.C108_violated_order",
    "Squash.C108_violated_replaced",
    "Squash.C108_violated_removed"
   ],
   "note": "The code violates the property: it treats a hard link as an opaque entry and sorts, so a link can come before its target (C108_violated_order), get the content of a file that later replaced the target (C108_violated_replaced) or lose its target (C108_violated_removed). Proved for tame layers (as in C62) in which the target of each hard link is in the layers, stays what it was, and sorts before the link."
  },
  {
   "property": "C109",
   "status": "partial",
   "theorems": [
    "Squash.C109_read_partial",
    "Squash.C109_violated"
   ],
   "note": "The code violates the property: a hard link opens as an empty file (C109_violated). Proved for every file that is not a hard link, in layers with no entries below symlinks whose hard links keep their targets."
  },
  {
   "property": "C110",
   "status": "partial",
   "theorems": [
    "Onto.C110_extract_partial",
    "Onto.C110_violated"
   ],
   "note": "The code violates the property for directories that hold a file named like a whiteout marker (C110_violated; also C104). Proved for all others: extraction (Verif/Squash/HardSpec.lean) resolves hard links when they are extracted and replaces files above an entry by directories; symlinks above entries are not followed."
  },
  {
   "property": "C111",
   "status": "partial",
   "theorems": [
    "Cobra.C111_lines_partial",
    "Cobra.C111_status_partial",
    "Cobra.C111_first",
    "Cobra.C111_violated"
   ],
   "note": "the parser accepts exactly the grammar of Verif/Cli/CobraSpec.lean; violated: a missing required --platform-file exits with 1 although nothing ran, and pflag drops -test.x instead of taking est.x as tag. cobra and pflag are modelled from their documented behaviour"
  },
  {
   "property": "C112",
   "status": "proved",
   "theorems": [
    "Cobra.C112_build",
    "Cobra.C112_switch",
    "Cobra.C112_build_expressible",
    "Cobra.C112_dir_expressible",
    "Cobra.C112_others_expressible"
   ],
   "note": "composes C111 and C79"
  },
  {
   "property": "C113",
   "status": "proved",
   "theorems": [
    "Cobra.C113_complete",
    "Cobra.C113_succeeds"
   ],
   "note": "io.Copy modelled as a loop over reads and writes"
  },
  {
   "property": "C114",
   "status": "partial",
   "theorems": [
    "Squash.C114_whole_partial",
    "Squash.C114_violated"
   ],
   "note": "The code violates the property for symlinks to '/': a whiteout below one does not remove the file (C114_violated). Proved for symlinks with targets as in C98/C99."
  },
  {
   "property": "C115",
   "status": "partial",
   "theorems": [
    "Repo.C115_order_partial",
    "Repo.C115_same_file_partial",
    "Repo.C115_violated"
   ],
   "note": "The code violates the property if versions compare equal but are written differently (1.0 and 1.0.0): the first listed is taken, also when its tag is less preferred. Proved if no two usable files have such versions."
  },
  {
   "property": "C116",
   "status": "partial",
   "theorems": [
    "Testutil.C116_equal",
    "Testutil.C116_equal_passes",
    "Testutil.C116_check_partial",
    "Testutil.C116_violated_missed",
    "Testutil.C116_violated_panic"
   ],
   "note": "Holds for QuickCheckEqual. QuickCheck violates it: it fills every argument of case i with the case's argument number i (tc[i] instead of tc[j]), so a failing case can pass unnoticed and a second case of a function of one argument panics."
  },
  {
   "property": "C117",
   "status": "partial",
   "theorems": [
    "Pep345.C117_exact_partial",
    "Pep345.C117_unambiguous_partial",
    "Pep345.C117_error_partial",
    "Pep345.C117_wide_partial",
    "Pep345.C117_error_wide_partial",
    "Pep345.C117_violated_wrap"
   ],
   "note": "Proved in both directions with the provisos of C106, for which the code violates it likewise (C117_violated_wrap); C117_wide_partial and C117_error_wide_partial drop the proviso on the size of numbers in local labels and say what becomes of large ones."
  },
  {
   "property": "C118",
   "status": "partial",
   "theorems": [
    "Go.Csv.C118_read",
    "Go.Csv.C118_exact",
    "Go.Csv.C118_write",
    "Go.Csv.C118_round_trip",
    "Go.Csv.C118_round_trip_partial",
    "Go.Csv.C118_violated_cr",
    "Go.Csv.C118_violated_lf",
    "Bdist.C118_record_partial",
    "Bdist.C118_checked",
    "Bdist.C118_check_exact",
    "Bdist.C118_violated_record"
   ],
   "note": "The code violates the property: csv.Writer with UseCRLF drops carriage returns and turns line feeds into CRLF, so RECORD names files that are not there (C118_violated_record, _cr), and a name with a line feed is another one for a reader that follows RFC 4180 (C118_violated_lf). Proved for all other names; exactly which texts are read, and as what, is proved for all texts (C118_exact), and so what the check of a wheel's RECORD goes by."
  },
  {
   "property": "C119",
   "status": "partial",
   "theorems": [
    "Onto.C119_reach_partial",
    "Onto.C119_wheel_partial",
    "Onto.C119_dir_partial",
    "Onto.C119_violated"
   ],
   "note": "The code violates the property: the layer has an entry for every directory above its files, and where the image has a symlink in the place of one of them (as lib or bin in images with merged /usr) the directory replaces the symlink, so that what was reached through it is no longer (C119_violated). Proved for all images with symlinks as in C98 and C99 where the layer replaces only files by files and directories by directories."
  },
  {
   "property": "C120",
   "status": "proved",
   "theorems": [
    "Pep440.C120_drawn",
    "Pep440.C120_reached",
    "Pep440.C120_operators"
   ],
   "note": "The random source is a list of numbers, of which every Intn(n) takes the next one modulo n; that covers every sequence of results of Intn."
  },
  {
   "property": "C121",
   "status": "proved",
   "theorems": [
    "Squash.Share.C121_linearizable",
    "Squash.Share.C121_bytes",
    "Squash.Share.C121_listing",
    "Squash.Share.C121_close",
    "Squash.Share.C121_no_deadlock"
   ],
   "note": "Every access to a variable of the handle is a step of its own; accesses are sequentially consistent, as the mutex makes them (C121_linearizable shows that only its holder accesses them). Directories with links that cannot be followed: C71."
  },
  {
   "property": "C122",
   "status": "proved",
   "theorems": [
    "Pep440.C122_final",
    "Pep440.C122_pre",
    "Pep440.C122_parts"
   ],
   "note": "For well-formed versions (C02_parsed_covered: those that parsing returns, unless a number is at the edge of the machine's range)."
  },
  {
   "property": "C123",
   "status": "proved",
   "theorems": [
    "Python.Once.C123_once",
    "Python.Once.C123_no_deadlock"
   ],
   "note": "sync.Once is modelled as the standard library writes it (flag and mutex); each write to a field, each question to the image and each read by a caller is a step. What reading the image from beginning to end gives is imageInit, of which C100 says what it means for LookPath. C123_no_deadlock says that from every reachable state some continuation lets all calls return."
  },
  {
   "property": "C124",
   "status": "partial",
   "theorems": [
    "Squash.Alias.C124_violated",
    "Squash.Alias.C124_assign_partial",
    "Squash.Alias.C124_spares_partial"
   ],
   "note": "Violated for appending: the slices returned keep the capacity of the handle's own listing, so append(result, x) overwrites the entry that the next call is to deliver (in every directory with at least two entries). Proved for assigning to elements, and for appending whenever what is still to come is left as it is."
  },
  {
   "property": "C125",
   "status": "partial",
   "theorems": [
    "Squash.Walk.C125_walk_partial",
    "Squash.Walk.C125_link",
    "Squash.Walk.C125_violated_root",
    "Squash.Walk.C125_violated_dangling",
    "Squash.Walk.C125_violated_mode"
   ],
   "note": "The code violates the property: a walk from '.' ends at once with an error if no layer has an entry for the root, and nothing in a directory is visited if one symlink in it leads to nothing or in a circle; a file whose mode says 'directory' is visited twice, the second time with an error. Proved otherwise, if no symlink's target is '/' and no file's mode says 'directory' where its type does not. fs.WalkDir is modelled from the standard library, with a callback that always returns nil."
  },
  {
   "property": "C126",
   "status": "proved",
   "theorems": [
    "Go.Encode.C126_base64",
    "Go.Encode.C126_hex",
    "Bdist.C126_record",
    "Bdist.C126_plain",
    "Repo.C126_download"
   ],
   "note": "The hash functions are any functions from bytes to bytes; the theorems end in 'or a collision'. base64 and hex are modelled from the standard library and base64 is proved to be that of RFC 4648. Directories, modes, times and order of the archive's entries are not covered by RECORD, and neither are second entries of one name (C42)."
  },
  {
   "property": "C127",
   "status": "partial",
   "theorems": [
    "Squash.Stream.C127_load_partial",
    "Squash.Stream.C127_squash_partial",
    "Squash.Stream.C127_violated"
   ],
   "note": "Violated: parseLayer drops the error of Close and reads nothing behind the end of the tar archive, so a compressed layer whose checksum is wrong, or whose last part is missing behind the end marker, is taken for whole. Proved as equivalences for all other errors of opening, reading (also when contents are omitted) and writing. What the tar reader delivers is given, not modelled."
  },
  {
   "property": "C128",
   "status": "partial",
   "theorems": [
    "Go.Tar.C128_ustar",
    "Squash.C128_squash_partial",
    "Squash.C128_violated_dir",
    "Squash.C128_violated_link"
   ],
   "note": "Violated: WriteTo keeps the header's Format as tar.Reader set it but writes another name. A USTAR directory whose last element has 100 characters (as `ocibuild layer dir` writes it, without a slash) gets a slash and no longer fits; a USTAR entry below a symlink gets the path of the directory the symlink leads to, which may be longer or not ASCII. Squash then fails. Proved for tame layers (no entries below symlinks, as for C62): if each USTAR name, with a slash for a directory, fits and has no element longer than 100 (99) characters, the writer takes every header; other formats take every name. archive/tar is modelled from its documentation and source: only what it demands of names."
  },
  {
   "property": "C129",
   "status": "partial",
   "theorems": [
    "Squash.Lazy.C129_same_partial",
    "Squash.Lazy.C129_race_free_partial",
    "Squash.Lazy.C129_iff_partial",
    "Squash.Lazy.C129_maps",
    "Squash.Lazy.C129_violated"
   ],
   "note": "Violated: Get writes f.children (vfs.go:107-109) even when nothing is to be created, so two goroutines that open something in a directory in which the layers have nothing write one variable at the same time, without a lock. Proved: the results are right in every interleaving of the single accesses (if reads see what was written last, which Go does not promise when there are races), and there are no races if every directory of the loaded file system has something in it; for layers without symlinks to / that leave something, there can be a race exactly if a directory has nothing in it (C129_iff_partial). Which nodes have a map when Load returns is modelled by following the code of Load once more with that information (loadM, proved to load what loadLayers loads)."
  },
  {
   "property": "C130",
   "status": "partial",
   "theorems": [
    "Python.C130_reads",
    "Python.C130_twice",
    "Python.C130_unknown",
    "Python.C130_round_trip",
    "Python.C130_inspect",
    "Python.C130_no_panic_partial",
    "Python.C130_violated"
   ],
   "note": "Violated: a platform file without PyCompile, also an empty one, is accepted and then crashes the program (cmdline[0] in ExternalCompiler). Proved: that is the only crash (an iff); the round trip; and which documents are accepted and what is read from them, for documents in which no key is given twice (C130_twice: of keys given twice the last counts). The struct rules of yaml.v2, sigs.k8s.io/yaml v1.2.0 and encoding/json are modelled from memory of these libraries; YAML text is not modelled (C130_inspect assumes that the parser returns the document that was written). Floating point numbers, keys that are no strings and strings that are not UTF-8 are left out."
  },
  {
   "property": "C131",
   "status": "proved",
   "theorems": [
    "Squash.C131_squash",
    "Squash.C131_load"
   ],
   "note": "No assumption on the layers: also symlinks to / and loops. The name of the place may differ from the entry's name in all but its last element (entries written through symlinks)."
  },
  {
   "property": "C132",
   "status": "partial",
   "theorems": [
    "Handles.C132_closed_partial",
    "Handles.C132_used",
    "Handles.C132_violated",
    "Handles.C132_witness"
   ],
   "note": "Violated: CreateScripts opens entry_points.txt (entry_points.go:62) and never closes it, in every run (C132_violated; C132_witness is a successful one). Proved: everything else is closed on every path, and C132_used without exception. Results of calls are nondeterministic in the model, which covers all executions; panics are not modelled."
  },
  {
   "property": "C133",
   "status": "partial",
   "theorems": [
    "Squash.C133_load_partial",
    "Squash.C133_squash_partial",
    "Squash.C133_lower_partial",
    "Squash.C133_violated"
   ],
   "note": "Violated: a directory removed in one of the squashed layers and created again in a later one loses its whiteout, so a file from the layers below comes back (C133_violated, as C62_violated). Proved for tame runs (Tame, LinksStay: see C62) in the middle of any layers whose paths do not lead through symlinks; the layers above and below need not be tame. C133_squash_partial excludes symlinks to / (as C64); C133_lower_partial needs all layers to be tame."
  },
  {
   "property": "C134",
   "status": "partial",
   "theorems": [
    "Python.CmdAlias.C134_private_partial",
    "Python.CmdAlias.C134_caller",
    "Python.CmdAlias.C134_exclusive_partial",
    "Python.CmdAlias.C134_sequential_partial",
    "Python.CmdAlias.C134_violated"
   ],
   "note": "Violated: append(cmdline[1:], ...) (py_compile.go:128) writes the new arguments into the caller's array if that has room for five more, so for every such command line there is an interleaving of two runs in which one compiles the other one's directory. Proved: right in all interleavings without that room (as in the documented call), right with any room if no run begins while another one is between append and exec.Command's copy, in particular for runs one after the other; the caller's elements are never changed. Every access to the shared array is a step; reads are assumed to see what was written last, which Go does not promise when there are races."
  },
  {
   "property": "C135",
   "status": "partial",
   "theorems": [
    "Squash.C135_others_partial",
    "Squash.C135_violated"
   ],
   "note": "Violated: the entries that tar.Reader returns for global headers are taken for files, in every image (C135_violated); squashing also moves them among the other entries. Proved: at all paths other than their own nothing changes, if they are named without a slash (as archivers do) and no path leads through a symlink."
  },
  {
   "property": "C136",
   "status": "partial",
   "theorems": [
    "Fsutil.Crash.C136_history",
    "Fsutil.Crash.C136_success",
    "Fsutil.Crash.C136_again_partial",
    "Fsutil.Crash.C136_recovers_partial",
    "Fsutil.Crash.C136_violated",
    "Fsutil.Crash.C136_unfinished"
   ],
   "note": "Violated: the new file is written in place, and the next run compares with whatever is there. If a run ended within its first 512 bytes, all later runs fail with an unexpected EOF, whatever they build, until somebody removes the file (C136_violated); the same after a cut within any header or end block (C136_again_partial is an iff). A run cut off just before the end of the archive is never completed: later runs take the file for unchanged (C136_unfinished). Proved: in all other cases the next run succeeds; and status 0 always means that the file reads as the programs built. archive/tar's reader and writer are modelled from memory of their source, with one block per header (no PAX or GNU extensions; that headers are read back as written is a hypothesis); an interruption leaves a prefix of the bytes written."
  },
  {
   "property": "C137",
   "status": "partial",
   "theorems": [
    "Repo.C137_select",
    "Repo.C137_wheel_partial",
    "Repo.C137_same_file_partial",
    "Repo.C137_publish_partial",
    "Repo.C137_violated_yanked",
    "Repo.C137_violated_spelling"
   ],
   "note": "Proved for Select without restriction. SelectWheel violates it: yanking counts for a version, not for a file, so a yanked file that nobody would take makes an unyanked file of the same version be avoided (C137_violated_yanked); and of 1.0 and 1.0.0 the first listed file decides, though another one may be returned (C137_violated_spelling). Proved for SelectWheel if yanked files stay and no two usable files have versions that compare equal but are spelled differently."
  },
  {
   "property": "C138",
   "status": "proved",
   "theorems": [
    "Squash.C138_order_load",
    "Squash.C138_order_squash",
    "Squash.C138_repeated",
    "Squash.C138_shadowed",
    "Squash.C138_files"
   ],
   "note": "From C66 (the view of a stack) and the effect of one entry on one path, which is one of four functions. GetAlong and Shadows are in Verif/Squash/OverlapSpec.lean; C138_files says what GetAlong means for layers without markers. With entries below symlinks paths do not say where entries take effect, so the laws are stated without such entries."
  },
  {
   "property": "C139",
   "status": "partial",
   "theorems": [
    "Python.C139_low_partial",
    "Python.C139_dos",
    "Python.C139_violated",
    "Python.C139_violated_temporary"
   ],
   "note": "Violated: in stat.go:200 iota is already 8 when the second group of constants begins, so `1 << (8 + iota)` is eight bits too high for all constants from FileAttributeTemporary on; those of the low byte are right (C139_low_partial) and ToDOS is right for every word (C139_dos)."
  },
  {
   "property": "C140",
   "status": "proved",
   "theorems": [
    "Onto.C140_layers",
    "Onto.C140_order",
    "Onto.C140_wheels"
   ],
   "note": "For layers as in C104_complete and wheels as in C105_links_partial, by induction on the list of layers. Wheels may be installed at different times and with different compilers. Directories that wheels share may have the timestamp of any of them, so only files are claimed to be the same in any order."
  },
  {
   "property": "C141",
   "status": "partial",
   "theorems": [
    "Handles.C141_noticed_partial",
    "Handles.C141_iff_partial",
    "Handles.C141_written",
    "Handles.C141_violated"
   ],
   "note": "Violated by LayersEqualExceptTimestamps, and so by 'ocibuild layer gobuild --output': readersEqual passes over io.ErrUnexpectedEOF, so that the reading of a layer that ends within a file's content fails and no error is returned (C141_violated; what C56 says of readersEqual). Proved: for all other calls the claim as it stands (C141_iff_partial), and for these two that nothing else is lost (C141_noticed_partial, C141_written). About the same programs as C132: functions as sequences of calls any of which may fail, in runs that list what failed. Whether a check fails is nondeterministic, which covers all executions; the reads of one file within one round of a loop are one read. Which closing errors are not looked at is part of the specification (Spec.unnoticed)."
  },
  {
   "property": "C142",
   "status": "proved",
   "theorems": [
    "Onto.C142_squash",
    "Onto.C142_files"
   ],
   "note": "For layers as in C140. C62_squash_partial has no base with symlinks to pass through; here the squashed layer is shown to be a tree with an entry for each directory before what is below it, so that it goes where its names say on every image."
  },
  {
   "property": "C143",
   "status": "proved",
   "theorems": [
    "Testutil.C143_equal",
    "Testutil.C143_errors"
   ],
   "note": "Headers are of any type. That go-spew's texts of headers and contents can be told apart and show where they end is a hypothesis (Unambiguous), and what difflib and text/tabwriter print is arbitrary; each layer is read twice, as the code does."
  },
  {
   "property": "C144",
   "status": "proved",
   "theorems": [
    "Cli.C144_words",
    "Cli.C144_width",
    "Cli.C144_piped",
    "Cli.C144_fits",
    "Cli.C144_topics"
   ],
   "note": "For texts without vertical tabs, form feeds and carriage returns, with ASCII at the end of texts that are trimmed; widths of names count bytes. C144_topics shows why C144_fits is about commands without additional help topics (ocibuild has none): their list is wrapped by the width of the names but printed with the longer paths."
  },
  {
   "property": "C145",
   "status": "proved",
   "theorems": [
    "Pep440.C145_reads",
    "Pep440.C145_unique",
    "Pep440.C145_iff",
    "Pep440.C145_public_reads",
    "Pep440.C145_public_iff"
   ],
   "note": "strconv.Quote is modelled, with the characters outside ASCII that are printable as a parameter; an empty slice is printed as a nil one, the model does not tell them apart."
  },
  {
   "property": "C146",
   "status": "proved",
   "theorems": [
    "Gobuild.C146_same_layer",
    "Gobuild.C146_fresh",
    "Gobuild.C146_both"
   ],
   "note": "What filepath.Walk reports is given, file by file, in its order; the layer is compared as tar.Reader delivers it (asRead: whole seconds, no access and change times), of which the bytes are a function.  C146_same_layer and C146_fresh speak of two calls that succeed; C146_both says when they do."
  },
  {
   "property": "C147",
   "status": "proved",
   "theorems": [
    "Fsutil.C147_no_prefix",
    "Fsutil.C147_prefix",
    "Fsutil.C147_refs"
   ],
   "note": "What filepath.Walk reports, with readability of targets and contents, is given; accepts is the set of headers the tar writer can encode.  Closing files and writing to the buffer are in C132 and C141."
  },
  {
   "property": "C148",
   "status": "proved",
   "theorems": [
    "Bdist.C148_installs",
    "Bdist.C148_command",
    "Bdist.C148_compiler"
   ],
   "note": "The condition that files do not get into each other's way is the one of C44 and C87, where its necessity is shown.  The compiler, the hook (in C148_installs) and the headers that the tar writer accepts are parameters, with the stated conditions.  C148_compiler shows that ExternalCompiler meets the condition on the compiler wherever the command itself compiles the sources."
  },
  {
   "property": "C149",
   "status": "partial",
   "theorems": [
    "Repo.C149_exact",
    "Repo.C149_unreadable",
    "Repo.C149_warns_partial",
    "Repo.C149_fetched",
    "Repo.C149_violated"
   ],
   "note": "Violated: only the minor numbers are compared, so a page of version 0.9 is reported as newer than the client, which understands 1.0 (C149_violated). Proved: exactly which pages get a warning, and for versions from 1.0 on the property. ListPackages, ListFiles, ListPackageFiles and getwheel read one page each through getHTML5Index, for which it is stated."
  },
  {
   "property": "C150",
   "status": "partial",
   "theorems": [
    "Python.C150_parse_partial",
    "Python.C150_violated"
   ],
   "note": "Violated: after an empty line the indentation of the current option is taken to be 0 (configparser.go:99), which every indented line exceeds, so an indented option after an empty line becomes part of the value before it (C150_violated); Python takes the largest number instead. Proved, as an equivalence with a grammar, for texts in which no line after an empty one is indented. The commands of the repository use EmptyLinesInValues."
  },
  {
   "property": "C151",
   "status": "partial",
   "theorems": [
    "Python.C151_inline_partial",
    "Python.C151_parse_partial",
    "Python.C151_violated",
    "Python.C151_violated_start"
   ],
   "note": "Violated: a prefix without white space before it begins a comment too (configparser.go:77-82), so the value of `k = a;b` is `a` (C151_violated); and at the start of a line it does not begin one (C151_violated_start). Proved for texts in which, on every line that is not a comment line, the first character that begins inline comments comes directly after white space. For parsers with Strict and EmptyLinesInValues. The commands of the repository use no inline comments."
  },
  {
   "property": "C152",
   "status": "partial",
   "theorems": [
    "Python.C152_order_partial",
    "Python.C152_lenient_partial",
    "Python.C152_none",
    "Python.C152_violated"
   ],
   "note": "Violated: Interpolate gets the configuration in which the values visited before are replaced already (configparser.go:157-165), so that with references of options to each other the result depends on the order of the maps (C152_violated). Proved for functions that give the same whether or not other values are replaced already, which includes NoInterpolation, the only one in the repository. An order is a list with every option once; Go visits the options of a section together, which is a special case. The function cannot change the configuration it gets."
  },
  {
   "property": "C153",
   "status": "proved",
   "theorems": [
    "Python.C153_accepts",
    "Python.C153_last",
    "Python.C153_agrees"
   ],
   "note": "For parsers with EmptyLinesInValues and without inline comments; Interpolate is NoInterpolation (C152). The grammar is the one of C75. The commands of the repository use Strict."
  }
 ]
}
