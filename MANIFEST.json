{
 "claims": [
  {
   "property": "C01",
   "status": "proved",
   "theorems": [
    "Verif.Props.C01_flat_roundtrip",
    "Verif.Props.C01_unixfs_roundtrip",
    "Verif.Props.C01_write_injective",
    "Verif.Props.C01_mime_roundtrip",
    "Verif.Props.C01_time_roundtrip"
   ],
   "note": "For every value within its Rust types whose length-delimited parts are under 2^32 bytes (the wire format's limit)."
  },
  {
   "property": "C02",
   "status": "proved",
   "theorems": [
    "Verif.Props.C02_link",
    "Verif.Props.C02_node",
    "Verif.Props.C02_time",
    "Verif.Props.C02_unixfs",
    "Verif.Props.C02_flat",
    "Verif.Props.C02_mime",
    "Verif.Props.C02_directory"
   ],
   "note": ""
  },
  {
   "property": "C03",
   "status": "proved",
   "theorems": [
    "Verif.Props.C03_node_roundtrip"
   ],
   "note": ""
  },
  {
   "property": "C04",
   "status": "proved",
   "theorems": [
    "Verif.Props.C04_fields",
    "Verif.Props.C04_order",
    "Verif.Props.C04_data_position",
    "Verif.Props.C04_unknown",
    "Verif.Props.C04_unknown_unixfs"
   ],
   "note": ""
  },
  {
   "property": "C05",
   "status": "partial",
   "theorems": [
    "Verif.Props.C05_wrap_partial",
    "Verif.Props.C05_wrap_no_panic_partial",
    "Verif.Props.C05_wrap_panics",
    "Verif.Props.C05_full_false"
   ],
   "note": "The code violates the full statement: an empty Data field at the end of the block (e.g. 0a00) panics. Proved: that is the only exception."
  },
  {
   "property": "C06",
   "status": "proved",
   "theorems": [
    "Verif.Props.C06_symlink"
   ],
   "note": ""
  },
  {
   "property": "C07",
   "status": "proved",
   "theorems": [
    "Verif.Props.C07_push_progress",
    "Verif.Props.C07_feed_terminates",
    "Verif.Props.C07_feed_exact",
    "Verif.Props.feed_adds"
   ],
   "note": "No size bound: the loop always ends, with blocks exactly if the tree size fits into 64 bits and in the overflow panic otherwise (C07_feed_exact); branching factor >= 2 (factor 1: C10)."
  },
  {
   "property": "C08",
   "status": "proved",
   "theorems": [
    "Verif.Props.C08_push_two_blocks"
   ],
   "note": "Every content, every configuration."
  },
  {
   "property": "C09",
   "status": "partial",
   "theorems": [
    "Verif.Props.C09_push_no_panic_partial",
    "Verif.Props.C09_push_only_overflow_partial",
    "Verif.Props.C09_size_zero_panics",
    "Verif.Props.C09_full_false",
    "Verif.Props.C09_exact_partial",
    "Verif.Props.C09_overflow_example"
   ],
   "note": "The code violates the full statement: Chunker::Size(0) panics at the first push. Proved for every positive chunk size and content of any length, provided one group of branching-factor many chunks fits into 64 bits; otherwise the only panic is that overflow. C09_exact_partial: exactly when push panics, for every configuration and every history."
  },
  {
   "property": "C10",
   "status": "partial",
   "theorems": [
    "Verif.Props.C10_finish_exact_partial",
    "Verif.Props.C10_finish_overflow_partial",
    "Verif.Props.C10_finish_iff_partial",
    "Verif.Props.C10_full_false"
   ],
   "note": "The code violates the full statement: branching factor 1 with at least two chunks never returns. Proved: exactly when finish returns."
  },
  {
   "property": "C100",
   "status": "proved",
   "theorems": [
    "Verif.Props.C100_walk",
    "Verif.Props.C100_link",
    "Verif.Props.C100_building",
    "Verif.Props.C100_names",
    "Verif.Props.C100_shown",
    "Verif.Props.C100_wrap",
    "Verif.Props.C100_shown_example"
   ],
   "note": "errors of other crates count as the same if their texts are; the text of a parsing error must not be 'no data' (quick_protobuf has no such); C100_names: the names in the errors of a walk are text"
  },
  {
   "property": "C101",
   "status": "proved",
   "theorems": [
    "Verif.Props.C101_one_line",
    "Verif.Props.C101_readable",
    "Verif.Props.C101_printed",
    "Verif.Props.C101_forge",
    "Verif.Props.C101_decimal",
    "Verif.Props.C101_example"
   ],
   "note": "paths are printed as their components joined by slashes, which is what the string in the PathBuf is for get (root name \"\"); whether the Debug of a Path escapes single quotes is a parameter"
  },
  {
   "property": "C102",
   "status": "proved",
   "theorems": [
    "Verif.Props.C102_link",
    "Verif.Props.C102_read",
    "Verif.Props.C102_parse",
    "Verif.Props.C102_resolve",
    "Verif.Props.C102_walk",
    "Verif.Props.C102_building",
    "Verif.Props.C102_construction",
    "Verif.Props.C102_item",
    "Verif.Props.C102_mtime",
    "Verif.Props.C102_segment",
    "Verif.Props.C102_parse_names",
    "Verif.Props.C102_one_line",
    "Verif.Props.C102_example"
   ],
   "note": "what other crates print of their errors and of Cids is a parameter, assumed to be printable and to tell which value it is of and where it ends (TellingTexts; env1_tells is an instance)"
  },
  {
   "property": "C103",
   "status": "partial",
   "theorems": [
    "Verif.Props.C103_held",
    "Verif.Props.C103_message",
    "Verif.Props.C103_ends",
    "Verif.Props.C103_bottom_partial",
    "Verif.Props.C103_silent",
    "Verif.Props.C103_conversion",
    "Verif.Props.C103_full_false",
    "Verif.Props.C103_example"
   ],
   "note": "The full statement is false: errors of a walk and of building a tree never give a cause although they hold one, and neither do errors of a lookup about links which are no Cid (C103_full_false, C103_silent). C103_bottom_partial: all others do."
  },
  {
   "property": "C104",
   "status": "proved",
   "theorems": [
    "Verif.Props.C104_shape",
    "Verif.Props.C104_roundtrip",
    "Verif.Props.C104_behind",
    "Verif.Props.C104_injective",
    "Verif.Props.C104_path",
    "Verif.Props.C104_bafybei",
    "Verif.Props.C104_base58",
    "Verif.Props.C104_longer",
    "Verif.Props.C104_v0_only",
    "Verif.Props.C104_digits_v0",
    "Verif.Props.C104_digits_v1",
    "Verif.Props.C104_exact",
    "Verif.Props.C104_exact_example",
    "Verif.Props.C104_example"
   ],
   "note": "Reading of other bases than base58btc and lower case base 32 is a parameter of the model; no theorem depends on what it does."
  },
  {
   "property": "C105",
   "status": "proved",
   "theorems": [
    "Verif.Props.C105_files",
    "Verif.Props.C105_usage",
    "Verif.Props.C105_no_repository",
    "Verif.Props.C105_no_cid",
    "Verif.Props.C105_cat",
    "Verif.Props.C105_cat_missing",
    "Verif.Props.C105_cat_code",
    "Verif.Props.C105_add_cat",
    "Verif.Props.C105_resolve",
    "Verif.Props.C105_last_line",
    "Verif.Props.C105_never_alone",
    "Verif.Props.C105_resolve_root",
    "Verif.Props.C105_get",
    "Verif.Props.C105_built",
    "Verif.Props.C105_example"
   ],
   "note": "Texts of other crates and of the operating system are parameters; errors other than at opening a file, arguments which are not UTF-8 and the overflow of the counters are left out."
  },
  {
   "property": "C106",
   "status": "proved",
   "theorems": [
    "Verif.Props.C106_capacities",
    "Verif.Props.C106_push",
    "Verif.Props.C106_finish",
    "Verif.Props.C106_useless",
    "Verif.Props.C106_memory",
    "Verif.Props.C106_debug",
    "Verif.Props.C106_reserve",
    "Verif.Props.C106_example"
   ],
   "note": "Vec::reserve is modelled as in the standard library (grow_amortized) with 64 bits; the allocator is assumed to give whatever is asked for; the size of a PBLink is a parameter of at least 8 bytes."
  },
  {
   "property": "C107",
   "status": "proved",
   "theorems": [
    "Verif.Props.C107_unix",
    "Verif.Props.C107_windows",
    "Verif.Props.C107_order",
    "Verif.Props.C107_all",
    "Verif.Props.C107_unordered",
    "Verif.Props.C107_example"
   ],
   "note": "the crate filetime is modelled from its documented behaviour; the platform is a parameter."
  },
  {
   "property": "C108",
   "status": "proved",
   "theorems": [
    "Verif.Props.C108_agrees",
    "Verif.Props.C108_ends",
    "Verif.Props.C108_inside",
    "Verif.Props.C108_hangs",
    "Verif.Props.C108_hangs_time",
    "Verif.Props.C108_hangs_overrun",
    "Verif.Props.C108_accepts"
   ],
   "note": "quick-protobuf's reader is modelled from knowledge of the crate, with 64-bit usize; `none` is divergence (partial_fixpoint)."
  },
  {
   "property": "C109",
   "status": "proved",
   "theorems": [
    "Verif.Props.C109_agrees",
    "Verif.Props.C109_runs",
    "Verif.Props.C109_lookup",
    "Verif.Props.C109_start",
    "Verif.Props.C109_continue",
    "Verif.Props.C109_read",
    "Verif.Props.C109_only",
    "Verif.Props.C109_hangs",
    "Verif.Props.C109_example"
   ],
   "note": "extends C67-C69, whose model reads blocks as a checked build does."
  },
  {
   "property": "C11",
   "status": "proved",
   "theorems": [
    "Verif.Props.C11_segmentation",
    "Verif.Props.C11_feed"
   ],
   "note": ""
  },
  {
   "property": "C110",
   "status": "proved",
   "theorems": [
    "Verif.Props.C110_accepted",
    "Verif.Props.C110_not_dagpb",
    "Verif.Props.C110_no_data",
    "Verif.Props.C110_not_unixfs",
    "Verif.Props.C110_same",
    "Verif.Props.C110_more",
    "Verif.Props.C110_cut_example",
    "Verif.Props.C110_panics",
    "Verif.Props.C110_panics_example",
    "Verif.Props.C110_panics_exact",
    "Verif.Props.C110_panics_data",
    "Verif.Props.C110_panics_same",
    "Verif.Props.C110_exact_example"
   ],
   "note": "the exact panics for blocks below 2^31 bytes, the largest allocation there; all other properties are about 64-bit platforms; C110 and C111 say what changes."
  },
  {
   "property": "C111",
   "status": "proved",
   "theorems": [
    "Verif.Props.C111_slice",
    "Verif.Props.C111_block",
    "Verif.Props.C111_parsed",
    "Verif.Props.C111_read",
    "Verif.Props.C111_wellformed",
    "Verif.Props.C111_walk",
    "Verif.Props.C111_wrong_example"
   ],
   "note": "adding files and building trees never make a usize from a u64."
  },
  {
   "property": "C112",
   "status": "partial",
   "theorems": [
    "Verif.Props.C112_components",
    "Verif.Props.C112_inside",
    "Verif.Props.C112_below_partial",
    "Verif.Props.C112_full_false",
    "Verif.Props.C112_dot",
    "Verif.Props.C112_stray",
    "Verif.Props.C112_fine"
   ],
   "note": "the full statement (paths below the root name) is refuted by `C112_full_false`; `C112_below_partial` is what holds, `C112_components` and `C112_inside` hold for all blocks."
  },
  {
   "property": "C113",
   "status": "proved",
   "theorems": [
    "Verif.Props.C113_step",
    "Verif.Props.C113_walk",
    "Verif.Props.C113_example",
    "Verif.Props.C113_needed"
   ],
   "note": "sufficient conditions, each of them shown by `C113_needed` to be needed, with a store which meets all others; they are not claimed to be necessary store by store."
  },
  {
   "property": "C114",
   "status": "proved",
   "theorems": [
    "Verif.Props.C114_block",
    "Verif.Props.C114_read",
    "Verif.Props.C114_walk",
    "Verif.Props.C114_lookup",
    "Verif.Props.C114_resolve",
    "Verif.Props.C114_file",
    "Verif.Props.C114_items",
    "Verif.Props.C114_tree",
    "Verif.Props.C114_path",
    "Verif.Props.C114_release_read",
    "Verif.Props.C114_release_walk",
    "Verif.Props.C114_release_lookup",
    "Verif.Props.C114_example"
   ],
   "note": "the crate does not verify blocks itself: that is an assumption on the store, as is that there is no collision between blocks of the two stores. C114_release_*: the same for release builds, over arbitrary blocks."
  },
  {
   "property": "C115",
   "status": "proved",
   "theorems": [
    "Verif.Props.C115_count",
    "Verif.Props.C115_file",
    "Verif.Props.C115_walk",
    "Verif.Props.C115_lookup",
    "Verif.Props.C115_kept",
    "Verif.Props.C115_needed",
    "Verif.Props.C115_example"
   ],
   "note": "as C87 for checked builds; that a block which is read forever keeps a client from ending is C109_hangs."
  },
  {
   "property": "C116",
   "status": "partial",
   "theorems": [
    "Verif.Props.C116_one_call",
    "Verif.Props.C116_honest_partial",
    "Verif.Props.C116_full_false",
    "Verif.Props.C116_example"
   ],
   "note": "C92 for release builds. C116_full (all calls together, honest leaves) is false: C116_full_false; C116_honest_partial needs the blocks to be shorter than the distance from the end of the range to 2^64."
  },
  {
   "property": "C117",
   "status": "proved",
   "theorems": [
    "Verif.Props.C117_blocks",
    "Verif.Props.C117_count",
    "Verif.Props.C117_shared",
    "Verif.Props.C117_prefix",
    "Verif.Props.C117_append",
    "Verif.Props.C117_overwrite",
    "Verif.Props.C117_one_chunk",
    "Verif.Props.C117_example"
   ],
   "note": "`Adds` is: any cuts of the content into pushes, followed by finish, give these blocks."
  },
  {
   "property": "C118",
   "status": "proved",
   "theorems": [
    "Verif.Props.C118_same",
    "Verif.Props.C118_step",
    "Verif.Props.C118_changes",
    "Verif.Props.C118_example"
   ],
   "note": ""
  },
  {
   "property": "C119",
   "status": "proved",
   "theorems": [
    "Verif.Props.C119_asks",
    "Verif.Props.C119_all",
    "Verif.Props.C119_count",
    "Verif.Props.C119_small",
    "Verif.Props.C119_example"
   ],
   "note": ""
  },
  {
   "property": "C12",
   "status": "proved",
   "theorems": [
    "Verif.Props.C12_root_last",
    "Verif.Props.C12_tree"
   ],
   "note": "The emitted blocks are below 4 GiB; C94 gives the configurations."
  },
  {
   "property": "C120",
   "status": "proved",
   "theorems": [
    "Verif.Props.C120_walk",
    "Verif.Props.C120_stopped",
    "Verif.Props.C120_tree",
    "Verif.Props.C120_read",
    "Verif.Props.C120_file",
    "Verif.Props.C120_unique",
    "Verif.Props.C120_blocks",
    "Verif.Props.C120_example"
   ],
   "note": ""
  },
  {
   "property": "C121",
   "status": "proved",
   "theorems": [
    "Verif.Props.C121_reported",
    "Verif.Props.C121_below",
    "Verif.Props.C121_resolve",
    "Verif.Props.C121_example"
   ],
   "note": ""
  },
  {
   "property": "C122",
   "status": "proved",
   "theorems": [
    "Verif.Props.C122_answers",
    "Verif.Props.C122_found",
    "Verif.Props.C122_absent",
    "Verif.Props.C122_example",
    "Verif.Props.C122_twice"
   ],
   "note": "C122_twice: a directory with two entries of one name is walked to the end, but the name cannot be looked up."
  },
  {
   "property": "C123",
   "status": "proved",
   "theorems": [
    "Verif.Props.C123_wellformed",
    "Verif.Props.C123_parts",
    "Verif.Props.C123_needed",
    "Verif.Props.C123_silent",
    "Verif.Props.C123_example"
   ],
   "note": "C123_needed: root of 10 bytes over honest leaves of 5 and 7; whole read gives 12 bytes, the range 6..8 fails with TreeOverlapsBetweenLinks. C123_silent: a range of an eight-byte file which is read without an error and comes out empty."
  },
  {
   "property": "C124",
   "status": "proved",
   "theorems": [
    "Verif.Props.C124_file",
    "Verif.Props.C124_directory",
    "Verif.Props.C124_symlink",
    "Verif.Props.C124_unambiguous",
    "Verif.Props.C124_determined",
    "Verif.Props.C124_example"
   ],
   "note": "The specification in Spec/Strict does not refer to the readers or writers of the model. Blocks of 4 GiB and more are excluded (C94), and total sizes beyond 64 bits."
  },
  {
   "property": "C125",
   "status": "proved",
   "theorems": [
    "Verif.Props.C125_order",
    "Verif.Props.C125_found",
    "Verif.Props.C125_notFound",
    "Verif.Props.C125_lookup",
    "Verif.Props.C125_plain",
    "Verif.Props.C125_same",
    "Verif.Props.C125_example"
   ],
   "note": "Extends C65 (one step) to whole look-ups. Whether a look-up ends is C87."
  },
  {
   "property": "C126",
   "status": "proved",
   "theorems": [
    "Verif.Props.C126_roundtrip",
    "Verif.Props.C126_archive",
    "Verif.Props.C126_example"
   ],
   "note": "The export itself is a specification (Spec/Exporting), as the repository has no program which writes archives. Components '.' make walks panic or lose paths (C112)."
  },
  {
   "property": "C127",
   "status": "proved",
   "theorems": [
    "Verif.Props.C127_total",
    "Verif.Props.C127_default",
    "Verif.Props.C127_ratio",
    "Verif.Props.C127_directory",
    "Verif.Props.C127_accepted",
    "Verif.Props.C127_accepted_default",
    "Verif.Props.C127_example",
    "Verif.Props.C127_accepted_example"
   ],
   "note": "The bounds are not exact. A branching factor of one with several chunks never ends (C10)."
  },
  {
   "property": "C128",
   "status": "proved",
   "theorems": [
    "Verif.Props.C128_block",
    "Verif.Props.C128_read",
    "Verif.Props.C128_step",
    "Verif.Props.C128_walk",
    "Verif.Props.C128_pending",
    "Verif.Props.C128_lookup",
    "Verif.Props.C128_example"
   ],
   "note": "Sizes are counted in bytes of digests, names, data and numbers; the constant factors of Rust's own structures, and spare capacity of vectors, are not counted."
  },
  {
   "property": "C129",
   "status": "proved",
   "theorems": [
    "Verif.Props.C129_count",
    "Verif.Props.C129_block",
    "Verif.Props.C129_read",
    "Verif.Props.C129_step",
    "Verif.Props.C129_walk",
    "Verif.Props.C129_lookup",
    "Verif.Props.C129_more",
    "Verif.Props.C129_example"
   ],
   "note": "Only parses which end are considered; C108 says which do not. Sizes are counted as in C128."
  },
  {
   "property": "C13",
   "status": "proved",
   "theorems": [
    "Verif.Props.C13_children_first",
    "Verif.Props.C13_children_first_unfinished"
   ],
   "note": "The emitted blocks are below 4 GiB; C94 gives the configurations."
  },
  {
   "property": "C130",
   "status": "proved",
   "theorems": [
    "Verif.Props.C130_asks",
    "Verif.Props.C130_items",
    "Verif.Props.C130_panics",
    "Verif.Props.C130_hangs",
    "Verif.Props.C130_example",
    "Verif.Props.C130_example_places"
   ],
   "note": "The state of an ongoing visit of a file enters the condition for its further blocks, as in C27. Release builds are modelled as debug assertions and overflow checks switched off."
  },
  {
   "property": "C131",
   "status": "proved",
   "theorems": [
    "Verif.Props.C131_start",
    "Verif.Props.C131_continue",
    "Verif.Props.C131_walk",
    "Verif.Props.C131_example",
    "Verif.Props.C131_example_walk"
   ],
   "note": "Release builds are modelled as debug assertions and overflow checks switched off."
  },
  {
   "property": "C132",
   "status": "proved",
   "theorems": [
    "Verif.Props.C132_resolve",
    "Verif.Props.C132_continue",
    "Verif.Props.C132_panics",
    "Verif.Props.C132_order",
    "Verif.Props.C132_lookup",
    "Verif.Props.C132_example"
   ],
   "note": "Release builds are modelled as debug assertions and overflow checks switched off. Debug builds: C41-C44, C65, C125."
  },
  {
   "property": "C133",
   "status": "proved",
   "theorems": [
    "Verif.Props.C133_all_answers",
    "Verif.Props.C133_panics",
    "Verif.Props.C133_nodes",
    "Verif.Props.C133_block",
    "Verif.Props.C133_totals",
    "Verif.Props.C133_agrees",
    "Verif.Props.C133_example"
   ],
   "note": "Release builds are modelled as debug assertions and overflow checks switched off. Checked builds: C33-C36, C38, C60."
  },
  {
   "property": "C134",
   "status": "proved",
   "theorems": [
    "Verif.Props.C134_cat",
    "Verif.Props.C134_cat_file",
    "Verif.Props.C134_cat_clean",
    "Verif.Props.C134_get",
    "Verif.Props.C134_get_clean",
    "Verif.Props.C134_cat_example",
    "Verif.Props.C134_get_example"
   ],
   "note": "Standard output is modelled as LineWriter: after a successful write at most a line without its end is in the buffer; what is still there when the process ends may be lost. What arrives is what write(2) took. Output on standard error: C105."
  },
  {
   "property": "C135",
   "status": "proved",
   "theorems": [
    "Verif.Props.C135_cat",
    "Verif.Props.C135_cat_agrees",
    "Verif.Props.C135_cat_file",
    "Verif.Props.C135_get_agrees",
    "Verif.Props.C135_get",
    "Verif.Props.C135_resolve_agrees",
    "Verif.Props.C135_resolve",
    "Verif.Props.C135_ends",
    "Verif.Props.C135_example"
   ],
   "note": "`ReleaseRun` (blocks read as in release builds) with the loops of the examples."
  },
  {
   "property": "C136",
   "status": "proved",
   "theorems": [
    "Verif.Props.C136_resolve",
    "Verif.Props.C136_result",
    "Verif.Props.C136_line",
    "Verif.Props.C136_clean",
    "Verif.Props.C136_example"
   ],
   "note": "Standard output as in C134; standard error has no buffer. The five lines after an error of opening are one piece, of which any part may arrive. `C136_line` is stated for paths whose resolving ends without failures."
  },
  {
   "property": "C137",
   "status": "proved",
   "theorems": [
    "Verif.Props.C137_read",
    "Verif.Props.C137_debug",
    "Verif.Props.C137_add",
    "Verif.Props.C137_exit",
    "Verif.Props.C137_small",
    "Verif.Props.C137_example"
   ],
   "note": "The lines about time and memory (`tail`) and the capacity of the adder's buffer are arbitrary: the model does not say what the clock and the allocator do. Reads are not retried, also not interrupted ones. C74 is about the same program without the line which says the adder and without failures."
  },
  {
   "property": "C138",
   "status": "proved",
   "theorems": [
    "Verif.Props.C138_walk",
    "Verif.Props.C138_stopped",
    "Verif.Props.C138_log",
    "Verif.Props.C138_read",
    "Verif.Props.C138_unique",
    "Verif.Props.C138_blocks",
    "Verif.Props.C138_kept",
    "Verif.Props.C138_tree",
    "Verif.Props.C138_example"
   ],
   "note": "C120 for release builds; release builds are modelled as debug assertions and overflow checks switched off."
  },
  {
   "property": "C139",
   "status": "proved",
   "theorems": [
    "Verif.Props.C139_reads_alike",
    "Verif.Props.C139_whole_file",
    "Verif.Props.C139_example"
   ],
   "note": "C95 for release builds; release builds are modelled as debug assertions and overflow checks switched off."
  },
  {
   "property": "C14",
   "status": "proved",
   "theorems": [
    "Verif.Props.C14_adder_cids",
    "Verif.Props.C14_adder_cids_unfinished",
    "Verif.Props.C14_directory_cids"
   ],
   "note": ""
  },
  {
   "property": "C15",
   "status": "proved",
   "theorems": [
    "Verif.Props.C15_leaves",
    "Verif.Props.C15_chunks"
   ],
   "note": "The emitted blocks are below 4 GiB; C94 gives the configurations."
  },
  {
   "property": "C16",
   "status": "proved",
   "theorems": [
    "Verif.Props.C16_balanced",
    "Verif.Props.C16_links"
   ],
   "note": "The emitted blocks are below 4 GiB; C94 gives the configurations."
  },
  {
   "property": "C17",
   "status": "proved",
   "theorems": [
    "Verif.Props.C17_sizes"
   ],
   "note": "The emitted blocks are below 4 GiB; C94 gives the configurations."
  },
  {
   "property": "C18",
   "status": "proved",
   "theorems": [
    "Verif.Props.C18_add_then_read",
    "Verif.Props.C18_read_wellformed"
   ],
   "note": "Content of any length; the emitted blocks are below 4 GiB (C94 gives the configurations); reading holds for well-formed trees of any shape."
  },
  {
   "property": "C19",
   "status": "proved",
   "theorems": [
    "Verif.Props.C19_ranged_read",
    "Verif.Props.C19_tile",
    "Verif.Props.slice_getElem?"
   ],
   "note": ""
  },
  {
   "property": "C20",
   "status": "partial",
   "theorems": [
    "Verif.Props.C20_start_size",
    "Verif.Props.C20_start_wellformed",
    "Verif.Props.C20_later_steps_partial",
    "Verif.Props.C20_full_false"
   ],
   "note": "The size at start is proved. The code violates the second half: FileVisit::file_size() returns the size of the block given last; counterexample and exact behaviour proved."
  },
  {
   "property": "C21",
   "status": "proved",
   "theorems": [
    "Verif.Props.C21_minimal_height"
   ],
   "note": "The emitted blocks are below 4 GiB; C94 gives the configurations."
  },
  {
   "property": "C22",
   "status": "proved",
   "theorems": [
    "Verif.Props.C22_requests",
    "Verif.Props.C22_requests_all",
    "Verif.Props.touches_iff"
   ],
   "note": ""
  },
  {
   "property": "C23",
   "status": "proved",
   "theorems": [
    "Verif.Props.C23_forward",
    "Verif.Props.C23_after_leaf",
    "Verif.Props.C23_contiguous"
   ],
   "note": "Over arbitrary blocks; for unranged visits also without holes."
  },
  {
   "property": "C24",
   "status": "proved",
   "theorems": [
    "Verif.Props.C24_metadata_of_root",
    "Verif.Props.C24_metadata_at_start",
    "Verif.Props.C24_nonroot_rejected"
   ],
   "note": ""
  },
  {
   "property": "C25",
   "status": "proved",
   "theorems": [
    "Verif.Props.C25_visit_cache",
    "Verif.Props.C25_start_cache",
    "Verif.Props.C25_lookup_cache",
    "Verif.Props.C25_walk_cache"
   ],
   "note": ""
  },
  {
   "property": "C26",
   "status": "partial",
   "theorems": [
    "Verif.Props.C26_exact_partial",
    "Verif.Props.C26_start_partial",
    "Verif.Props.C26_unsized_panics",
    "Verif.Props.C26_full_false"
   ],
   "note": "The code violates the full statement: a leaf without filesize panics (and block sizes summing over 2^64 overflow). Proved for all other blocks: no panic, error iff documented reason, and the error is such a reason; and C26_exact_partial gives, with no hypothesis on the block, the exact condition under which starting panics."
  },
  {
   "property": "C27",
   "status": "partial",
   "theorems": [
    "Verif.Props.C27_visit_exact_partial",
    "Verif.Props.C27_walk_exact_partial",
    "Verif.Props.C27_walk_names_partial",
    "Verif.Props.C27_walk_dot_panics",
    "Verif.Props.C27_visit_partial",
    "Verif.Props.C27_pending_nonempty",
    "Verif.Props.C27_visit_full_false",
    "Verif.Props.C27_pending_links_panics",
    "Verif.Props.C27_walk_partial",
    "Verif.Props.C27_walk_full_false",
    "Verif.Props.C27_walk_unparsable_panics",
    "Verif.Props.C27_walk_not_a_bucket_panics",
    "Verif.Props.C27_walk_empty_name_panics",
    "Verif.Props.C27_walk_slash_panics"
   ],
   "note": "The code violates the full statement (counterexamples proved). Proved: no panic of a visit for every block which declares its size, does not overflow u64 and, for ranged visits, is as long as its interval; and none of a walker for every block satisfying SaneStep. C27_visit_exact_partial and C27_walk_exact_partial give, for every history and every block, the exact condition (an equivalence) under which a visit, or a walker, panics; the latter for root names without '/', and C27_walk_names_partial for all root names."
  },
  {
   "property": "C28",
   "status": "proved",
   "theorems": [
    "Verif.Props.C28_slice_exact",
    "Verif.Props.C28_in_bounds"
   ],
   "note": ""
  },
  {
   "property": "C29",
   "status": "proved",
   "theorems": [
    "Verif.Props.C29_rejected",
    "Verif.Props.C29_accepted",
    "Verif.Props.C29_components"
   ],
   "note": ""
  },
  {
   "property": "C30",
   "status": "proved",
   "theorems": [
    "Verif.Props.C30_failed_unobservable",
    "Verif.Props.C30_failed_contents"
   ],
   "note": ""
  },
  {
   "property": "C31",
   "status": "proved",
   "theorems": [
    "Verif.Props.C31_outcome",
    "Verif.Props.C31_update",
    "Verif.Props.C31_history",
    "Verif.Props.C31_put_iff",
    "Verif.Props.C31_set_metadata_iff",
    "Verif.Props.C31_order"
   ],
   "note": "Paths of less than 2^31 bytes."
  },
  {
   "property": "C32",
   "status": "proved",
   "theorems": [
    "Verif.Props.C32_at_most_one",
    "Verif.Props.C32_second_refused"
   ],
   "note": "A one-component path - even set_metadata on the existing root level entry - is refused too."
  },
  {
   "property": "C33",
   "status": "proved",
   "theorems": [
    "Verif.Props.C33_build",
    "Verif.Props.C33_any"
   ],
   "note": ""
  },
  {
   "property": "C34",
   "status": "proved",
   "theorems": [
    "Verif.Props.C34_block"
   ],
   "note": ""
  },
  {
   "property": "C35",
   "status": "proved",
   "theorems": [
    "Verif.Props.C35_resolve"
   ],
   "note": ""
  },
  {
   "property": "C36",
   "status": "proved",
   "theorems": [
    "Verif.Props.C36_total",
    "Verif.Props.C36_recursive"
   ],
   "note": ""
  },
  {
   "property": "C37",
   "status": "proved",
   "theorems": [
    "Verif.Props.C37_limit",
    "Verif.Props.C37_never_larger"
   ],
   "note": ""
  },
  {
   "property": "C38",
   "status": "partial",
   "theorems": [
    "Verif.Props.C38_exact_partial",
    "Verif.Props.C38_no_panic_partial",
    "Verif.Props.C38_after_error_panics",
    "Verif.Props.C38_overflow_panics",
    "Verif.Props.C38_full_false"
   ],
   "note": "The code violates the full statement: the call after TooLargeBlock panics for a nested directory, and so do total sizes of 2^64 or more. Proved: when exactly there is a panic (C38_exact_partial, an equivalence)."
  },
  {
   "property": "C39",
   "status": "partial",
   "theorems": [
    "Verif.Props.C39_directory_partial",
    "Verif.Props.C39_full_false"
   ],
   "note": "The code violates the full statement: metadata set by set_metadata is never written. Proved: the directory is built, without metadata."
  },
  {
   "property": "C40",
   "status": "proved",
   "theorems": [
    "Verif.Props.C40_function_of_entries",
    "Verif.Props.C40_buffer"
   ],
   "note": ""
  },
  {
   "property": "C41",
   "status": "proved",
   "theorems": [
    "Verif.Props.C41_absent",
    "Verif.Props.C41_unique",
    "Verif.Props.C41_invalid",
    "Verif.Props.C41_multiple",
    "Verif.Props.C41_cases",
    "Verif.Props.C41_found_only",
    "Verif.Props.C41_rejected"
   ],
   "note": ""
  },
  {
   "property": "C42",
   "status": "proved",
   "theorems": [
    "Verif.Props.C42_lookup",
    "Verif.Props.C42_unique"
   ],
   "note": ""
  },
  {
   "property": "C43",
   "status": "partial",
   "theorems": [
    "Verif.Props.C43_exact_partial",
    "Verif.Props.C43_continue_exact_partial",
    "Verif.Props.C43_partial",
    "Verif.Props.C43_only_boundary",
    "Verif.Props.C43_full_false"
   ],
   "note": "The code violates the full statement: a shard link name whose byte 2 is inside a character panics. Proved: exactly which blocks panic (C43_exact_partial, C43_continue_exact_partial, equivalences)."
  },
  {
   "property": "C44",
   "status": "proved",
   "theorems": [
    "Verif.Props.C44_unexpected",
    "Verif.Props.C44_bucket"
   ],
   "note": ""
  },
  {
   "property": "C45",
   "status": "partial",
   "theorems": [
    "Verif.Props.C45_tree_partial",
    "Verif.Props.C45_exact_partial",
    "Verif.Props.C45_plain",
    "Verif.Props.C45_every_item_partial",
    "Verif.Props.C45_file_bytes",
    "Verif.Props.sampleFs_walk",
    "Verif.Props.C45_full_false"
   ],
   "note": "The code violates the full statement for sharded directories: wrong Cids of buckets directly after the root, and a panic for a bucket directly after a plain directory. Proved: these are the only exceptions; trees without sharded directories are walked exactly as stated (C45_plain). C45_every_item_partial: every accepted block, whatever it is, is reported as specified (names other than '.', root name without '/')."
  },
  {
   "property": "C46",
   "status": "proved",
   "theorems": [
    "Verif.Props.C46_visit_pending",
    "Verif.Props.C46_visit_first",
    "Verif.Props.C46_walk_pending",
    "Verif.Props.C46_walk_accepts"
   ],
   "note": ""
  },
  {
   "property": "C47",
   "status": "partial",
   "theorems": [
    "Verif.Props.C47_buckets_partial",
    "Verif.Props.C47_full_false",
    "Verif.Props.C47_counterexample_panic",
    "Verif.Props.C47_counterexample_cid"
   ],
   "note": "The code violates the full statement in both halves (counterexamples proved). Proved: exactly when it panics and exactly which buckets get a wrong Cid."
  },
  {
   "property": "C48",
   "status": "proved",
   "theorems": [
    "Verif.Props.C48_segments",
    "Verif.Props.C48_flags"
   ],
   "note": "For arbitrary blocks, without conditions."
  },
  {
   "property": "C49",
   "status": "partial",
   "theorems": [
    "Verif.Props.C49_types_partial",
    "Verif.Props.C49_counterexample",
    "Verif.Props.C49_full_false",
    "Verif.Props.C49_undefined_is_raw"
   ],
   "note": "The code violates the full statement: undefined type values parse as Raw and are taken for files. Proved: the defined but unsupported type Metadata is reported, and only it."
  },
  {
   "property": "C50",
   "status": "proved",
   "theorems": [
    "Verif.Props.C50_stops"
   ],
   "note": "In every state, for every block."
  },
  {
   "property": "C51",
   "status": "partial",
   "theorems": [
    "Verif.Props.C51_node",
    "Verif.Props.C51_unixfs",
    "Verif.Props.C51_flat",
    "Verif.Props.C51_overflow_panics",
    "Verif.Props.C51_full_false",
    "Verif.Props.C51_overflow_partial",
    "Verif.Props.C51_exact_partial",
    "Verif.Props.C51_exact_data_partial",
    "Verif.Props.C51_exact_example"
   ],
   "note": "The code violates \"without a panic\" when overflow checks are on: quick-protobuf reads the fields of a nested message without keeping inside of it and then subtracts (read_unknown); the marker error `overflow` stands for this panic (external crate, from knowledge of it). Proved in full: termination, the bounds of slices; for the panic: the counterexample, and exactly which blocks cause it (C51_exact_partial, C51_exact_data_partial; Spec/Overrun), in particular no well-formed one. Other theorems treat it as an Err carrying the marker; what release builds do at these blocks (go back, possibly forever) is C108."
  },
  {
   "property": "C52",
   "status": "proved",
   "theorems": [
    "Verif.Props.C52_root_injective"
   ],
   "note": "Assumes no collision of the hash function among the emitted blocks, which are below 4 GiB (see C94)."
  },
  {
   "property": "C53",
   "status": "proved",
   "theorems": [
    "Verif.Props.C53_cid_roundtrip",
    "Verif.Props.C53_created",
    "Verif.Props.C53_injective",
    "Verif.Props.C53_exact"
   ],
   "note": ""
  },
  {
   "property": "C54",
   "status": "proved",
   "theorems": [
    "Verif.Props.C54_no_panic"
   ],
   "note": ""
  },
  {
   "property": "C55",
   "status": "proved",
   "theorems": [
    "Verif.Props.C55_push_exact"
   ],
   "note": "The emitted blocks are below 4 GiB; C94 gives the configurations."
  },
  {
   "property": "C56",
   "status": "proved",
   "theorems": [
    "Verif.Props.C56_size_hint",
    "Verif.Props.C56_hint_unbuffered",
    "Verif.Props.C56_defaults",
    "Verif.Props.C56_branching"
   ],
   "note": ""
  },
  {
   "property": "C57",
   "status": "proved",
   "theorems": [
    "Verif.Props.C57_build_then_walk"
   ],
   "note": "Case: sample_end_to_end."
  },
  {
   "property": "C58",
   "status": "proved",
   "theorems": [
    "Verif.Props.C58_add_then_walk"
   ],
   "note": ""
  },
  {
   "property": "C59",
   "status": "proved",
   "theorems": [
    "Verif.Props.C59_end_to_end",
    "Verif.Props.C59_each_path",
    "Verif.Props.sample_end_to_end"
   ],
   "note": ""
  },
  {
   "property": "C60",
   "status": "proved",
   "theorems": [
    "Verif.Props.C60_all_answers"
   ],
   "note": "Cases beside the theorem: an error followed by a panic; an error followed by None forever."
  },
  {
   "property": "C61",
   "status": "proved",
   "theorems": [
    "Verif.Props.C61_accessors",
    "Verif.Props.C61_unknown",
    "Verif.Props.C61_roundtrip",
    "Verif.Props.C61_visit",
    "Verif.Props.C61_visit_accessors",
    "Verif.Props.C61_continue",
    "Verif.Props.C61_resolve",
    "Verif.Props.C61_bucket",
    "Verif.Props.C61_walk",
    "Verif.Props.C61_metadata",
    "Verif.Props.C61_wrapped",
    "Verif.Props.C61_sources"
   ],
   "note": ""
  },
  {
   "property": "C62",
   "status": "proved",
   "theorems": [
    "Verif.Props.C62_answers",
    "Verif.Props.C62_all_successful",
    "Verif.Props.C62_permuted"
   ],
   "note": ""
  },
  {
   "property": "C63",
   "status": "proved",
   "theorems": [
    "Verif.Props.C63_name",
    "Verif.Props.C63_path"
   ],
   "note": ""
  },
  {
   "property": "C64",
   "status": "proved",
   "theorems": [
    "Verif.Props.C64_visit",
    "Verif.Props.C64_walk",
    "Verif.Props.C64_walk_names"
   ],
   "note": "When a block has several defects, some of them is named (for the links of a directory: the last). C64_walk is for root names without '/', C64_walk_names for all."
  },
  {
   "property": "C65",
   "status": "proved",
   "theorems": [
    "Verif.Props.C65_resolve",
    "Verif.Props.C65_continue",
    "Verif.Props.C65_pending",
    "Verif.Props.C65_owned"
   ],
   "note": "Equivalences: the answer is r if and only if the specification (Spec/ShardStep) says so."
  },
  {
   "property": "C66",
   "status": "proved",
   "theorems": [
    "Verif.Props.C66_common",
    "Verif.Props.C66_tree"
   ],
   "note": "Assumes no collision of the hash function among the blocks. An example shows that the hypothesis on links is needed."
  },
  {
   "property": "C67",
   "status": "proved",
   "theorems": [
    "Verif.Props.C67_checks",
    "Verif.Props.C67_start",
    "Verif.Props.C67_continue",
    "Verif.Props.C67_walker",
    "Verif.Props.C67_push",
    "Verif.Props.C67_next",
    "Verif.Props.C67_read",
    "Verif.Props.C67_read_wellformed",
    "Verif.Props.C67_ranged_read",
    "Verif.Props.C67_walk",
    "Verif.Props.C67_walk_wellformed",
    "Verif.Props.C67_add",
    "Verif.Props.C67_add_small",
    "Verif.Props.C67_build",
    "Verif.Props.C67_differs"
   ],
   "note": "Release.lean models the functions affected by the profile a second time, with wrapping arithmetic and without debug assertions."
  },
  {
   "property": "C68",
   "status": "proved",
   "theorems": [
    "Verif.Props.C68_start",
    "Verif.Props.C68_continue",
    "Verif.Props.C68_read"
   ],
   "note": "Equivalences for arbitrary blocks and arbitrary states; target ranges have ends below 2^64."
  },
  {
   "property": "C69",
   "status": "partial",
   "theorems": [
    "Verif.Props.C69_paths_full_false",
    "Verif.Props.C69_paths_partial",
    "Verif.Props.C69_dot",
    "Verif.Props.C69_sizes_full_false",
    "Verif.Props.C67_build"
   ],
   "note": "False as stated: after an entry called '.' a later sibling is reported with a wrong path (C69_dot), and total sizes wrap at 2^64. Proved for trees without such names and for total sizes below 2^64 (C67_build)."
  },
  {
   "property": "C70",
   "status": "proved",
   "theorems": [
    "Verif.Props.C70_succeeds_iff",
    "Verif.Props.C70_tree",
    "Verif.Props.C70_unique",
    "Verif.Props.C70_exists",
    "Verif.Props.C70_leaves",
    "Verif.Props.C70_small_fits",
    "Verif.Props.C70_large_panics"
   ],
   "note": ""
  },
  {
   "property": "C71",
   "status": "proved",
   "theorems": [
    "Verif.Props.C71_cat",
    "Verif.Props.C71_missing",
    "Verif.Props.C71_missing_wellformed",
    "Verif.Props.C71_add_then_cat"
   ],
   "note": "The emitted blocks are below 4 GiB; C94 gives the configurations."
  },
  {
   "property": "C72",
   "status": "proved",
   "theorems": [
    "Verif.Props.C72_get",
    "Verif.Props.C72_not_utf8",
    "Verif.Props.C72_missing"
   ],
   "note": "The example's expect on symlink targets panics for targets which are not UTF-8 (C72_not_utf8)."
  },
  {
   "property": "C73",
   "status": "proved",
   "theorems": [
    "Verif.Props.C73_resolve",
    "Verif.Props.C73_found",
    "Verif.Props.C73_notFound",
    "Verif.Props.C73_segment",
    "Verif.Props.C73_missing"
   ],
   "note": ""
  },
  {
   "property": "C74",
   "status": "proved",
   "theorems": [
    "Verif.Props.C74_add",
    "Verif.Props.C74_add_succeeds",
    "Verif.Props.C74_splitting"
   ],
   "note": "The hash function has 32 byte digests."
  },
  {
   "property": "C75",
   "status": "proved",
   "theorems": [
    "Verif.Props.C75_path",
    "Verif.Props.C75_injective",
    "Verif.Props.C75_cids",
    "Verif.Props.C75_short"
   ],
   "note": ""
  },
  {
   "property": "C76",
   "status": "proved",
   "theorems": [
    "Verif.Props.C76_operations",
    "Verif.Props.C76_answers",
    "Verif.Props.C76_unlimited"
   ],
   "note": ""
  },
  {
   "property": "C77",
   "status": "proved",
   "theorems": [
    "Verif.Props.C77_lookup"
   ],
   "note": "Case: the sample shard, beside C73_missing."
  },
  {
   "property": "C78",
   "status": "proved",
   "theorems": [
    "Verif.Props.C78_prefixed",
    "Verif.Props.C78_plain",
    "Verif.Props.C78_invalid"
   ],
   "note": "Cid::try_from(&str) is a parameter."
  },
  {
   "property": "C79",
   "status": "proved",
   "theorems": [
    "Verif.Props.C79_resolve_built",
    "Verif.Props.C79_text"
   ],
   "note": "Case: sample_examples. Cid::try_from(&str) is a parameter."
  },
  {
   "property": "C80",
   "status": "proved",
   "theorems": [
    "Verif.Props.C80_get_built",
    "Verif.Props.C80_get_added"
   ],
   "note": "Case: sample_examples. Paths with components `.` or empty are excluded (C47)."
  },
  {
   "property": "C81",
   "status": "proved",
   "theorems": [
    "Verif.Props.C81_accepted",
    "Verif.Props.C81_not_dagpb",
    "Verif.Props.C81_no_data",
    "Verif.Props.C81_not_unixfs",
    "Verif.Props.C81_node_data",
    "Verif.Props.C81_minimal_node",
    "Verif.Props.C81_unixfs",
    "Verif.Props.C81_of_node",
    "Verif.Props.C81_agree"
   ],
   "note": "Case: padded_accepted."
  },
  {
   "property": "C82",
   "status": "proved",
   "theorems": [
    "Verif.Props.C82_same_answers"
   ],
   "note": "Case: the example after it."
  },
  {
   "property": "C83",
   "status": "proved",
   "theorems": [
    "Verif.Props.C83_saved_blocks_read",
    "Verif.Props.C83_saved_content",
    "Verif.Props.C83_at_most_a_chunk_lost",
    "Verif.Props.C83_resume",
    "Verif.Props.C83_saved_directories"
   ],
   "note": "Cases: the examples in Props/Crash. The emitted blocks are below 4 GiB (see C94)."
  },
  {
   "property": "C84",
   "status": "proved",
   "theorems": [
    "Verif.Props.C84_read_missing",
    "Verif.Props.C84_walk_missing",
    "Verif.Props.C84_read_needs",
    "Verif.Props.C84_range_needs",
    "Verif.Props.C84_walk_needs",
    "Verif.Props.C84_walk_part",
    "Verif.Props.C84_walk_wellformed"
   ],
   "note": "Cases: the examples in Props/Missing. That the logs are those of the loops of C18 and C45: readLog_sound, readFrom_log, walkLog_sound, walkFrom_log."
  },
  {
   "property": "C85",
   "status": "proved",
   "theorems": [
    "Verif.Props.C85_finish_empty",
    "Verif.Props.C85_one_chunk",
    "Verif.Props.C85_root_last",
    "Verif.Props.C85_expected_false"
   ],
   "note": "C85_expected_false refutes what a client might expect: that finish always returns a block."
  },
  {
   "property": "C86",
   "status": "proved",
   "theorems": [
    "Verif.Props.C86_ends",
    "Verif.Props.C86_exactly",
    "Verif.Props.C86_one_chunk_file",
    "Verif.Props.C86_blocks",
    "Verif.Props.C86_walk",
    "Verif.Props.C86_resolve",
    "Verif.Props.C86_order"
   ],
   "note": "Paths and link names are below 2^31 bytes. C86_walk needs paths which can be walked (not empty, no component '.'); C86_resolve does not."
  },
  {
   "property": "C87",
   "status": "proved",
   "theorems": [
    "Verif.Props.C87_unfolds",
    "Verif.Props.C87_count_unique",
    "Verif.Props.C87_read",
    "Verif.Props.C87_file",
    "Verif.Props.C87_walk",
    "Verif.Props.C87_lookup",
    "Verif.Props.C87_cat_get",
    "Verif.Props.C87_resolve",
    "Verif.Props.C87_circle"
   ],
   "note": "C87_circle shows that the condition is needed."
  },
  {
   "property": "C88",
   "status": "proved",
   "theorems": [
    "Verif.Props.C88_read",
    "Verif.Props.C88_walk",
    "Verif.Props.C88_lookup"
   ],
   "note": ""
  },
  {
   "property": "C89",
   "status": "proved",
   "theorems": [
    "Verif.Props.C89_read",
    "Verif.Props.C89_walk",
    "Verif.Props.C89_added"
   ],
   "note": "The emitted blocks are below 4 GiB; C94 gives the configurations."
  },
  {
   "property": "C90",
   "status": "proved",
   "theorems": [
    "Verif.Props.C90_keeps",
    "Verif.Props.C90_finish",
    "Verif.Props.C90_expected_false"
   ],
   "note": "C90_expected_false refutes what the comments in adder.rs suggest."
  },
  {
   "property": "C91",
   "status": "proved",
   "theorems": [
    "Verif.Props.C91_text",
    "Verif.Props.C91_boundary",
    "Verif.Props.C91_names",
    "Verif.Props.C91_uncuttable"
   ],
   "note": "UTF-8 is specified by String.utf8EncodeChar of Lean's prelude; core::str::from_utf8 is modelled by an automaton."
  },
  {
   "property": "C92",
   "status": "partial",
   "theorems": [
    "Verif.Props.C92_honest_partial",
    "Verif.Props.C92_one_call",
    "Verif.Props.C92_full_false",
    "Verif.Props.C92_size_not_reliable"
   ],
   "note": "C92_full is false (C92_full_false); what is missing is exactly the case of leaves whose declared size differs from the length of their data."
  },
  {
   "property": "C93",
   "status": "partial",
   "theorems": [
    "Verif.Props.C93_components",
    "Verif.Props.C93_below_partial",
    "Verif.Props.C93_full_false"
   ],
   "note": "C93_full is false (C93_full_false); what is missing is exactly the case of entries called `..`."
  },
  {
   "property": "C94",
   "status": "proved",
   "theorems": [
    "Verif.Props.C94_block_sizes",
    "Verif.Props.C94_default_sizes",
    "Verif.Props.C94_below_limit",
    "Verif.Props.C94_data_below_4GiB",
    "Verif.Props.C94_too_large_lost"
   ],
   "note": ""
  },
  {
   "property": "C95",
   "status": "proved",
   "theorems": [
    "Verif.Props.C95_reads_alike",
    "Verif.Props.C95_first_block",
    "Verif.Props.C95_whole_file"
   ],
   "note": ""
  },
  {
   "property": "C96",
   "status": "proved",
   "theorems": [
    "Verif.Props.C96_root_path",
    "Verif.Props.C96_one_component",
    "Verif.Props.C96_other_names",
    "Verif.Props.C96_other_answers"
   ],
   "note": "with debug assertions, as everywhere except for the properties about release builds"
  },
  {
   "property": "C97",
   "status": "proved",
   "theorems": [
    "Verif.Props.C97_debug",
    "Verif.Props.C97_example"
   ],
   "note": "strings are Lean's; numbers are written with toString, as Rust writes them in decimal; the counter is an i32 because nothing else determines its type; the capacity of the buffer is an argument of the model (what it is: C106)"
  },
  {
   "property": "C98",
   "status": "proved",
   "theorems": [
    "Verif.Props.C98_bench"
   ],
   "note": "the blocks, which the benchmark only counts, are collected by the model"
  },
  {
   "property": "C99",
   "status": "proved",
   "theorems": [
    "Verif.Props.C99_one_line",
    "Verif.Props.C99_example"
   ],
   "note": "the texts of errors of other crates (quick_protobuf, cid), of Cids and the table of printable characters are parameters; the former are assumed to be printable (TidyTexts)"
  }
 ]
}