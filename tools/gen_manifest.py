#!/usr/bin/env python3
"""Writes /verif/MANIFEST.json from the table below."""
import json
P = lambda s: ["Verif.Props." + x for x in s.split()]
T = [
 ("C01","proved",P("C01_flat_roundtrip C01_unixfs_roundtrip C01_write_injective C01_mime_roundtrip C01_time_roundtrip"),"For every value within its Rust types whose length-delimited parts are under 2^32 bytes (the wire format's limit)."),
 ("C02","proved",P("C02_link C02_node C02_time C02_unixfs C02_flat C02_mime C02_directory"),""),
 ("C03","proved",P("C03_node_roundtrip"),""),
 ("C04","proved",P("C04_fields C04_order C04_data_position C04_unknown C04_unknown_unixfs"),""),
 ("C05","partial",P("C05_wrap_partial C05_wrap_no_panic_partial C05_wrap_panics C05_full_false"),"The code violates the full statement: an empty Data field at the end of the block (e.g. 0a00) panics. Proved: that is the only exception."),
 ("C06","proved",P("C06_symlink"),""),
 ("C07","proved",P("C07_push_progress C07_feed_terminates C07_feed_exact feed_adds"),"No size bound: the loop always ends, with blocks exactly if the tree size fits into 64 bits and in the overflow panic otherwise (C07_feed_exact); branching factor >= 2 (factor 1: C10)."),
 ("C08","proved",P("C08_push_two_blocks"),"Every content, every configuration."),
 ("C09","partial",P("C09_push_no_panic_partial C09_push_only_overflow_partial C09_size_zero_panics C09_full_false C09_exact_partial C09_overflow_example"),"The code violates the full statement: Chunker::Size(0) panics at the first push. Proved for every positive chunk size and content of any length, provided one group of branching-factor many chunks fits into 64 bits; otherwise the only panic is that overflow. C09_exact_partial: exactly when push panics, for every configuration and every history."),
 ("C10","partial",P("C10_finish_exact_partial C10_finish_overflow_partial C10_finish_iff_partial C10_full_false"),"The code violates the full statement: branching factor 1 with at least two chunks never returns. Proved: exactly when finish returns."),
 ("C11","proved",P("C11_segmentation C11_feed"),""),
 ("C12","proved",P("C12_root_last C12_tree"),"The emitted blocks are below 4 GiB; C94 gives the configurations."),
 ("C13","proved",P("C13_children_first C13_children_first_unfinished"),"The emitted blocks are below 4 GiB; C94 gives the configurations."),
 ("C15","proved",P("C15_leaves C15_chunks"),"The emitted blocks are below 4 GiB; C94 gives the configurations."),
 ("C16","proved",P("C16_balanced C16_links"),"The emitted blocks are below 4 GiB; C94 gives the configurations."),
 ("C17","proved",P("C17_sizes"),"The emitted blocks are below 4 GiB; C94 gives the configurations."),
 ("C18","proved",P("C18_add_then_read C18_read_wellformed"),"Content of any length; the emitted blocks are below 4 GiB (C94 gives the configurations); reading holds for well-formed trees of any shape."),
 ("C19","proved",P("C19_ranged_read C19_tile slice_getElem?"),""),
 ("C20","partial",P("C20_start_size C20_start_wellformed C20_later_steps_partial C20_full_false"),"The size at start is proved. The code violates the second half: FileVisit::file_size() returns the size of the block given last; counterexample and exact behaviour proved."),
 ("C22","proved",P("C22_requests C22_requests_all touches_iff"),""),
 ("C23","proved",P("C23_forward C23_after_leaf C23_contiguous"),"Over arbitrary blocks; for unranged visits also without holes."),
 ("C24","proved",P("C24_metadata_of_root C24_metadata_at_start C24_nonroot_rejected"),""),
 ("C25","proved",P("C25_visit_cache C25_start_cache C25_lookup_cache C25_walk_cache"),""),
 ("C26","partial",P("C26_exact_partial C26_start_partial C26_unsized_panics C26_full_false"),"The code violates the full statement: a leaf without filesize panics (and block sizes summing over 2^64 overflow). Proved for all other blocks: no panic, error iff documented reason, and the error is such a reason; and C26_exact_partial gives, with no hypothesis on the block, the exact condition under which starting panics."),
 ("C27","partial",P("C27_visit_exact_partial C27_walk_exact_partial C27_walk_names_partial C27_walk_dot_panics C27_visit_partial C27_pending_nonempty C27_visit_full_false C27_pending_links_panics C27_walk_partial C27_walk_full_false C27_walk_unparsable_panics C27_walk_not_a_bucket_panics C27_walk_empty_name_panics C27_walk_slash_panics"),"The code violates the full statement (counterexamples proved). Proved: no panic of a visit for every block which declares its size, does not overflow u64 and, for ranged visits, is as long as its interval; and none of a walker for every block satisfying SaneStep. C27_visit_exact_partial and C27_walk_exact_partial give, for every history and every block, the exact condition (an equivalence) under which a visit, or a walker, panics; the latter for root names without '/', and C27_walk_names_partial for all root names."),
 ("C28","proved",P("C28_slice_exact C28_in_bounds"),""),
 ("C46","proved",P("C46_visit_pending C46_visit_first C46_walk_pending C46_walk_accepts"),""),
 ("C45","partial",P("C45_tree_partial C45_exact_partial C45_plain C45_every_item_partial C45_file_bytes sampleFs_walk C45_full_false"),"The code violates the full statement for sharded directories: wrong Cids of buckets directly after the root, and a panic for a bucket directly after a plain directory. Proved: these are the only exceptions; trees without sharded directories are walked exactly as stated (C45_plain). C45_every_item_partial: every accepted block, whatever it is, is reported as specified (names other than '.', root name without '/')."),
 ("C47","partial",P("C47_buckets_partial C47_full_false C47_counterexample_panic C47_counterexample_cid"),"The code violates the full statement in both halves (counterexamples proved). Proved: exactly when it panics and exactly which buckets get a wrong Cid."),
 ("C48","proved",P("C48_segments C48_flags"),"For arbitrary blocks, without conditions."),
 ("C49","partial",P("C49_types_partial C49_counterexample C49_full_false C49_undefined_is_raw"),"The code violates the full statement: undefined type values parse as Raw and are taken for files. Proved: the defined but unsupported type Metadata is reported, and only it."),
 ("C50","proved",P("C50_stops"),"In every state, for every block."),
 ("C41","proved",P("C41_absent C41_unique C41_invalid C41_multiple C41_cases C41_found_only C41_rejected"),""),
 ("C42","proved",P("C42_lookup C42_unique"),""),
 ("C43","partial",P("C43_exact_partial C43_continue_exact_partial C43_partial C43_only_boundary C43_full_false"),"The code violates the full statement: a shard link name whose byte 2 is inside a character panics. Proved: exactly which blocks panic (C43_exact_partial, C43_continue_exact_partial, equivalences)."),
 ("C44","proved",P("C44_unexpected C44_bucket"),""),
 ("C21","proved",P("C21_minimal_height"),"The emitted blocks are below 4 GiB; C94 gives the configurations."),
 ("C52","proved",P("C52_root_injective"),"Assumes no collision of the hash function among the emitted blocks, which are below 4 GiB (see C94)."),
 ("C14","proved",P("C14_adder_cids C14_adder_cids_unfinished C14_directory_cids"),""),
 ("C29","proved",P("C29_rejected C29_accepted C29_components"),""),
 ("C30","proved",P("C30_failed_unobservable C30_failed_contents"),""),
 ("C31","proved",P("C31_outcome C31_update C31_history C31_put_iff C31_set_metadata_iff C31_order"),"Paths of less than 2^31 bytes."),
 ("C32","proved",P("C32_at_most_one C32_second_refused"),"A one-component path - even set_metadata on the existing root level entry - is refused too."),
 ("C33","proved",P("C33_build C33_any"),""),
 ("C34","proved",P("C34_block"),""),
 ("C35","proved",P("C35_resolve"),""),
 ("C36","proved",P("C36_total C36_recursive"),""),
 ("C37","proved",P("C37_limit C37_never_larger"),""),
 ("C38","partial",P("C38_exact_partial C38_no_panic_partial C38_after_error_panics C38_overflow_panics C38_full_false"),"The code violates the full statement: the call after TooLargeBlock panics for a nested directory, and so do total sizes of 2^64 or more. Proved: when exactly there is a panic (C38_exact_partial, an equivalence)."),
 ("C39","partial",P("C39_directory_partial C39_full_false"),"The code violates the full statement: metadata set by set_metadata is never written. Proved: the directory is built, without metadata."),
 ("C40","proved",P("C40_function_of_entries C40_buffer"),""),
 ("C54","proved",P("C54_no_panic"),""),
 ("C51","partial",P("C51_node C51_unixfs C51_flat C51_overflow_panics C51_full_false C51_overflow_partial C51_exact_partial C51_exact_data_partial C51_exact_example"),"The code violates \"without a panic\" when overflow checks are on: quick-protobuf reads the fields of a nested message without keeping inside of it and then subtracts (read_unknown); the marker error `overflow` stands for this panic (external crate, from knowledge of it). Proved in full: termination, the bounds of slices; for the panic: the counterexample, and exactly which blocks cause it (C51_exact_partial, C51_exact_data_partial; Spec/Overrun), in particular no well-formed one. Other theorems treat it as an Err carrying the marker; what release builds do at these blocks (go back, possibly forever) is C108."),
 ("C53","proved",P("C53_cid_roundtrip C53_created C53_injective C53_exact"),""),
 ("C55","proved",P("C55_push_exact"),"The emitted blocks are below 4 GiB; C94 gives the configurations."),
 ("C70","proved",P("C70_succeeds_iff C70_tree C70_unique C70_exists C70_leaves C70_small_fits C70_large_panics"),""),
 ("C71","proved",P("C71_cat C71_missing C71_missing_wellformed C71_add_then_cat"),"The emitted blocks are below 4 GiB; C94 gives the configurations."),
 ("C72","proved",P("C72_get C72_not_utf8 C72_missing"),"The example's expect on symlink targets panics for targets which are not UTF-8 (C72_not_utf8)."),
 ("C73","proved",P("C73_resolve C73_found C73_notFound C73_segment C73_missing"),""),
 ("C74","proved",P("C74_add C74_add_succeeds C74_splitting"),"The hash function has 32 byte digests."),
 ("C75","proved",P("C75_path C75_injective C75_cids C75_short"),""),
 ("C76","proved",P("C76_operations C76_answers C76_unlimited"),""),
 ("C77","proved",P("C77_lookup"),"Case: the sample shard, beside C73_missing."),
 ("C78","proved",P("C78_prefixed C78_plain C78_invalid"),"Cid::try_from(&str) is a parameter."),
 ("C79","proved",P("C79_resolve_built C79_text"),"Case: sample_examples. Cid::try_from(&str) is a parameter."),
 ("C80","proved",P("C80_get_built C80_get_added"),"Case: sample_examples. Paths with components `.` or empty are excluded (C47)."),
 ("C81","proved",P("C81_accepted C81_not_dagpb C81_no_data C81_not_unixfs C81_node_data C81_minimal_node C81_unixfs C81_of_node C81_agree"),"Case: padded_accepted."),
 ("C82","proved",P("C82_same_answers"),"Case: the example after it."),
 ("C83","proved",P("C83_saved_blocks_read C83_saved_content C83_at_most_a_chunk_lost C83_resume C83_saved_directories"),"Cases: the examples in Props/Crash. The emitted blocks are below 4 GiB (see C94)."),
 ("C84","proved",P("C84_read_missing C84_walk_missing C84_read_needs C84_range_needs C84_walk_needs C84_walk_part C84_walk_wellformed"),"Cases: the examples in Props/Missing. That the logs are those of the loops of C18 and C45: readLog_sound, readFrom_log, walkLog_sound, walkFrom_log."),
 ("C57","proved",P("C57_build_then_walk"),"Case: sample_end_to_end."),
 ("C58","proved",P("C58_add_then_walk"),""),
 ("C59","proved",P("C59_end_to_end C59_each_path sample_end_to_end"),""),
 ("C60","proved",P("C60_all_answers"),"Cases beside the theorem: an error followed by a panic; an error followed by None forever."),
 ("C61","proved",P("C61_accessors C61_unknown C61_roundtrip C61_visit C61_visit_accessors C61_continue C61_resolve C61_bucket C61_walk C61_metadata C61_wrapped C61_sources"),""),
 ("C62","proved",P("C62_answers C62_all_successful C62_permuted"),""),
 ("C63","proved",P("C63_name C63_path"),""),
 ("C67","proved",P("C67_checks C67_start C67_continue C67_walker C67_push C67_next C67_read C67_read_wellformed C67_ranged_read C67_walk C67_walk_wellformed C67_add C67_add_small C67_build C67_differs"),"Release.lean models the functions affected by the profile a second time, with wrapping arithmetic and without debug assertions."),
 ("C68","proved",P("C68_start C68_continue C68_read"),"Equivalences for arbitrary blocks and arbitrary states; target ranges have ends below 2^64."),
 ("C69","partial",P("C69_paths_full_false C69_paths_partial C69_dot C69_sizes_full_false C67_build"),"False as stated: after an entry called '.' a later sibling is reported with a wrong path (C69_dot), and total sizes wrap at 2^64. Proved for trees without such names and for total sizes below 2^64 (C67_build)."),
 ("C66","proved",P("C66_common C66_tree"),"Assumes no collision of the hash function among the blocks. An example shows that the hypothesis on links is needed."),
 ("C64","proved",P("C64_visit C64_walk C64_walk_names"),"When a block has several defects, some of them is named (for the links of a directory: the last). C64_walk is for root names without '/', C64_walk_names for all."),
 ("C65","proved",P("C65_resolve C65_continue C65_pending C65_owned"),"Equivalences: the answer is r if and only if the specification (Spec/ShardStep) says so."),
 ("C56","proved",P("C56_size_hint C56_hint_unbuffered C56_defaults C56_branching"),""),
 ("C85","proved",P("C85_finish_empty C85_one_chunk C85_root_last C85_expected_false"),"C85_expected_false refutes what a client might expect: that finish always returns a block."),
 ("C86","proved",P("C86_ends C86_exactly C86_one_chunk_file C86_blocks C86_walk C86_resolve C86_order"),"Paths and link names are below 2^31 bytes. C86_walk needs paths which can be walked (not empty, no component '.'); C86_resolve does not."),
 ("C87","proved",P("C87_unfolds C87_count_unique C87_read C87_file C87_walk C87_lookup C87_cat_get C87_resolve C87_circle"),"C87_circle shows that the condition is needed."),
 ("C88","proved",P("C88_read C88_walk C88_lookup"),""),
 ("C89","proved",P("C89_read C89_walk C89_added"),"The emitted blocks are below 4 GiB; C94 gives the configurations."),
 ("C90","proved",P("C90_keeps C90_finish C90_expected_false"),"C90_expected_false refutes what the comments in adder.rs suggest."),
 ('C91','proved',P('C91_text C91_boundary C91_names C91_uncuttable'),"UTF-8 is specified by String.utf8EncodeChar of Lean's prelude; core::str::from_utf8 is modelled by an automaton."),
 ('C92','partial',P('C92_honest_partial C92_one_call C92_full_false C92_size_not_reliable'),'C92_full is false (C92_full_false); what is missing is exactly the case of leaves whose declared size differs from the length of their data.'),
 ('C93','partial',P('C93_components C93_below_partial C93_full_false'),'C93_full is false (C93_full_false); what is missing is exactly the case of entries called `..`.'),
 ('C94','proved',P('C94_block_sizes C94_default_sizes C94_below_limit C94_data_below_4GiB C94_too_large_lost'),''),
 ('C95','proved',P('C95_reads_alike C95_first_block C95_whole_file'),''),
 ('C96','proved',P('C96_root_path C96_one_component C96_other_names C96_other_answers'),'with debug assertions, as everywhere except for the properties about release builds'),
 ('C97','proved',P('C97_debug C97_example'),"strings are Lean's; numbers are written with toString, as Rust writes them in decimal; the counter is an i32 because nothing else determines its type; the capacity of the buffer is an argument of the model (what it is: C106)"),
 ('C98','proved',P('C98_bench'),'the blocks, which the benchmark only counts, are collected by the model'),
 ('C99','proved',P('C99_one_line C99_example'),'the texts of errors of other crates (quick_protobuf, cid), of Cids and the table of printable characters are parameters; the former are assumed to be printable (TidyTexts)'),
 ('C100','proved',P('C100_walk C100_link C100_building C100_names C100_shown C100_wrap C100_shown_example'),"errors of other crates count as the same if their texts are; the text of a parsing error must not be 'no data' (quick_protobuf has no such); C100_names: the names in the errors of a walk are text"),
 ('C101','proved',P('C101_one_line C101_readable C101_printed C101_forge C101_decimal C101_example'),'paths are printed as their components joined by slashes, which is what the string in the PathBuf is for get (root name ""); whether the Debug of a Path escapes single quotes is a parameter'),
 ('C102','proved',P('C102_link C102_read C102_parse C102_resolve C102_walk C102_building C102_construction C102_item C102_mtime C102_segment C102_parse_names C102_one_line C102_example'),'what other crates print of their errors and of Cids is a parameter, assumed to be printable and to tell which value it is of and where it ends (TellingTexts; env1_tells is an instance)'),
 ('C103','partial',P('C103_held C103_message C103_ends C103_bottom_partial C103_silent C103_conversion C103_full_false C103_example'),'The full statement is false: errors of a walk and of building a tree never give a cause although they hold one, and neither do errors of a lookup about links which are no Cid (C103_full_false, C103_silent). C103_bottom_partial: all others do.'),
 ('C104','proved',P('C104_shape C104_roundtrip C104_behind C104_injective C104_path C104_bafybei C104_base58 C104_longer C104_v0_only C104_digits_v0 C104_digits_v1 C104_exact C104_exact_example C104_example'),'Reading of other bases than base58btc and lower case base 32 is a parameter of the model; no theorem depends on what it does.'),
 ('C105','proved',P('C105_files C105_usage C105_no_repository C105_no_cid C105_cat C105_cat_missing C105_cat_code C105_add_cat C105_resolve C105_last_line C105_never_alone C105_resolve_root C105_get C105_built C105_example'),'Texts of other crates and of the operating system are parameters; errors other than at opening a file, arguments which are not UTF-8 and the overflow of the counters are left out.'),
 ('C106','proved',P('C106_capacities C106_push C106_finish C106_useless C106_memory C106_debug C106_reserve C106_example'),'Vec::reserve is modelled as in the standard library (grow_amortized) with 64 bits; the allocator is assumed to give whatever is asked for; the size of a PBLink is a parameter of at least 8 bytes.'),
 ('C107','proved',P('C107_unix C107_windows C107_order C107_all C107_unordered C107_example'),'the crate filetime is modelled from its documented behaviour; the platform is a parameter.'),
 ('C108','proved',P('C108_agrees C108_ends C108_inside C108_hangs C108_hangs_time C108_hangs_overrun C108_accepts'),"quick-protobuf's reader is modelled from knowledge of the crate, with 64-bit usize; `none` is divergence (partial_fixpoint)."),
 ('C109','proved',P('C109_agrees C109_runs C109_lookup C109_start C109_continue C109_read C109_only C109_hangs C109_example'),'extends C67-C69, whose model reads blocks as a checked build does.'),
 ('C110','proved',P('C110_accepted C110_not_dagpb C110_no_data C110_not_unixfs C110_same C110_more C110_cut_example C110_panics C110_panics_example C110_panics_exact C110_panics_data C110_panics_same C110_exact_example'),'the exact panics for blocks below 2^31 bytes, the largest allocation there; all other properties are about 64-bit platforms; C110 and C111 say what changes.'),
 ('C111','proved',P('C111_slice C111_block C111_parsed C111_read C111_wellformed C111_walk C111_wrong_example'),'adding files and building trees never make a usize from a u64.'),
 ('C112','partial',P('C112_components C112_inside C112_below_partial C112_full_false C112_dot C112_stray C112_fine'),'the full statement (paths below the root name) is refuted by `C112_full_false`; `C112_below_partial` is what holds, `C112_components` and `C112_inside` hold for all blocks.'),
 ('C113','proved',P('C113_step C113_walk C113_example C113_needed'),'sufficient conditions, each of them shown by `C113_needed` to be needed, with a store which meets all others; they are not claimed to be necessary store by store.'),
 ('C114','proved',P('C114_block C114_read C114_walk C114_lookup C114_resolve C114_file C114_items C114_tree C114_path C114_release_read C114_release_walk C114_release_lookup C114_example'),'the crate does not verify blocks itself: that is an assumption on the store, as is that there is no collision between blocks of the two stores. C114_release_*: the same for release builds, over arbitrary blocks.'),
 ('C115','proved',P('C115_count C115_file C115_walk C115_lookup C115_kept C115_needed C115_example'),'as C87 for checked builds; that a block which is read forever keeps a client from ending is C109_hangs.'),
 ('C116','partial',P('C116_one_call C116_honest_partial C116_full_false C116_example'),'C92 for release builds. C116_full (all calls together, honest leaves) is false: C116_full_false; C116_honest_partial needs the blocks to be shorter than the distance from the end of the range to 2^64.'),
 ('C117','proved',P('C117_blocks C117_count C117_shared C117_prefix C117_append C117_overwrite C117_one_chunk C117_example'),'`Adds` is: any cuts of the content into pushes, followed by finish, give these blocks.'),
 ('C118','proved',P('C118_same C118_step C118_changes C118_example'),''),
 ('C119','proved',P('C119_asks C119_all C119_count C119_small C119_example'),''),
 ('C120','proved',P('C120_walk C120_stopped C120_tree C120_read C120_file C120_unique C120_blocks C120_example'),''),
 ('C121','proved',P('C121_reported C121_below C121_resolve C121_example'),''),
 ('C122','proved',P('C122_answers C122_found C122_absent C122_example C122_twice'),'C122_twice: a directory with two entries of one name is walked to the end, but the name cannot be looked up.'),
 ('C123','proved',P('C123_wellformed C123_parts C123_needed C123_silent C123_example'),'C123_needed: root of 10 bytes over honest leaves of 5 and 7; whole read gives 12 bytes, the range 6..8 fails with TreeOverlapsBetweenLinks. C123_silent: a range of an eight-byte file which is read without an error and comes out empty.'),
 ('C124','proved',P('C124_file C124_directory C124_symlink C124_unambiguous C124_determined C124_example'),'The specification in Spec/Strict does not refer to the readers or writers of the model. Blocks of 4 GiB and more are excluded (C94), and total sizes beyond 64 bits.'),
 ('C125','proved',P('C125_order C125_found C125_notFound C125_lookup C125_plain C125_same C125_example'),'Extends C65 (one step) to whole look-ups. Whether a look-up ends is C87.'),
 ('C126','proved',P('C126_roundtrip C126_archive C126_example'),"The export itself is a specification (Spec/Exporting), as the repository has no program which writes archives. Components '.' make walks panic or lose paths (C112)."),
 ('C127','proved',P('C127_total C127_default C127_ratio C127_directory C127_accepted C127_accepted_default C127_example C127_accepted_example'),'The bounds are not exact. A branching factor of one with several chunks never ends (C10).'),
 ('C128','proved',P('C128_block C128_read C128_step C128_walk C128_pending C128_lookup C128_example'),"Sizes are counted in bytes of digests, names, data and numbers; the constant factors of Rust's own structures, and spare capacity of vectors, are not counted."),
 ('C129','proved',P('C129_count C129_block C129_read C129_step C129_walk C129_lookup C129_more C129_example'),'Only parses which end are considered; C108 says which do not. Sizes are counted as in C128.'),
 ('C130','proved',P('C130_asks C130_items C130_panics C130_hangs C130_example C130_example_places'),'The state of an ongoing visit of a file enters the condition for its further blocks, as in C27. Release builds are modelled as debug assertions and overflow checks switched off.'),
 ('C131','proved',P('C131_start C131_continue C131_walk C131_example C131_example_walk'),'Release builds are modelled as debug assertions and overflow checks switched off.'),
 ('C132','proved',P('C132_resolve C132_continue C132_panics C132_order C132_lookup C132_example'),'Release builds are modelled as debug assertions and overflow checks switched off. Debug builds: C41-C44, C65, C125.'),
 ('C133','proved',P('C133_all_answers C133_panics C133_nodes C133_block C133_totals C133_agrees C133_example'),'Release builds are modelled as debug assertions and overflow checks switched off. Checked builds: C33-C36, C38, C60.'),
 ('C134','proved',P('C134_cat C134_cat_file C134_cat_clean C134_get C134_get_clean C134_cat_example C134_get_example'),'Standard output is modelled as LineWriter: after a successful write at most a line without its end is in the buffer; what is still there when the process ends may be lost. What arrives is what write(2) took. Output on standard error: C105.'),
 ('C135','proved',P('C135_cat C135_cat_agrees C135_cat_file C135_get_agrees C135_get C135_resolve_agrees C135_resolve C135_ends C135_example'),'`ReleaseRun` (blocks read as in release builds) with the loops of the examples.'),
 ('C136','proved',P('C136_resolve C136_result C136_line C136_clean C136_example'),'Standard output as in C134; standard error has no buffer. The five lines after an error of opening are one piece, of which any part may arrive. `C136_line` is stated for paths whose resolving ends without failures.'),
 ('C137','proved',P('C137_read C137_debug C137_add C137_exit C137_small C137_example'),"The lines about time and memory (`tail`) and the capacity of the adder's buffer are arbitrary: the model does not say what the clock and the allocator do. Reads are not retried, also not interrupted ones. C74 is about the same program without the line which says the adder and without failures."),
 ('C138','proved',P('C138_walk C138_stopped C138_log C138_read C138_unique C138_blocks C138_kept C138_tree C138_example'),'C120 for release builds; release builds are modelled as debug assertions and overflow checks switched off.'),
 ('C139','proved',P('C139_reads_alike C139_whole_file C139_example'),'C95 for release builds; release builds are modelled as debug assertions and overflow checks switched off.'),
]
have = {t[0] for t in T}
claims = [{"property":a,"status":b,"theorems":c,"note":d} for a,b,c,d in T]
props = [json.loads(l)["id"] for l in open("/verif/properties.jsonl")]
missing = [p for p in props if p not in have]
json.dump({"claims": sorted(claims, key=lambda c: c["property"])}, open("/verif/MANIFEST.json","w"), indent=1, ensure_ascii=False)
print("missing:", missing)
