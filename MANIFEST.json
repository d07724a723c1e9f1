{
 "claims": [
  {
   "property": "C01",
   "status": "proved",
   "theorems": [
    "Snap.Props.C01_base32_roundtrip"
   ],
   "note": ""
  },
  {
   "property": "C02",
   "status": "proved",
   "theorems": [
    "Snap.Props.C02_length_alphabet",
    "Snap.Props.C02_injective",
    "Snap.Props.C02_characters"
   ],
   "note": ""
  },
  {
   "property": "C03",
   "status": "proved",
   "theorems": [
    "Snap.Props.C03_accepts_iff",
    "Snap.Props.C03_error_is_unknown_byte",
    "Snap.Props.C03_case_insensitive",
    "Snap.Props.C03_length"
   ],
   "note": ""
  },
  {
   "property": "C04",
   "status": "proved",
   "theorems": [
    "Snap.Props.C04_roundtrip",
    "Snap.Props.C04_accepts_iff",
    "Snap.Props.C04_inverse",
    "Snap.Props.C04_errors",
    "Snap.Props.C04_injective"
   ],
   "note": ""
  },
  {
   "property": "C05",
   "status": "proved",
   "theorems": [
    "Snap.Props.C05_shape",
    "Snap.Props.C05_parses_back",
    "Snap.Props.C05_injective"
   ],
   "note": ""
  },
  {
   "property": "C06",
   "status": "proved",
   "theorems": [
    "Snap.Props.C06_ref",
    "Snap.Props.C06_text",
    "Snap.Props.C06_never_panics"
   ],
   "note": ""
  },
  {
   "property": "C07",
   "status": "proved",
   "theorems": [
    "Snap.Props.C07_abbreviation"
   ],
   "note": ""
  },
  {
   "property": "C08",
   "status": "proved",
   "theorems": [
    "Snap.Props.C08_abbreviation",
    "Snap.Props.C08_ref"
   ],
   "note": ""
  },
  {
   "property": "C09",
   "status": "proved",
   "theorems": [
    "Snap.Props.C09_full_key_behaviour",
    "Snap.Props.C09_full_key_counterexample",
    "Snap.Props.C09_absent_key_panics"
   ],
   "note": "The expectation that a full key resolves is refuted by C09_full_key_counterexample."
  },
  {
   "property": "C10",
   "status": "proved",
   "theorems": [
    "Snap.Props.C10_overlong_accepted_counterexample",
    "Snap.Props.C10_full_length"
   ],
   "note": "The expectation that over-long texts are rejected is refuted by C10_overlong_accepted_counterexample. Shorter texts are C07."
  },
  {
   "property": "C11",
   "status": "proved",
   "theorems": [
    "Snap.Props.C11_immutable",
    "Snap.Props.C11_second_put_ignored",
    "Snap.Props.C11_history"
   ],
   "note": ""
  },
  {
   "property": "C12",
   "status": "proved",
   "theorems": [
    "Snap.Props.C12_put_get",
    "Snap.Props.C12_put_result",
    "Snap.Props.C12_idempotent"
   ],
   "note": ""
  },
  {
   "property": "C13",
   "status": "proved",
   "theorems": [
    "Snap.Props.C13_exists"
   ],
   "note": ""
  },
  {
   "property": "C14",
   "status": "proved",
   "theorems": [
    "Snap.Props.C14_between"
   ],
   "note": ""
  },
  {
   "property": "C15",
   "status": "proved",
   "theorems": [
    "Snap.Props.C15_state",
    "Snap.Props.C15_head",
    "Snap.Props.C15_others"
   ],
   "note": ""
  },
  {
   "property": "C16",
   "status": "proved",
   "theorems": [
    "Snap.Props.C16_walk",
    "Snap.Props.C16_get"
   ],
   "note": ""
  },
  {
   "property": "C17",
   "status": "proved",
   "theorems": [
    "Snap.Props.C17_history",
    "Snap.Props.C17_rollback"
   ],
   "note": ""
  },
  {
   "property": "C18",
   "status": "proved",
   "theorems": [
    "Snap.Props.C18_put_order"
   ],
   "note": ""
  },
  {
   "property": "C19",
   "status": "proved",
   "theorems": [
    "Snap.Props.C19_twice",
    "Snap.Props.C19_roundtrip",
    "Snap.Props.C19_injective",
    "Snap.Props.C19_first_byte",
    "Snap.Props.C19_encode_succeeds",
    "Snap.Props.C19_damaged",
    "Snap.Props.C19_decode_total"
   ],
   "note": ""
  },
  {
   "property": "C20",
   "status": "proved",
   "theorems": [
    "Snap.Props.C20_get_obj"
   ],
   "note": ""
  },
  {
   "property": "C21",
   "status": "proved",
   "theorems": [
    "Snap.Props.C21_subset",
    "Snap.Props.C21_roundtrip",
    "Snap.Props.C21_refused",
    "Snap.Props.C21_object",
    "Snap.Props.C21_injective",
    "Snap.Props.C21_stored"
   ],
   "note": ""
  },
  {
   "property": "C22",
   "status": "proved",
   "theorems": [
    "Snap.Props.C22_roundtrip",
    "Snap.Props.C22_order",
    "Snap.Props.C22_succeeds",
    "Snap.Props.C22_too_deep",
    "Snap.Props.C22_subset"
   ],
   "note": ""
  },
  {
   "property": "C23",
   "status": "proved",
   "theorems": [
    "Snap.Props.C23_read_panics",
    "Snap.Props.C23_unknown_type"
   ],
   "note": ""
  },
  {
   "property": "C24",
   "status": "proved",
   "theorems": [
    "Snap.Props.C24_exact_condition",
    "Snap.Props.C24_exact_condition_small_reads",
    "Snap.Props.C24_short_contents",
    "Snap.Props.C24_no_deep_cut",
    "Snap.Props.C24_succeeds",
    "Snap.Props.C24_counterexample",
    "Snap.Props.C24_false_counterexample"
   ],
   "note": "The unconditional statement (definition C24) is refuted by C24_false_counterexample; the exact condition is proved for every content and read schedule."
  },
  {
   "property": "C25",
   "status": "proved",
   "theorems": [
    "Snap.Props.C25_small_reads",
    "Snap.Props.C25_short_contents",
    "Snap.Props.C25_counterexample"
   ],
   "note": "The statement without the bound on reads is refuted by C25_counterexample."
  },
  {
   "property": "C26",
   "status": "proved",
   "theorems": [
    "Snap.Props.C26_sizes"
   ],
   "note": ""
  },
  {
   "property": "C27",
   "status": "proved",
   "theorems": [
    "Snap.Props.C27_interrupted",
    "Snap.Props.C27_failing_reader_no_key",
    "Snap.Props.C27_failing_reader_error"
   ],
   "note": ""
  },
  {
   "property": "C28",
   "status": "proved",
   "theorems": [
    "Snap.Props.C28_again"
   ],
   "note": ""
  },
  {
   "property": "C29",
   "status": "proved",
   "theorems": [
    "Snap.Props.C29_fetch_restores",
    "Snap.Props.C29_exact",
    "Snap.Props.C29_put_succeeds"
   ],
   "note": ""
  },
  {
   "property": "C30",
   "status": "proved",
   "theorems": [
    "Snap.Props.C30_fetch_keeps"
   ],
   "note": ""
  },
  {
   "property": "C31",
   "status": "proved",
   "theorems": [
    "Snap.Props.C31_fetch_below",
    "Snap.Props.C31_way",
    "Snap.Props.C31_counterexample"
   ],
   "note": "C31_counterexample: the restriction to objects stored by put_fs_item is needed."
  },
  {
   "property": "C32",
   "status": "proved",
   "theorems": [
    "Snap.Props.C32_same_listing",
    "Snap.Props.C32_file_keys",
    "Snap.Props.C32_single_file"
   ],
   "note": ""
  },
  {
   "property": "C33",
   "status": "proved",
   "theorems": [
    "Snap.Props.C33_insert",
    "Snap.Props.C33_commit",
    "Snap.Props.C33_stored_iff_accepted",
    "Snap.Props.C33_make_filter",
    "Snap.Props.C33_never_stored",
    "Snap.Props.C33_what_patterns_see"
   ],
   "note": ""
  },
  {
   "property": "C34",
   "status": "proved",
   "theorems": [
    "Snap.Props.C34_same_key",
    "Snap.Props.C34_iff",
    "Snap.Props.C34_equal_keys",
    "Snap.Props.C34_order_counterexample"
   ],
   "note": "C34_order_counterexample: the condition on the listing order is needed."
  },
  {
   "property": "C35",
   "status": "proved",
   "theorems": [
    "Snap.Props.C35_put_no_key",
    "Snap.Props.C35_walk_no_listing",
    "Snap.Props.C35_walk_is_error"
   ],
   "note": ""
  },
  {
   "property": "C36",
   "status": "proved",
   "theorems": [
    "Snap.Props.C36_untouched",
    "Snap.Props.C36_outside_guard",
    "Snap.Props.C36_truncates",
    "Snap.Props.C36_database_kept"
   ],
   "note": ""
  },
  {
   "property": "C37",
   "status": "proved",
   "theorems": [
    "Snap.Props.C37_success",
    "Snap.Props.C37_restores"
   ],
   "note": ""
  },
  {
   "property": "C38",
   "status": "proved",
   "theorems": [
    "Snap.Props.C38_commit",
    "Snap.Props.C38_snapshot",
    "Snap.Props.C38_which",
    "Snap.Props.C38_ref"
   ],
   "note": ""
  },
  {
   "property": "C39",
   "status": "proved",
   "theorems": [
    "Snap.Props.C39_history",
    "Snap.Props.C39_log"
   ],
   "note": ""
  },
  {
   "property": "C40",
   "status": "proved",
   "theorems": [
    "Snap.Props.C40_no_dangling",
    "Snap.Props.C40_every_moment"
   ],
   "note": ""
  },
  {
   "property": "C41",
   "status": "proved",
   "theorems": [
    "Snap.Props.C41_failed",
    "Snap.Props.C41_lost_commit"
   ],
   "note": ""
  },
  {
   "property": "C42",
   "status": "proved",
   "theorems": [
    "Snap.Props.C42_atomic"
   ],
   "note": ""
  },
  {
   "property": "C43",
   "status": "proved",
   "theorems": [
    "Snap.Props.C43_kept"
   ],
   "note": ""
  },
  {
   "property": "C44",
   "status": "proved",
   "theorems": [
    "Snap.Props.C44_init"
   ],
   "note": ""
  },
  {
   "property": "C45",
   "status": "proved",
   "theorems": [
    "Snap.Props.C45_readonly"
   ],
   "note": ""
  },
  {
   "property": "C46",
   "status": "proved",
   "theorems": [
    "Snap.Props.C46_refs_kept"
   ],
   "note": ""
  },
  {
   "property": "C47",
   "status": "proved",
   "theorems": [
    "Snap.Props.C47_checkout_head",
    "Snap.Props.C47_clean"
   ],
   "note": ""
  },
  {
   "property": "C48",
   "status": "proved",
   "theorems": [
    "Snap.Props.C48_nearest",
    "Snap.Props.C48_places"
   ],
   "note": ""
  },
  {
   "property": "C49",
   "status": "proved",
   "theorems": [
    "Snap.Props.C49_exact",
    "Snap.Props.C49_snapshots"
   ],
   "note": "Exact characterisation; the code does not report deletions but panics."
  },
  {
   "property": "C50",
   "status": "proved",
   "theorems": [
    "Snap.Props.C50_exact",
    "Snap.Props.C50_needs_cwd",
    "Snap.Props.C50_snapshot"
   ],
   "note": "Exact characterisation, including the cases in which the code is wrong (C50_needs_cwd, panic on deletion, directory replacing a file)."
  },
  {
   "property": "C51",
   "status": "proved",
   "theorems": [
    "Snap.Props.C51_sorted",
    "Snap.Props.C51_database",
    "Snap.Props.C51_directory",
    "Snap.Props.C51_order_counterexample"
   ],
   "note": "C51_order_counterexample: the condition on the cache is needed."
  },
  {
   "property": "C52",
   "status": "proved",
   "theorems": [
    "Snap.Props.C52_exact",
    "Snap.Props.C52_compare",
    "Snap.Props.C52_covered"
   ],
   "note": ""
  },
  {
   "property": "C53",
   "status": "proved",
   "theorems": [
    "Snap.Props.C53_hunks",
    "Snap.Props.C53_changes_shown",
    "Snap.Props.C53_no_change",
    "Snap.Props.C53_patches",
    "Snap.Props.C53_snapshots"
   ],
   "note": ""
  },
  {
   "property": "C54",
   "status": "proved",
   "theorems": [
    "Snap.Props.C54_counts",
    "Snap.Props.C54_whole_file"
   ],
   "note": "That the counts are right is false of the code; the exact relation is proved."
  },
  {
   "property": "C55",
   "status": "proved",
   "theorems": [
    "Snap.Props.C55_exact",
    "Snap.Props.C55_printed",
    "Snap.Props.C55_snapshots"
   ],
   "note": ""
  },
  {
   "property": "C56",
   "status": "proved",
   "theorems": [
    "Snap.Props.C56_put",
    "Snap.Props.C56_history"
   ],
   "note": ""
  },
  {
   "property": "C57",
   "status": "proved",
   "theorems": [
    "Snap.Props.C57_miss",
    "Snap.Props.C57_hit",
    "Snap.Props.C57_non_file",
    "Snap.Props.C57_history",
    "Snap.Props.C57_stale_counterexample"
   ],
   "note": "C57_stale_counterexample: the condition on triples is needed."
  },
  {
   "property": "C58",
   "status": "proved",
   "theorems": [
    "Snap.Props.C58_smallest",
    "Snap.Props.C58_log",
    "Snap.Props.C58_order_counterexample"
   ],
   "note": "The expectation that the user's first parent is followed is refuted by C58_order_counterexample."
  },
  {
   "property": "C59",
   "status": "proved",
   "theorems": [
    "Snap.Props.C59_sound"
   ],
   "note": ""
  },
  {
   "property": "C60",
   "status": "proved",
   "theorems": [
    "Snap.Props.C60_acyclic",
    "Snap.Props.C60_no_cycle",
    "Snap.Props.C60_traversals_end"
   ],
   "note": ""
  },
  {
   "property": "C61",
   "status": "proved",
   "theorems": [
    "Snap.Props.C61_clean",
    "Snap.Props.C61_commit",
    "Snap.Props.C61_head_safe",
    "Snap.Props.C61_overlooked_counterexample"
   ],
   "note": "C61_overlooked_counterexample: a file replaced by a directory goes unnoticed."
  },
  {
   "property": "C62",
   "status": "proved",
   "theorems": [
    "Snap.Props.C62_checkout",
    "Snap.Props.C62_fetch",
    "Snap.Props.C62_missing_counterexample"
   ],
   "note": "C62_missing_counterexample: checkout fails if a stored directory is missing."
  },
  {
   "property": "C63",
   "status": "proved",
   "theorems": [
    "Snap.Props.C63_show",
    "Snap.Props.C63_log",
    "Snap.Props.C63_commit",
    "Snap.Props.C63_log_command",
    "Snap.Props.C63_show_command"
   ],
   "note": ""
  },
  {
   "property": "C64",
   "status": "proved",
   "theorems": [
    "Snap.Props.C64_log",
    "Snap.Props.C64_update",
    "Snap.Props.C64_push",
    "Snap.Props.C64_set_head"
   ],
   "note": ""
  },
  {
   "property": "C65",
   "status": "proved",
   "theorems": [
    "Snap.Props.C65_files_kept",
    "Snap.Props.C65_fetch",
    "Snap.Props.C65_checkout",
    "Snap.Props.C65_no_rollback_counterexample"
   ],
   "note": "C65_no_rollback_counterexample: file effects of a failing command stay."
  },
  {
   "property": "C66",
   "status": "proved",
   "theorems": [
    "Snap.Props.C66_no_repository",
    "Snap.Props.C66_walk_fs"
   ],
   "note": ""
  },
  {
   "property": "C67",
   "status": "proved",
   "theorems": [
    "Snap.Props.C67_working",
    "Snap.Props.C67_compare_head",
    "Snap.Props.C67_status_compare",
    "Snap.Props.C67_compare",
    "Snap.Props.C67_status"
   ],
   "note": ""
  },
  {
   "property": "C68",
   "status": "proved",
   "theorems": [
    "Snap.Props.C68_insert",
    "Snap.Props.C68_commit",
    "Snap.Props.C68_text"
   ],
   "note": ""
  },
  {
   "property": "C69",
   "status": "proved",
   "theorems": [
    "Snap.Props.C69_hunks",
    "Snap.Props.C69_modified",
    "Snap.Props.C69_shown",
    "Snap.Props.C69_whole"
   ],
   "note": ""
  },
  {
   "property": "C70",
   "status": "proved",
   "theorems": [
    "Snap.Props.C70_serial",
    "Snap.Props.C70_one_writer",
    "Snap.Props.C70_commands",
    "Snap.Props.C70_reachable",
    "Snap.Props.C70_kept"
   ],
   "note": ""
  },
  {
   "property": "C71",
   "status": "proved",
   "theorems": [
    "Snap.Props.C71_resolve",
    "Snap.Props.C71_insert_fetch"
   ],
   "note": ""
  },
  {
   "property": "C72",
   "status": "proved",
   "theorems": [
    "Snap.Props.C72_step",
    "Snap.Props.C72_session",
    "Snap.Props.C72_swept",
    "Snap.Props.C72_all_garbage",
    "Snap.Props.C72_counterexample"
   ],
   "note": "C72_counterexample: compare --stat has to be excepted."
  },
  {
   "property": "C73",
   "status": "proved",
   "theorems": [
    "Snap.Props.C73_edit",
    "Snap.Props.C73_append",
    "Snap.Props.C73_full_reads",
    "Snap.Props.C73_counterexample"
   ],
   "note": "C73_counterexample: with reads that fill the buffer an insertion of one byte renews every chunk; the property says so."
  },
  {
   "property": "C74",
   "status": "proved",
   "theorems": [
    "Snap.Props.C74_bound",
    "Snap.Props.C74_ends"
   ],
   "note": ""
  },
  {
   "property": "C75",
   "status": "proved",
   "theorems": [
    "Snap.Props.C75_types",
    "Snap.Props.C75_contents",
    "Snap.Props.C75_items",
    "Snap.Props.C75_fetch"
   ],
   "note": ""
  },
  {
   "property": "C76",
   "status": "proved",
   "theorems": [
    "Snap.Props.C76_main",
    "Snap.Props.C76_never",
    "Snap.Props.C76_keys",
    "Snap.Props.C76_commit_tree",
    "Snap.Props.C76_insert",
    "Snap.Props.C76_commit",
    "Snap.Props.C76_fetch"
   ],
   "note": ""
  },
  {
   "property": "C77",
   "status": "proved",
   "theorems": [
    "Snap.Props.C77_show",
    "Snap.Props.C77_log"
   ],
   "note": ""
  },
  {
   "property": "C78",
   "status": "proved",
   "theorems": [
    "Snap.Props.C78_compare",
    "Snap.Props.C78_status",
    "Snap.Props.C78_checkout_head",
    "Snap.Props.C78_bad_head",
    "Snap.Props.C78_panics",
    "Snap.Props.C78_status_iff"
   ],
   "note": ""
  },
  {
   "property": "C79",
   "status": "proved",
   "theorems": [
    "Snap.Props.C79_checkout",
    "Snap.Props.C79_bad_head",
    "Snap.Props.C79_guard",
    "Snap.Props.C79_below",
    "Snap.Props.C79_extra"
   ],
   "note": ""
  },
  {
   "property": "C80",
   "status": "proved",
   "theorems": [
    "Snap.Props.C80_reads",
    "Snap.Props.C80_command",
    "Snap.Props.C80_lines",
    "Snap.Props.C80_same"
   ],
   "note": ""
  },
  {
   "property": "C81",
   "status": "proved",
   "theorems": [
    "Snap.Props.C81_reads",
    "Snap.Props.C81_nothing",
    "Snap.Props.C81_line_break",
    "Snap.Props.C81_compare",
    "Snap.Props.C81_status",
    "Snap.Props.C81_working"
   ],
   "note": ""
  },
  {
   "property": "C82",
   "status": "proved",
   "theorems": [
    "Snap.Props.C82_stats",
    "Snap.Props.C82_reads",
    "Snap.Props.C82_line_break",
    "Snap.Props.C82_log"
   ],
   "note": ""
  },
  {
   "property": "C83",
   "status": "proved",
   "theorems": [
    "Snap.Props.C83_same_data",
    "Snap.Props.C83_same_item",
    "Snap.Props.C83_same_commit",
    "Snap.Props.C83_null",
    "Snap.Props.C83_null_data",
    "Snap.Props.C83_null_commit",
    "Snap.Props.C83_insert",
    "Snap.Props.C83_null_reads"
   ],
   "note": ""
  },
  {
   "property": "C84",
   "status": "proved",
   "theorems": [
    "Snap.Props.C84_balanced",
    "Snap.Props.C84_one_type",
    "Snap.Props.C84_reader",
    "Snap.Props.C84_reader_any_bound"
   ],
   "note": ""
  },
  {
   "property": "C85",
   "status": "proved",
   "theorems": [
    "Snap.Props.C85_agrees",
    "Snap.Props.C85_checkout"
   ],
   "note": ""
  },
  {
   "property": "C86",
   "status": "proved",
   "theorems": [
    "Snap.Props.C86_checkout",
    "Snap.Props.C86_missing",
    "Snap.Props.C86_again",
    "Snap.Props.C86_committed"
   ],
   "note": ""
  },
  {
   "property": "C87",
   "status": "proved",
   "theorems": [
    "Snap.Props.C87_line",
    "Snap.Props.C87_told",
    "Snap.Props.C87_unchanged"
   ],
   "note": ""
  },
  {
   "property": "C88",
   "status": "proved",
   "theorems": [
    "Snap.Props.C88_fetch",
    "Snap.Props.C88_occupied",
    "Snap.Props.C88_again",
    "Snap.Props.C88_empty"
   ],
   "note": ""
  },
  {
   "property": "C89",
   "status": "proved",
   "theorems": [
    "Snap.Props.C89_links",
    "Snap.Props.C89_tree",
    "Snap.Props.C89_fs"
   ],
   "note": ""
  },
  {
   "property": "C90",
   "status": "proved",
   "theorems": [
    "Snap.Props.C90_new",
    "Snap.Props.C90_again",
    "Snap.Props.C90_commit",
    "Snap.Props.C90_commit_again"
   ],
   "note": ""
  },
  {
   "property": "C91",
   "status": "proved",
   "theorems": [
    "Snap.Props.C91_stops",
    "Snap.Props.C91_last",
    "Snap.Props.C91_autorollback"
   ],
   "note": ""
  },
  {
   "property": "C92",
   "status": "proved",
   "theorems": [
    "Snap.Props.C92_authentic",
    "Snap.Props.C92_kept",
    "Snap.Props.C92_unchecked",
    "Snap.Props.C92_more",
    "Snap.Props.C92_agree",
    "Snap.Props.C92_fetch"
   ],
   "note": ""
  },
  {
   "property": "C93",
   "status": "proved",
   "theorems": [
    "Snap.Props.C93_still",
    "Snap.Props.C93_frozen",
    "Snap.Props.C93_proper",
    "Snap.Props.C93_lost",
    "Snap.Props.C93_sound",
    "Snap.Props.C93_contents"
   ],
   "note": ""
  },
  {
   "property": "C94",
   "status": "proved",
   "theorems": [
    "Snap.Props.C94_looped",
    "Snap.Props.C94_insert",
    "Snap.Props.C94_commit",
    "Snap.Props.C94_plain",
    "Snap.Props.C94_stored",
    "Snap.Props.C94_folder",
    "Snap.Props.C94_ends",
    "Snap.Props.C94_cycle",
    "Snap.Props.C94_tree",
    "Snap.Props.C94_leads"
   ],
   "note": ""
  },
  {
   "property": "C95",
   "status": "proved",
   "theorems": [
    "Snap.Props.C95_still",
    "Snap.Props.C95_lost",
    "Snap.Props.C95_sound",
    "Snap.Props.C95_status",
    "Snap.Props.C95_head",
    "Snap.Props.C95_untorn",
    "Snap.Props.C95_cache",
    "Snap.Props.C95_kept",
    "Snap.Props.C95_forever",
    "Snap.Props.C95_counterexample"
   ],
   "note": "The expectation that status is right once the files are left alone is refuted by C95_counterexample; C95_forever is the general statement."
  },
  {
   "property": "C96",
   "status": "proved",
   "theorems": [
    "Snap.Props.C96_others",
    "Snap.Props.C96_fetch",
    "Snap.Props.C96_fetched",
    "Snap.Props.C96_checked_out",
    "Snap.Props.C96_plain_fetch",
    "Snap.Props.C96_plain_checkout",
    "Snap.Props.C96_kept",
    "Snap.Props.C96_places",
    "Snap.Props.C96_restored",
    "Snap.Props.C96_vacant",
    "Snap.Props.C96_checkout",
    "Snap.Props.C96_outside_counterexample"
   ],
   "note": "C96_outside_counterexample: with a link where the tree has an entry, checkout changes files outside the directory; C96_checkout says when it does not."
  },
  {
   "property": "C97",
   "status": "proved",
   "theorems": [
    "Snap.Props.C97_plain",
    "Snap.Props.C97_listed",
    "Snap.Props.C97_ends",
    "Snap.Props.C97_cycle",
    "Snap.Props.C97_clean",
    "Snap.Props.C97_commit",
    "Snap.Props.C97_noticed",
    "Snap.Props.C97_looped",
    "Snap.Props.C97_reported",
    "Snap.Props.C97_committed",
    "Snap.Props.C97_switched"
   ],
   "note": ""
  },
  {
   "property": "C98",
   "status": "proved",
   "theorems": [
    "Snap.Props.C98_reads",
    "Snap.Props.C98_success",
    "Snap.Props.C98_files",
    "Snap.Props.C98_dead",
    "Snap.Props.C98_second",
    "Snap.Props.C98_answered",
    "Snap.Props.C98_status_lost",
    "Snap.Props.C98_head_lost",
    "Snap.Props.C98_head_kept",
    "Snap.Props.C98_head_counterexample"
   ],
   "note": "For status and checkout-head the expectation is refuted by C98_head_counterexample and C98_status_lost; what they do instead is proved."
  },
  {
   "property": "C99",
   "status": "proved",
   "theorems": [
    "Snap.Props.C99_fetch",
    "Snap.Props.C99_checkout",
    "Snap.Props.C99_checkout_again",
    "Snap.Props.C99_fetch_again"
   ],
   "note": ""
  },
  {
   "property": "C100",
   "status": "proved",
   "theorems": [
    "Snap.Props.C100_ref_log",
    "Snap.Props.C100_walk_tree",
    "Snap.Props.C100_walk_fs",
    "Snap.Props.C100_insert",
    "Snap.Props.C100_status"
   ],
   "note": ""
  },
  {
   "property": "C101",
   "status": "proved",
   "theorems": [
    "Snap.Props.C101_plain",
    "Snap.Props.C101_sound",
    "Snap.Props.C101_nearest",
    "Snap.Props.C101_places",
    "Snap.Props.C101_where",
    "Snap.Props.C101_shared",
    "Snap.Props.C101_only",
    "Snap.Props.C101_init",
    "Snap.Props.C101_dangling"
   ],
   "note": ""
  },
  {
   "property": "C102",
   "status": "proved",
   "theorems": [
    "Snap.Props.C102_stops",
    "Snap.Props.C102_usual",
    "Snap.Props.C102_unheld",
    "Snap.Props.C102_refs",
    "Snap.Props.C102_safe",
    "Snap.Props.C102_again",
    "Snap.Props.C102_atomic_counterexample"
   ],
   "note": "That a failing command leaves the database as it was is refuted by C102_atomic_counterexample for a transaction that could not be begun; what stays and what does not is proved."
  },
  {
   "property": "C103",
   "status": "proved",
   "theorems": [
    "Snap.Props.C103_same",
    "Snap.Props.C103_again"
   ],
   "note": ""
  },
  {
   "property": "C104",
   "status": "proved",
   "theorems": [
    "Snap.Props.C104_sound",
    "Snap.Props.C104_readable",
    "Snap.Props.C104_kept",
    "Snap.Props.C104_checkout",
    "Snap.Props.C104_fetch"
   ],
   "note": ""
  },
  {
   "property": "C105",
   "status": "proved",
   "theorems": [
    "Snap.Props.C105_base32",
    "Snap.Props.C105_parse",
    "Snap.Props.C105_keys",
    "Snap.Props.C105_store",
    "Snap.Props.C105_patch"
   ],
   "note": ""
  },
  {
   "property": "C106",
   "status": "proved",
   "theorems": [
    "Snap.Props.C106_subset",
    "Snap.Props.C106_elsewhere",
    "Snap.Props.C106_objects",
    "Snap.Props.C106_items",
    "Snap.Props.C106_commits",
    "Snap.Props.C106_data",
    "Snap.Props.C106_walk",
    "Snap.Props.C106_fetch",
    "Snap.Props.C106_world",
    "Snap.Props.C106_counterexample"
   ],
   "note": "C106_counterexample: the exception is needed, since contents can be what a decoder takes for an item."
  },
  {
   "property": "C107",
   "status": "proved",
   "theorems": [
    "Snap.Props.C107_serial",
    "Snap.Props.C107_one_writer",
    "Snap.Props.C107_process",
    "Snap.Props.C107_others",
    "Snap.Props.C107_commands",
    "Snap.Props.C107_ages",
    "Snap.Props.C107_kept",
    "Snap.Props.C107_right"
   ],
   "note": ""
  },
  {
   "property": "C108",
   "status": "proved",
   "theorems": [
    "Snap.Props.C108_alone",
    "Snap.Props.C108_commands",
    "Snap.Props.C108_each",
    "Snap.Props.C108_processes",
    "Snap.Props.C108_kept"
   ],
   "note": ""
  },
  {
   "property": "C109",
   "status": "proved",
   "theorems": [
    "Snap.Props.C109_same",
    "Snap.Props.C109_empty"
   ],
   "note": ""
  }
 ]
}