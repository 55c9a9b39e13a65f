{
 "claims": [
  {
   "property": "C01",
   "status": "proved",
   "theorems": [
    "Verif.Props.C01_add_then_cat",
    "Verif.Props.C01_add_then_cat_store"
   ],
   "note": "Byte-level blocks; any split into pushes; any store containing the emitted blocks. Bounds: chunk 1..2^30, branching factor 2..2^27, content at most 2^54 bytes, so that all lengths fit the fields of the format. Branching factor 1 is accepted by the code and diverges (bf1_diverges), chunk size 0 panics (chunk0_panics)."
  },
  {
   "property": "C02",
   "status": "proved",
   "theorems": [
    "Verif.Props.C02_split_independent",
    "Verif.Props.C02_split_independent_slices"
   ],
   "note": "For every two runs of pushes consuming the same bytes, empty and partly consumed pushes included; chunk >= 1, branching factor >= 1."
  },
  {
   "property": "C03",
   "status": "proved",
   "theorems": [
    "Verif.Props.C03_closed_dag"
   ],
   "note": "Bounds: chunk 1..2^30, branching factor 2..2^27, content at most 2^54 bytes, so that all lengths fit the fields of the format."
  },
  {
   "property": "C04",
   "status": "proved",
   "theorems": [
    "Verif.Props.C04_sizes_exact"
   ],
   "note": "FileDag decodes the blocks and states exact sizes for every node. Bounds: chunk 1..2^30, branching factor 2..2^27, content at most 2^54 bytes, so that all lengths fit the fields of the format."
  },
  {
   "property": "C05",
   "status": "proved",
   "theorems": [
    "Verif.Props.C05_balanced"
   ],
   "note": "Balance is by the type T d together with FileDag. Bounds: chunk 1..2^30, branching factor 2..2^27, content at most 2^54 bytes, so that all lengths fit the fields of the format."
  },
  {
   "property": "C06",
   "status": "proved",
   "theorems": [
    "Verif.Props.C06_push_progress",
    "Verif.Props.C06_loop_terminates"
   ],
   "note": "Every state reachable by any pushes, chunk >= 1, branching factor >= 1."
  },
  {
   "property": "C07",
   "status": "proved",
   "theorems": [
    "Verif.Props.C07_range"
   ],
   "note": "Every range, inverted ones included. Bounds: chunk 1..2^30, branching factor 2..2^27, content at most 2^54 bytes, so that all lengths fit the fields of the format."
  },
  {
   "property": "C08",
   "status": "partial",
   "theorems": [
    "Verif.Props.C08_consecutive",
    "Verif.Props.C08_panics_partial",
    "Verif.Props.C08_panics_without_range",
    "Verif.Props.C08_panics_no_size",
    "Verif.Props.C08_panics_overflow",
    "Verif.Props.C08_panics_slice",
    "Verif.Props.C08_panics_no_pending",
    "Verif.Props.C08_end_not_root_size",
    "Verif.Props.C08_refused",
    "Verif.Props.C08_next"
   ],
   "note": "Consecutive declared ranges: proved for all blocks. \"Never panics\" is false of the code: the witnesses give a block for each of four panics; C08_panics_partial proves that without a range only two of them are possible."
  },
  {
   "property": "C09",
   "status": "proved",
   "theorems": [
    "Verif.Props.C09_flat_roundtrip",
    "Verif.Props.C09_node_roundtrip",
    "Verif.Props.C09_fields",
    "Verif.Props.C09_types",
    "Verif.Props.C09_lengths",
    "Verif.Props.C09_unknown"
   ],
   "note": "For messages whose byte strings and nested messages are shorter than 2^32 (the length prefix), names valid UTF-8."
  },
  {
   "property": "C30",
   "status": "proved",
   "theorems": [
    "Verif.Props.C30_mem_tracks",
    "Verif.Props.C30_mem_answers",
    "Verif.Props.C30_document",
    "Verif.Props.C30_refused",
    "Verif.Props.C30_v0_v1_fails"
   ],
   "note": "For histories with complete descendant streams in which no root is pinned under both cid versions; C30_v0_v1_fails shows that restriction is needed."
  },
  {
   "property": "C31",
   "status": "proved",
   "theorems": [
    "Verif.Props.C31_fs_tracks",
    "Verif.Props.C31_fs_answers"
   ],
   "note": "Any history; file names are modelled as (cid, extension), see C28 for their injectivity."
  },
  {
   "property": "C32",
   "status": "partial",
   "theorems": [
    "Verif.Props.C32_kv_tracks_partial",
    "Verif.Props.C32_kv_sound",
    "Verif.Props.C32_shared_descendant_lost",
    "Verif.Props.C32_direct_loses_indirect",
    "Verif.Props.C32_recursive_removal_keeps_direct"
   ],
   "note": "False of the code: the witnesses show a shared descendant and a descendant also pinned directly losing protection. Proved: soundness for all histories, completeness for histories whose roots do not share descendants."
  },
  {
   "property": "C33",
   "status": "partial",
   "theorems": [
    "Verif.Props.C33_mem_list",
    "Verif.Props.C33_mem_query",
    "Verif.Props.C33_fs_list_partial",
    "Verif.Props.C33_fs_query",
    "Verif.Props.C33_kv_list",
    "Verif.Props.C33_kv_query_partial",
    "Verif.Props.C33_fs_indirect_filter",
    "Verif.Props.C33_fs_left_over",
    "Verif.Props.C33_fs_query_repeated",
    "Verif.Props.C33_kv_query_never_fails"
   ],
   "note": "Memory: in full. Filesystem: exact characterisation, but the indirect filter also lists directly pinned blocks and the mode order differs (witnesses). Key-value: list in full relative to is_pinned; query never fails for unpinned blocks (witness)."
  },
  {
   "property": "C34",
   "status": "partial",
   "theorems": [
    "Verif.Props.C34_fs_kv",
    "Verif.Props.C34_fs_botched_write",
    "Verif.Props.C34_mem_complete_streams",
    "Verif.Props.C34_mem_insert_keeps_partial",
    "Verif.Props.C34_mem_fails",
    "Verif.Props.C34_mem_removal_fails",
    "Verif.Props.C34_mem_failed_insert",
    "Verif.Props.C34_mem_retry",
    "Verif.Props.C34_mem_undo"
   ],
   "note": "Filesystem and key-value: in full. Memory: holds when the descendant stream completes; false when it fails midway (two witnesses), but then exactly the target and the descendants seen are pinned in addition, repeating the insertion repairs it, and removing what was seen takes it back."
  },
  {
   "property": "C58",
   "status": "proved",
   "theorems": [
    "Verif.Props.C58_fs_pins_crash"
   ],
   "note": "Crash granularity is one file creation, write, rename or removal; the rename is atomic; no reordering of disk steps."
  },
  {
   "property": "C26",
   "status": "partial",
   "theorems": [
    "Verif.Props.C26_at_most_one_new",
    "Verif.Props.C26_exactly_one_new",
    "Verif.Props.C26_get_after_new_partial",
    "Verif.Props.C26_never_torn_partial",
    "Verif.Props.C26_no_deadlock",
    "Verif.Props.C26_torn_read",
    "Verif.Props.C26_io_error_existed",
    "Verif.Props.C26_lagged_panic",
    "Verif.Props.C26_remove_race",
    "Verif.Props.C26_waits",
    "Verif.Props.C26_dropped"
   ],
   "note": "False of the code: a put may answer \"existed\" while the file is still empty, and a get after it returns zero bytes (C26_torn_read); witnesses too for disk errors reported as \"existed\", a panic of a lagging waiter and a removal racing a put. Proved for any number of calls and every interleaving: at most/exactly one \"new\", a get after \"new\" returns the bytes, gets return nothing, zero bytes or all the bytes, no deadlock (also with removals, failures, dropped futures and crashes)."
  },
  {
   "property": "C27",
   "status": "partial",
   "theorems": [
    "Verif.Props.C27_get_partial",
    "Verif.Props.C27_new_is_durable",
    "Verif.Props.C27_remove_repairs",
    "Verif.Props.C27_crash_leaves_empty"
   ],
   "note": "False of the code: a crash between create_new and rename leaves an empty file that get returns and put does not replace (witness). Proved: gets after crashes return nothing, zero bytes or all bytes; a block whose put answered \"new\" survives a crash; remove followed by put repairs a torn block."
  },
  {
   "property": "C25",
   "status": "proved",
   "theorems": [
    "Verif.Props.C25_mem_blocks",
    "Verif.Props.C25_mem_list"
   ],
   "note": "Every history; the specification looks the block up in the history itself."
  },
  {
   "property": "C28",
   "status": "proved",
   "theorems": [
    "Verif.Props.C28_block_file",
    "Verif.Props.C28_block_files_differ",
    "Verif.Props.C28_block_list",
    "Verif.Props.C28_pin_file",
    "Verif.Props.C28_pin_files_differ",
    "Verif.Props.C28_pin_temp_not_listed",
    "Verif.Props.C28_extensions",
    "Verif.Props.C28_push"
   ],
   "note": "Byte-level: base32, base58, cid text and PathBuf operations. Blocks are named by the version 1 form, so a version 0 cid is listed as version 1; file name length limits are not modelled."
  },
  {
   "property": "C29",
   "status": "partial",
   "theorems": [
    "Verif.Props.C29_remove_block",
    "Verif.Props.C29_mem_refuses",
    "Verif.Props.C29_pinned_stays_partial",
    "Verif.Props.C29_race",
    "Verif.Props.C29_alias"
   ],
   "note": "Proved for removals with nothing between the pin check and the removal and one cid per multihash. False otherwise (two witnesses)."
  },
  {
   "property": "C18",
   "status": "partial",
   "theorems": [
    "Verif.Props.C18_round_trip_partial",
    "Verif.Props.C18_false",
    "Verif.Props.C18_names",
    "Verif.Props.C18_codecs",
    "Verif.Props.C18_after_ipfs"
   ],
   "note": "Every accepted text whose root, if a version 0 cid, has a 32 byte digest; otherwise false (witness \"bablree\")."
  },
  {
   "property": "C19",
   "status": "proved",
   "theorems": [
    "Verif.Props.C19_parsed",
    "Verif.Props.C19_kept",
    "Verif.Props.C19_sub_path",
    "Verif.Props.C19_rejects_empty_inner",
    "Verif.Props.C19_shift_truncate"
   ],
   "note": "In full; Extends describes the accepted texts declaratively."
  },
  {
   "property": "C21",
   "status": "partial",
   "theorems": [
    "Verif.Props.C21_round_trip_partial",
    "Verif.Props.C21_infinity",
    "Verif.Props.C21_nan",
    "Verif.Props.C21_long_bytes",
    "Verif.Props.C21_long_list",
    "Verif.Props.C21_short_link",
    "Verif.Props.C21_int_range"
   ],
   "note": "Proved for every document the reader has limits for (finite floats, strings and links within the length limits of the reader, integers within 64 bits). False beyond: the witnesses give an infinity, NaN, long bytes and list, and short link that are written but not read back."
  },
  {
   "property": "C22",
   "status": "partial",
   "theorems": [
    "Verif.Props.C22_injective_partial",
    "Verif.Props.C22_sorted_entries",
    "Verif.Props.C22_shortest_head",
    "Verif.Props.C22_nan",
    "Verif.Props.C22_zeroes"
   ],
   "note": "Key order and shortest heads in full. Injectivity for all documents without NaN (all NaN share one encoding, witness); equal bits give equal bytes, though 0.0 == -0.0 in Rust and they are encoded differently (witness)."
  },
  {
   "property": "C23",
   "status": "proved",
   "theorems": [
    "Verif.Props.C23_bytes",
    "Verif.Props.C23_ipld",
    "Verif.Props.C23_accepts",
    "Verif.Props.C23_names",
    "Verif.Props.C23_large_key",
    "Verif.Props.C23_wire_types",
    "Verif.Props.C23_unknown"
   ],
   "note": "Byte-level proto3 encoding. Byte lengths below 2^32, u64 sizes, UTF-8 names, cids that exist (Cid.Valid). Integers outside u64 are accepted for Tsize and taken modulo 2^64."
  },
  {
   "property": "C24",
   "status": "partial",
   "theorems": [
    "Verif.Props.C24_validate",
    "Verif.Props.C24_put_then_decode_partial",
    "Verif.Props.C24_put_changes",
    "Verif.Props.C24_refused"
   ],
   "note": "validate: in full, with the hash functions as a parameter. put-then-decode: for raw bytes, documents within the limits of the dag-cbor reader and documents of dag-pb nodes; false for other dag-pb documents (witness); dag-json is a parameter assumed to round-trip."
  },
  {
   "property": "C15",
   "status": "proved",
   "theorems": [
    "Verif.Props.C15_lookup",
    "Verif.Props.C15_found_is_held",
    "Verif.Props.C15_not_found",
    "Verif.Props.C15_ends",
    "Verif.Props.C15_twice",
    "Verif.Props.C15_panics",
    "Verif.Props.C15_refused_directory",
    "Verif.Props.C15_refused_bucket"
   ],
   "note": "The answers are right for any blocks whatever; the lookup ends with an answer in every finite tree of supported buckets. Names are non-empty. C15_panics: a name that cannot be cut after two bytes is a panic of the code."
  },
  {
   "property": "C20",
   "status": "partial",
   "theorems": [
    "Verif.Props.C20_follow",
    "Verif.Props.C20_reached",
    "Verif.Props.C20_terminates",
    "Verif.Props.C20_get",
    "Verif.Props.C20_stop_partial",
    "Verif.Props.C20_failure_partial",
    "Verif.Props.C20_shard_miscounted",
    "Verif.Props.C20_index",
    "Verif.Props.C20_get_failure",
    "Verif.Props.C20_data",
    "Verif.Props.C20_why",
    "Verif.Props.C20_disk",
    "Verif.Props.C20_memory",
    "Verif.Props.C20_alias"
   ],
   "note": "The node reached: in full, in both directions, with termination. The reported path: proved unless a sharded directory with several buckets was passed; there the code does not count the segment (witness C20_shard_miscounted). Over the store in memory documents are named, and decoded, by the cid they were stored with (C20_memory, C20_alias)."
  },
  {
   "property": "C35",
   "status": "partial",
   "theorems": [
    "Verif.Props.C35_finish",
    "Verif.Props.C35_delivered",
    "Verif.Props.C35_done_sound",
    "Verif.Props.C35_once",
    "Verif.Props.C35_get_sound",
    "Verif.Props.C35_put_wakes_partial",
    "Verif.Props.C35_lost_wakeup",
    "Verif.Props.C35_other_version",
    "Verif.Props.C35_debug_panic",
    "Verif.Props.C35_polled"
   ],
   "note": "The registry, for every schedule: finishing completes just the waiters of the kind, completions are not lost, a result comes only from a finish while waiting, at most once. get_block/put_block over the memory store: results are sound and a new block completes the waiters under its cid. False in full: a get that looks the block up before and subscribes after the put waits on (C35_lost_wakeup), and a waiter under another cid of the same hash is not completed (C35_other_version)."
  },
  {
   "property": "C36",
   "status": "partial",
   "theorems": [
    "Verif.Props.C36_drop_partial",
    "Verif.Props.C36_never_partial",
    "Verif.Props.C36_last_partial",
    "Verif.Props.C36_only",
    "Verif.Props.C36_race",
    "Verif.Props.C36_hidden",
    "Verif.Props.C36_shutdown",
    "Verif.Props.C36_drop_wakes",
    "Verif.Props.C36_create"
   ],
   "note": "Exact condition for an uninterrupted drop, and nothing but drops and shutdown sends the message. False in full: the message is sent after the lock is released (C36_race), and a completed waiter that was not polled hides the last pending one (C36_hidden)."
  },
  {
   "property": "C37",
   "status": "partial",
   "theorems": [
    "Verif.Props.C37_pending",
    "Verif.Props.C37_shut",
    "Verif.Props.C37_after_partial",
    "Verif.Props.C37_race",
    "Verif.Props.C37_cancel_once"
   ],
   "note": "Every registered waiter is cancelled and woken, and from then on every poll of any waiter in every continuation gives cancelled, provided no creation was between reading the flag and taking the lock; without that it is false (C37_race)."
  },
  {
   "property": "C38",
   "status": "partial",
   "theorems": [
    "Verif.Props.C38_links",
    "Verif.Props.C38_order",
    "Verif.Props.C38_others",
    "Verif.Props.C38_all",
    "Verif.Props.C38_edges",
    "Verif.Props.C38_unique",
    "Verif.Props.C38_unique_order",
    "Verif.Props.C38_fuel",
    "Verif.Props.C38_terminates",
    "Verif.Props.C38_unique_terminates",
    "Verif.Props.C38_slash"
   ],
   "note": "The stream is determined exactly, in order and with repetitions, for every graph; with unique exactly the first link to every destination, in the same order (C38_unique_order); termination without cycles, or with unique on any finite graph. Differs from the statement in that a link whose destination cannot be loaded or decoded is not reported, and that a dag-pb link named \"/\" is a panic (C38_slash)."
  },
  {
   "property": "C39",
   "status": "partial",
   "theorems": [
    "Verif.Props.C39_unique_terminates",
    "Verif.Props.C39_levels",
    "Verif.Props.C39_edges",
    "Verif.Props.C39_terminates",
    "Verif.Props.C38_unique",
    "Verif.Props.C39_max_limit"
   ],
   "note": "Exact for every limit except the largest u64, where the code panics or stops after the first level (C39_max_limit); links to blocks that cannot be loaded are not reported."
  },
  {
   "property": "C51",
   "status": "proved",
   "theorems": [
    "Verif.Props.C51_accepted",
    "Verif.Props.C51_unterminated",
    "Verif.Props.C51_unsupported",
    "Verif.Props.C51_options",
    "Verif.Props.C51_index",
    "Verif.Props.C51_tags",
    "Verif.Props.C51_rendered"
   ],
   "note": "The formats accepted, what they render, and both kinds of rejection, in both directions. C51_index: the index in the message of an unterminated tag counts from the previous tag."
  },
  {
   "property": "C52",
   "status": "proved",
   "theorems": [
    "Verif.Props.C52_parse",
    "Verif.Props.C52_order",
    "Verif.Props.C52_errors",
    "Verif.Props.C52_number",
    "Verif.Props.C52_depth",
    "Verif.Props.C52_names"
   ],
   "note": "The query is the list of keys and values that url::form_urlencoded makes; durations are read by an arbitrary function."
  },
  {
   "property": "C40",
   "status": "partial",
   "theorems": [
    "Verif.Props.C40_recorded",
    "Verif.Props.C40_equal_partial",
    "Verif.Props.C40_drains",
    "Verif.Props.C40_sent",
    "Verif.Props.C40_quick_cancel",
    "Verif.Props.C40_wanted_by_both",
    "Verif.Props.C40_overtaken"
   ],
   "note": "Everything wanted is recorded with its priority, for all histories at both sides, with any other peers, once the messages are delivered in order (C40_recorded); nothing else is recorded if no want is cancelled before its message is handed out (C40_equal_partial). Otherwise false: C40_quick_cancel, C40_wanted_by_both, C40_overtaken."
  },
  {
   "property": "C41",
   "status": "proved",
   "theorems": [
    "Verif.Props.C41_roundtrip",
    "Verif.Props.C41_frame",
    "Verif.Props.C41_decoded",
    "Verif.Props.C41_asked"
   ],
   "note": "All well formed messages; C41_frame adds the length prefix and the size limit, above which a message is always refused. The flag \"full\" is not encoded; the code never sets it."
  },
  {
   "property": "C42",
   "status": "proved",
   "theorems": [
    "Verif.Props.C42_blocks",
    "Verif.Props.C42_authentic",
    "Verif.Props.C42_frame",
    "Verif.Props.C42_empty_digest",
    "Verif.Props.C42_accepted",
    "Verif.Props.C42_framed"
   ],
   "note": "For arbitrary bytes and an arbitrary family of hash functions. C42_empty_digest: a prefix may announce a length of zero."
  },
  {
   "property": "C43",
   "status": "proved",
   "theorems": [
    "Verif.Props.C43_roundtrip",
    "Verif.Props.C43_rebuild",
    "Verif.Props.C43_accepted"
   ],
   "note": "For codecs of the cid crate and hash functions of the table; C43_rebuild is an equivalence."
  },
  {
   "property": "C44",
   "status": "partial",
   "theorems": [
    "Verif.Props.C44_safe_partial",
    "Verif.Props.C44_only_panic",
    "Verif.Props.C44_kept",
    "Verif.Props.C44_record",
    "Verif.Props.C44_second_connection",
    "Verif.Props.C44_reset"
   ],
   "note": "No panic with at most one connection per peer at a time; recorded wants change only by messages of the peer and its connections. False with several connections: a second one resets the record (C44_reset), closing one of two makes the next message panic (C44_second_connection)."
  },
  {
   "property": "C56",
   "status": "partial",
   "theorems": [
    "Verif.Props.C56_each_once",
    "Verif.Props.C56_each_peer",
    "Verif.Props.C56_total",
    "Verif.Props.C56_monotone",
    "Verif.Props.C56_sent_data",
    "Verif.Props.C56_failed_uncounted"
   ],
   "note": "Each received block is exactly once queued, with a task or dealt with; counters exist for exactly the peers ever connected and count what was dealt with; totals are the sums modulo 2^64 and never decrease below that. Differs in that a block that could not be stored is not counted (C56_failed_uncounted), and the bytes sent stay zero (C56_sent_data)."
  },
  {
   "property": "C10",
   "status": "proved",
   "theorems": [
    "Verif.Props.C10_found",
    "Verif.Props.C10_not_found",
    "Verif.Props.C10_unwrapped",
    "Verif.Props.C10_serves"
   ],
   "note": "For every history of calls, any hash of 32 bytes and any way to load the blocks that serves what was given; C10_serves: without collisions the blocks given are such a way. Arguments as the types of the code allow, sizes below 2^30 and totals below 2^64 (see C12_overflow)."
  },
  {
   "property": "C11",
   "status": "proved",
   "theorems": [
    "Verif.Props.C11_rejected_changes_nothing",
    "Verif.Props.C11_reasons",
    "Verif.Props.C11_accepted",
    "Verif.Props.C11_tree"
   ],
   "note": "For both operations and every history. C11_reasons is an equivalence between errors and reasons, C11_tree describes the tree by the accepted calls alone."
  },
  {
   "property": "C12",
   "status": "proved",
   "theorems": [
    "Verif.Props.C12_nodes",
    "Verif.Props.C12_root_last",
    "Verif.Props.C12_overflow"
   ],
   "note": "Totals below 2^64 are assumed; otherwise the sum panics or wraps (C12_overflow). Without a wrapping directory the root has no block."
  },
  {
   "property": "C13",
   "status": "proved",
   "theorems": [
    "Verif.Props.C13_same",
    "Verif.Props.C13_accepted",
    "Verif.Props.C13_permutation",
    "Verif.Props.C12_nodes",
    "Verif.Props.C13_metadata_ignored"
   ],
   "note": "Sorted links: in NodeFor of C12_nodes. Also for histories with rejected calls and with set_metadata, when the same calls were accepted."
  },
  {
   "property": "C14",
   "status": "proved",
   "theorems": [
    "Verif.Props.C14_limit",
    "Verif.Props.C14_too_large",
    "Verif.Props.C14_size",
    "Verif.Props.C14_unfilled",
    "Verif.Props.C14_go_on"
   ],
   "note": "Calling next again after the error panics when the parent is reached (C14_unfilled, C14_go_on)."
  },
  {
   "property": "C16",
   "status": "partial",
   "theorems": [
    "Verif.Props.C16_walk_partial",
    "Verif.Props.C16_unwrapped_partial",
    "Verif.Props.C16_dot",
    "Verif.Props.C16_dot_below",
    "Verif.Props.C16_empty_name",
    "Verif.Props.C16_bad_part",
    "Verif.Props.C16_bad_name",
    "Verif.Props.C16_refused",
    "Verif.Props.C16_bad_link"
   ],
   "note": "For every history of calls of the builder with leaves that are readable files or symlinks, with or without a wrapping directory and with any plain name for the root: the reports of all paths, each once, in the order parents first and then by name, files in segments that make up their content. False when a segment is \".\" (C16_dot: wrong path, or a panic when checked) or the path is empty (C16_empty_name: panic). C16_bad_part and C16_bad_name: blocks from elsewhere that make it panic."
  },
  {
   "property": "C17",
   "status": "proved",
   "theorems": [
    "Verif.Props.C17_parse",
    "Verif.Props.C17_walk",
    "Verif.Props.C17_injective"
   ],
   "note": "Targets below 2^31 bytes, any bytes and any contents of the buffer."
  },
  {
   "property": "C53",
   "status": "partial",
   "theorems": [
    "Verif.Props.C53_stream_partial",
    "Verif.Props.C53_target",
    "Verif.Props.C53_tree_partial",
    "Verif.Props.C53_injection",
    "Verif.Props.C53_parent",
    "Verif.Props.C53_cut",
    "Verif.Props.C53_stale",
    "Verif.Props.C53_texts",
    "Verif.Props.C53_fresh",
    "Verif.Props.C53_fresh_long",
    "Verif.Props.C53_numbers",
    "Verif.Props.C53_dot"
   ],
   "note": "For every sequence of reports with plain paths, right sizes and sizes and times below 2^33, an independent reader of GNU tar finds the same entries (paths of any length, contents, modes, times, targets of links); for trees of the directory builder this is joined with C16. False otherwise: C53_injection (declared size not compared with the content: forged entries), C53_parent and C53_cut (panic for long paths with \"..\" or cut after \"..\"), C53_stale (time from 2^33 on spoils the next header). The tar crate is modelled after its source."
  },
  {
   "property": "C55",
   "status": "proved",
   "theorems": [
    "Verif.Props.C55_terminates",
    "Verif.Props.C55_ok",
    "Verif.Props.C55_error",
    "Verif.Props.C55_cid",
    "Verif.Props.C55_ipld",
    "Verif.Props.C55_single",
    "Verif.Props.C55_segments_lost",
    "Verif.Props.C55_first_only",
    "Verif.Props.C55_texts"
   ],
   "note": "Any answers of the resolver with finitely many different sets of records, for arbitrary byte strings; the records do not change during one resolution. Result and errors are characterised in both directions. C55_segments_lost: segments after a dnslink name are ignored. C55_first_only: an unusable first link hides later ones."
  },
  {
   "property": "C57",
   "status": "partial",
   "theorems": [
    "Verif.Props.C57_get_partial",
    "Verif.Props.C57_others",
    "Verif.Props.C57_unreadable",
    "Verif.Props.C57_slash"
   ],
   "note": "Every history of put, get, remove and wipe of the in-memory store, for paths with segments as parsing gives them and a root that is a valid cid, a peer id, or a name without slash that is no peer id. False otherwise: C57_unreadable, C57_slash. The filesystem and key-value stores answer \"not implemented\"."
  },
  {
   "property": "C54",
   "status": "partial",
   "theorems": [
    "Verif.Props.C54_answer_partial",
    "Verif.Props.C54_accepted",
    "Verif.Props.C54_listing",
    "Verif.Props.C54_read_back",
    "Verif.Props.C54_cumulative",
    "Verif.Props.C54_names",
    "Verif.Props.C54_types",
    "Verif.Props.C54_digits",
    "Verif.Props.C54_unescaped",
    "Verif.Props.C54_directories"
   ],
   "note": "For every form of files and directories and every way of cutting the contents into pieces: whenever the request is answered without error, each file line carries the total bytes of all blocks of the file, the same number and cid are in the entry of the directory tree and (C54_listing) in the listing, the last report is the length, everything was stored, and (C54_read_back) following the path from the wrapping directory gives the content back. Not true of every file: C54_accepted shows that a file of exactly one chunk (262144 bytes) makes the handler panic, because the adder has nothing left to finish. C54_cumulative: the reports are running totals, not increments as the comment on the field says."
  },
  {
   "property": "C49",
   "status": "partial",
   "theorems": [
    "Verif.Props.C49_without",
    "Verif.Props.C49_parse",
    "Verif.Props.C49_missing",
    "Verif.Props.C49_round_trip_partial",
    "Verif.Props.C49_parse_again",
    "Verif.Props.C49_text",
    "Verif.Props.C49_relay",
    "Verif.Props.C49_texts",
    "Verif.Props.C49_components"
   ],
   "note": "For every sequence of components: acceptance and result of both conversions are characterised exactly, and the text of an address with a peer id is that of the plain address. The round trip needs an address without relay marker; C49_relay shows that the marker is lost, that an address through a relay is read as the address of the relay, and that a peer id before other components is moved to the end (or panics in debug builds). Texts of other components and the parser are those of the multiaddr crate."
  },
  {
   "property": "C50",
   "status": "partial",
   "theorems": [
    "Verif.Props.C50_once",
    "Verif.Props.C50_bound_partial",
    "Verif.Props.C50_removable",
    "Verif.Props.C50_no_abort_partial",
    "Verif.Props.C50_answered",
    "Verif.Props.C50_ambiguous",
    "Verif.Props.C50_wrong_listener",
    "Verif.Props.C50_prefix",
    "Verif.Props.C50_start",
    "Verif.Props.C50_length",
    "Verif.Props.C50_ended"
   ],
   "note": "Every history of requests, notices, removals and listeners that end, any iteration order of the map. At most one answer per request without conditions. C50_bound_partial needs that requests for any ip and reports of the same number of bytes have the same number of components, C50_no_abort_partial at most one port per requested address and no reported port 0; both hold for the ip/tcp addresses of the transport in use (tcp_distinct), and C50_ambiguous and C50_prefix show that they are needed. C50_wrong_listener: the notice of one listener can be taken as the answer to the request of another."
  },
  {
   "property": "C45",
   "status": "partial",
   "theorems": [
    "Verif.Props.C45_addresses",
    "Verif.Props.C45_listed",
    "Verif.Props.C45_rtt",
    "Verif.Props.C45_peers",
    "Verif.Props.C45_no_abort",
    "Verif.Props.C45_disconnect_partial",
    "Verif.Props.C45_same_address",
    "Verif.Props.C45_wrong_peer"
   ],
   "note": "reported addresses and listed peers are exact for every consistent history; roundtrip times and known peers as well; no panic without debug assertions. The table behind disconnect is exact only while no two open connections share an address (witness C45_same_address), and it ignores the peer asked for (C45_wrong_peer)."
  },
  {
   "property": "C46",
   "status": "partial",
   "theorems": [
    "Verif.Props.C46_established",
    "Verif.Props.C46_answered",
    "Verif.Props.C46_ok_sound",
    "Verif.Props.C46_other_failures",
    "Verif.Props.C46_dialed_partial",
    "Verif.Props.C46_idle_partial",
    "Verif.Props.C46_refused",
    "Verif.Props.C46_unhandled",
    "Verif.Props.C46_relay_address",
    "Verif.Props.C46_twice",
    "Verif.Props.C46_told_error",
    "Verif.Props.C46_texts"
   ],
   "note": "every answer of a dial completes all futures it covers, with the right result. That no future is left without a dial is proved for runs where no dial is refused while an address is not being dialed, and fails otherwise (C46_refused, C46_unhandled, C46_relay_address, and C94_lost when the known addresses are asked for)."
  },
  {
   "property": "C47",
   "status": "partial",
   "theorems": [
    "Verif.Props.C47_no_abort",
    "Verif.Props.C47_subscribe",
    "Verif.Props.C47_unsubscribe",
    "Verif.Props.C47_read",
    "Verif.Props.C47_delivered",
    "Verif.Props.C47_others",
    "Verif.Props.C47_once",
    "Verif.Props.C47_kept_partial",
    "Verif.Props.C47_dropped",
    "Verif.Props.C47_repeated",
    "Verif.Props.C47_stale_drop"
   ],
   "note": "every interleaving of calls, stream drops and reads, arrivals and rounds of poll. subscribe, unsubscribe, reads and the absence of failed assertions are exact. Delivery is once for every mention of the topic in a message, hence once for messages that do not repeat a topic (C47_repeated otherwise). A stream stays registered only if no other stream of the topic is dropped (C47_kept_partial; C47_stale_drop is the failure). Floodsub is abstract: its queue holds anything."
  },
  {
   "property": "C48",
   "status": "proved",
   "theorems": [
    "Verif.Props.C48_peers",
    "Verif.Props.C48_polled",
    "Verif.Props.C48_view",
    "Verif.Props.C48_view_lost"
   ],
   "note": "every history of handled notices; after a poll without action all that arrived is handled. A peer that disconnects without a notice stays listed, as the statement says."
  },
  {
   "property": "C59",
   "status": "proved",
   "theorems": [
    "Verif.Props.C59_reports",
    "Verif.Props.C59_started",
    "Verif.Props.C59_dials"
   ],
   "note": "every history, from any state. The dial is made once per peer even if it fails: the set of peers asked for never shrinks."
  },
  {
   "property": "C60",
   "status": "proved",
   "theorems": [
    "Verif.Props.C60_sent",
    "Verif.Props.C60_all_sent",
    "Verif.Props.C60_dropped"
   ],
   "note": "every history while the peer stays connected; blocks for a peer that is not connected are dropped."
  },
  {
   "property": "C61",
   "status": "partial",
   "theorems": [
    "Verif.Props.C61_walk",
    "Verif.Props.C61_whole",
    "Verif.Props.C61_clash",
    "Verif.Props.C61_bucket_cid"
   ],
   "note": "exact for every tree: what is reported and how the walk ends. The statement itself holds for trees in which no bucket directly follows a plain directory (C61_whole); otherwise the walk panics right there (C61_walk, witness C61_clash). Buckets between a sharded root and the first entry are reported with the root cid (C61_bucket_cid)."
  },
  {
   "property": "C62",
   "status": "partial",
   "theorems": [
    "Verif.Props.C62_segment",
    "Verif.Props.C62_output",
    "Verif.Props.C62_complete",
    "Verif.Props.C62_starts",
    "Verif.Props.C62_ends",
    "Verif.Props.C62_lock",
    "Verif.Props.C62_refused",
    "Verif.Props.C62_shovel_refused",
    "Verif.Props.C62_deaf",
    "Verif.Props.C62_race_deaf",
    "Verif.Props.C62_race_refused"
   ],
   "note": "every interleaving. Responses are gap-free segments of their channel (C62_segment) which has only messages of the topic in order (C62_output); nothing is lost while the shovel is at work on the registered stream and no older stream of the topic is still to be dropped (C62_complete, C62_starts). The code does not meet the rest of the statement: a request panics when the notice of an older stream is pending (C62_refused, witness C62_race_refused), and a shovel that timed out panics when a client comes back in time (C62_shovel_refused), after which the topic is deaf for good (C62_deaf, witness C62_race_deaf)."
  },
  {
   "property": "C63",
   "status": "partial",
   "theorems": [
    "Verif.Props.C63_params",
    "Verif.Props.C63_publish",
    "Verif.Props.C63_roundtrip",
    "Verif.Props.C63_same_topic",
    "Verif.Props.C63_empty_message",
    "Verif.Props.C63_refused"
   ],
   "note": "exact for every request: acceptance, topic and message (C63_publish), and every topic and message can be sent (C63_roundtrip). The last part of the statement holds just if the argument has no + (C63_same_topic): pub leaves it, sub turns it into a space."
  },
  {
   "property": "C64",
   "status": "partial",
   "theorems": [
    "Verif.Props.C64_accepts",
    "Verif.Props.C64_multiple",
    "Verif.Props.C64_not_found",
    "Verif.Props.C64_too_large",
    "Verif.Props.C64_broken",
    "Verif.Props.C64_trailing"
   ],
   "note": "exact for every form. The code is stricter than the statement: the field must also be the last of the form (C64_accepts), any field after it is reported as multiple values (C64_multiple, witness C64_trailing)."
  },
  {
   "property": "C65",
   "status": "partial",
   "theorems": [
    "Verif.Props.C65_exact",
    "Verif.Props.C65_base64",
    "Verif.Props.C65_decode",
    "Verif.Props.C65_read",
    "Verif.Props.C65_write",
    "Verif.Props.C65_injective",
    "Verif.Props.C65_trailing",
    "Verif.Props.C65_bytes",
    "Verif.Props.C65_not_finite",
    "Verif.Props.C65_link_lookalike",
    "Verif.Props.C65_deep",
    "Verif.Props.C65_lines"
   ],
   "note": "exact for every document and every byte string, including the text format of serde_json. The code does not meet the statement: byte strings become lists of numbers (C65_bytes), floats that are not finite become null (C65_not_finite), integers beyond 64 bits become floats, maps that look like links become links or unreadable (C65_link_lookalike), more than 127 levels cannot be decoded (C65_deep); all other documents are read back (C65_exact). Anything may follow the JSON text (C65_trailing). How floats are written and read is a parameter."
  },
  {
   "property": "C66",
   "status": "partial",
   "theorems": [
    "Verif.Props.C66_added",
    "Verif.Props.C66_file",
    "Verif.Props.C66_query",
    "Verif.Props.C66_get_query",
    "Verif.Props.C66_url",
    "Verif.Props.C66_range",
    "Verif.Props.C66_offset_only",
    "Verif.Props.C66_overflow",
    "Verif.Props.C66_empty_name",
    "Verif.Props.C66_refused",
    "Verif.Props.C66_not_a_file"
   ],
   "note": "proved for every file by its cid (C66_file) and by its path (C66_added) and every range that does not pass 2^64, through query, path, resolution and reader. The code does not meet the rest: an offset alone is not implemented (C66_offset_only), a range passing 2^64 panics or gives an empty body (C66_overflow), a file sent with an empty name has no path in the wrapping directory (C66_empty_name). Files of exactly one chunk are refused by add (C54). Sizes are assumed to fit as in C10 and C54."
  },
  {
   "property": "C67",
   "status": "partial",
   "theorems": [
    "Verif.Props.C67_archive",
    "Verif.Props.C67_dot"
   ],
   "note": "proved for every form whose paths can be written (PathsFit: no empty, . or .. segment, no NUL, and not cut at .. after 100 bytes) and files below 8 GiB. The code does not meet the statement for the other paths: add accepts them, but the archive ends with an error (C53_parent, C53_cut), and names that are a dot put files at other paths, even beside the root, or panic (C67_dot). Sizes are assumed to fit as in C10 and C54."
  },
  {
   "property": "C68",
   "status": "partial",
   "theorems": [
    "Verif.Props.C68_put",
    "Verif.Props.C68_put_stores",
    "Verif.Props.C68_dag_put",
    "Verif.Props.C68_get",
    "Verif.Props.C68_rm_options",
    "Verif.Props.C68_rm",
    "Verif.Props.C68_rm_refused",
    "Verif.Props.C68_force",
    "Verif.Props.C68_integrity",
    "Verif.Props.C68_returned",
    "Verif.Props.C68_url",
    "Verif.Props.C68_round_trip",
    "Verif.Props.C68_removed",
    "Verif.Props.C68_errors",
    "Verif.Props.C68_status",
    "Verif.Props.C68_header",
    "Verif.Props.C68_stat",
    "Verif.Props.C68_messages"
   ],
   "note": "proved for every history (C68_integrity, C68_returned, C68_round_trip, C68_removed), with acceptance of every request exact. The code does not meet the last part of the statement: with force, what is answered for a pinned block, which stays, is what is answered for one that is removed (C68_force), and a put whose announcement fails is answered with an error although the block is stored (C68_put_stores). dag/put does not check that the data can be decoded (C68_dag_put). Requests are served one at a time; removals interleaved with pinning are in C29."
  },
  {
   "property": "C69",
   "status": "partial",
   "theorems": [
    "Verif.Props.C69_disk",
    "Verif.Props.C69_disk_answers",
    "Verif.Props.C69_removal",
    "Verif.Props.C69_disk_unsure",
    "Verif.Props.C69_memory",
    "Verif.Props.C69_memory_answers",
    "Verif.Props.C69_memory_keeps",
    "Verif.Props.C69_ends",
    "Verif.Props.C69_unknown_codec",
    "Verif.Props.C69_kv_shared",
    "Verif.Props.C69_overlap",
    "Verif.Props.C69_memory_lost"
   ],
   "note": "proved for the store on disk (C69_disk, C69_disk_answers) for every history of requests that do not overlap. For the in-memory store the same if everything below is there when something is pinned recursively (C69_memory, C69_memory_answers); whatever fails, what was pinned stays until it is asked to be unpinned (C69_memory_keeps), but a direct pin is lost by a recursive pin and unpin that both fail (C69_memory_lost). The key-value store does not meet the statement (C69_kv_shared, C32). With the store on disk a block removed during the walk of a pin is missing below it (C69_overlap). Blocks of unknown codecs cannot be unpinned recursively, the default over HTTP (C69_unknown_codec). No two cids in use have the same multihash."
  },
  {
   "property": "C70",
   "status": "partial",
   "theorems": [
    "Verif.Props.C70_disk",
    "Verif.Props.C70_disk_answers",
    "Verif.Props.C70_memory",
    "Verif.Props.C70_memory_answers",
    "Verif.Props.C70_bodies",
    "Verif.Props.C70_add_query",
    "Verif.Props.C70_add_refused",
    "Verif.Props.C70_list_query",
    "Verif.Props.C70_list_refused",
    "Verif.Props.C70_remove_query",
    "Verif.Props.C70_refused",
    "Verif.Props.C70_errors",
    "Verif.Props.C70_stream_ignored",
    "Verif.Props.C70_partly",
    "Verif.Props.C70_twice",
    "Verif.Props.C70_defaults",
    "Verif.Props.C70_status",
    "Verif.Props.C70_fails",
    "Verif.Props.C70_body",
    "Verif.Props.C70_blocks"
   ],
   "note": "proved for the store on disk (C70_disk, C70_disk_answers) for every history of requests served one at a time, and for the in-memory store if everything below what is asked to be pinned recursively is at hand (C70_memory, C70_memory_answers). A pin/add that fails may have pinned some of its cids (C70_partly), and fails in the in-memory store if a cid is given twice although it is pinned then (C70_twice). \"stream\" is read and ignored, \"quiet\" stands in for it (C70_stream_ignored). pin/add pins directly and pin/rm unpins recursively if nothing is said, which fails for blocks of codecs that cannot be decoded (C70_defaults). With the filter \"indirect\" the store on disk lists all that is below, also what is pinned itself, as C33. Queries of the same cid twice to the store on disk are left out (C33_fs_query_repeated). The key-value store is not covered (C69_kv_shared). No two cids in use have the same multihash."
  },
  {
   "property": "C71",
   "status": "partial",
   "theorems": [
    "Verif.Props.C71_resolve_query",
    "Verif.Props.C71_resolve",
    "Verif.Props.C71_resolve_reached",
    "Verif.Props.C71_again",
    "Verif.Props.C71_resolve_local",
    "Verif.Props.C71_resolve_name",
    "Verif.Props.C71_resolve_fails",
    "Verif.Props.C71_local_lost",
    "Verif.Props.C71_refs_query",
    "Verif.Props.C71_refs",
    "Verif.Props.C71_refs_answers",
    "Verif.Props.C71_refs_fails",
    "Verif.Props.C71_refs_unresolved",
    "Verif.Props.C71_refs_status",
    "Verif.Props.C71_refs_panics",
    "Verif.Props.C71_refs_panics_met",
    "Verif.Props.C71_local_memory",
    "Verif.Props.C71_local_disk",
    "Verif.Props.C71_slash"
   ],
   "note": "proved for dag/resolve without local-resolve if no sharded directory of several buckets is passed (C71_resolve, C71_again; else the rest of the path is miscounted, C20), and for refs if no dag-pb link is called \"/\" (C71_refs, exact in lines and order, and C71_refs_answers). With local-resolve the answer is not a path to the same place (C71_resolve_local, witness C71_local_lost). A link called \"/\" is a panic without an answer (C71_slash). refs leaves out links to blocks that are not there. On disk refs/local lists cids as version 1 (C71_local_disk)."
  },
  {
   "property": "C72",
   "status": "proved",
   "theorems": [
    "Verif.Props.C72_no_panic",
    "Verif.Props.C72_reports",
    "Verif.Props.C72_exact",
    "Verif.Props.C72_waits",
    "Verif.Props.C72_answered",
    "Verif.Props.C72_own",
    "Verif.Props.C72_caller",
    "Verif.Props.C72_find_peer",
    "Verif.Props.C72_provide"
   ],
   "note": "Kademlia is the environment: it reports about queries it has, of their kind, and only about bootstrapping more than once. A timeout of a query for the closest peers is told as one for providers (noClosest of the specification)."
  },
  {
   "property": "C73",
   "status": "partial",
   "theorems": [
    "Verif.Props.C73_served",
    "Verif.Props.C73_arrives",
    "Verif.Props.C73_settles",
    "Verif.Props.C73_rests",
    "Verif.Props.C73_authentic",
    "Verif.Props.C73_no_panic",
    "Verif.Props.C73_met",
    "Verif.Props.C73_too_late",
    "Verif.Props.C73_too_big",
    "Verif.Props.C73_poison",
    "Verif.Props.C73_debug_panic"
   ],
   "note": "proved for runs in which what peers send has cids that can be written and no block of the same multihash is stored under another cid (C73_arrives, C73_served), which C73_met meets. The nodes come to rest (C73_settles), and then nothing is left to do (C73_rests). Without the conditions it is false: a block that comes after the want is not sent (C73_too_late), frames over 512 KiB are dropped by the receiver and nobody is told (C73_too_big), and one peer can send a block with a cid that poisons the messages to all others (C73_poison). Every answer is authentic without these conditions (C73_authentic). Debug builds can panic (C73_debug_panic)."
  },
  {
   "property": "C74",
   "status": "partial",
   "theorems": [
    "Verif.Props.C74_listed",
    "Verif.Props.C74_answers",
    "Verif.Props.C74_reported",
    "Verif.Props.C74_new",
    "Verif.Props.C74_query",
    "Verif.Props.C74_request",
    "Verif.Props.C74_no_request",
    "Verif.Props.C74_list",
    "Verif.Props.C74_text_back",
    "Verif.Props.C74_read",
    "Verif.Props.C74_configured",
    "Verif.Props.C74_unlisted",
    "Verif.Props.C74_clear_silent"
   ],
   "note": "the list and the requests are exact for every history (C74_listed, C74_new, C74_request, C74_no_request, C74_list) and for what is added by requests the routing table follows it (C74_listed). The code does not meet the rest: configured addresses are learned with the part that names the peer and forgotten without, so the table keeps them (C74_configured), configured addresses that name no peer are not on the list (C74_unlisted), and removing everything answers only what the table says it knew (C74_answers, witness C74_clear_silent). The parser and the texts of addresses are parameters; C74_text_back assumes that they fit together."
  },
  {
   "property": "C75",
   "status": "proved",
   "theorems": [
    "Verif.Props.C75_find_peer",
    "Verif.Props.C75_closest",
    "Verif.Props.C75_provide",
    "Verif.Props.C75_find_providers",
    "Verif.Props.C75_wantlist",
    "Verif.Props.C75_stat",
    "Verif.Props.C75_peers",
    "Verif.Props.C75_connect",
    "Verif.Props.C75_addrs",
    "Verif.Props.C75_local",
    "Verif.Props.C75_id",
    "Verif.Props.C75_other_id",
    "Verif.Props.C75_resolve",
    "Verif.Props.C75_dns",
    "Verif.Props.C75_dns_refused",
    "Verif.Props.C75_dns_name",
    "Verif.Props.C75_errors"
   ],
   "note": "what the node answers to the handlers is a parameter of each request (the results of the calls modelled for C45, C55 and C72); the peers and cids it tells are as parsing gives them, and swarm/addrs gets each peer once. The text of a path that is answered is read by the parser of paths, which for cids that cannot be written (C57_unreadable) is not the same path. The parser and the texts of addresses are parameters."
  },
  {
   "property": "C76",
   "status": "proved",
   "theorems": [
    "Verif.Props.C76_endpoint",
    "Verif.Props.C76_lacking",
    "Verif.Props.C76_unknown",
    "Verif.Props.C76_all",
    "Verif.Props.C76_recover",
    "Verif.Props.C76_shutdown",
    "Verif.Props.C76_version"
   ],
   "note": "the filters of warp are modelled as its documentation and source say; paths are those of requests, which begin with a slash (C76_unknown). Handlers are parameters; those that are modelled are in C43, C57 to C75. The names of arguments that are missing are written in the program and have nothing to escape."
  },
  {
   "property": "C77",
   "status": "proved",
   "theorems": [
    "Verif.Props.C77_base64",
    "Verif.Props.C77_lines",
    "Verif.Props.C77_pem",
    "Verif.Props.C77_wrapped",
    "Verif.Props.C77_pretty",
    "Verif.Props.C77_file",
    "Verif.Props.C77_key",
    "Verif.Props.C77_load",
    "Verif.Props.C77_mismatch",
    "Verif.Props.C77_kind",
    "Verif.Props.C77_load_panic",
    "Verif.Props.C77_text",
    "Verif.Props.C77_init",
    "Verif.Props.C77_roundtrip",
    "Verif.Props.C77_keeps",
    "Verif.Props.C77_refused",
    "Verif.Props.C77_init_panic",
    "Verif.Props.C77_init_code",
    "Verif.Props.C77_daemon",
    "Verif.Props.C77_start",
    "Verif.Props.C77_profile",
    "Verif.Props.C77_home"
   ],
   "note": "RSA keys, their DER and PKCS#8 forms and the parser and texts of addresses are parameters; LawfulKeys assumes that a key is read from its own DER text and the two kinds of addresses from their own texts. Values of fields that are ignored are read like any other, serde_json is more tolerant inside of them. Several profiles are a panic (C77_refused)."
  },
  {
   "property": "C78",
   "status": "partial",
   "theorems": [
    "Verif.Props.C78_partial",
    "Verif.Props.C78_torn_file",
    "Verif.Props.C78_stuck",
    "Verif.Props.C78_full_false"
   ],
   "note": "proved if the directory or the file could not be made, or everything was written (C78_partial). The code does not meet the rest: the file is created before it is written, and if writing is cut off anywhere, what is left is no configuration (C78_torn_file), the daemon panics, and init refuses to replace it for ever (C78_stuck, witness C78_full_false)."
  },
  {
   "property": "C79",
   "status": "proved",
   "theorems": [
    "Verif.Props.C79_sleeps",
    "Verif.Props.C79_calls",
    "Verif.Props.C79_told",
    "Verif.Props.C79_reports",
    "Verif.Props.C79_runs",
    "Verif.Props.C79_settles",
    "Verif.Props.C79_rest",
    "Verif.Props.C79_answers",
    "Verif.Props.C79_ends",
    "Verif.Props.C79_exit",
    "Verif.Props.C79_over",
    "Verif.Props.C79_possible",
    "Verif.Props.C79_starved"
   ],
   "note": "what is done about a report, a call or an event is a parameter (it may give the swarm more to report). The task is not fair, and the property does not say it is: a swarm that always has something to report keeps calls, exit included, waiting (C79_starved)."
  },
  {
   "property": "C80",
   "status": "partial",
   "theorems": [
    "Verif.Props.C80_one",
    "Verif.Props.C80_start",
    "Verif.Props.C80_released",
    "Verif.Props.C80_again",
    "Verif.Props.C80_partial",
    "Verif.Props.C80_outlives",
    "Verif.Props.C80_no_directory"
   ],
   "note": "one node at a time is proved for every history (C80_one, C80_start, C80_released). That only this node touches the files is proved if no node is dropped while one of its blocking tasks runs (C80_partial); the code does not meet it without that, since blocking tasks do not keep the lock (C80_outlives). The file lock of the operating system is modelled, not its failures on network file systems."
  },
  {
   "property": "C81",
   "status": "proved",
   "theorems": [
    "Verif.Props.C81_found",
    "Verif.Props.C81_exactly",
    "Verif.Props.C81_whole",
    "Verif.Props.C81_cids",
    "Verif.Props.C81_again",
    "Verif.Props.C81_unique",
    "Verif.Props.C81_json"
   ],
   "note": "documents are those their codec can represent (Kept; C21 to C24 say which, C81_json for dag-json), and no two of the blocks made have the same sha2-256. Names inside of dag-pb documents are in C20; here a dag-pb document is found as a whole. Paths have no empty segment, as those that are parsed."
  },
  {
   "property": "C82",
   "status": "proved",
   "theorems": [
    "Verif.Props.C82_body",
    "Verif.Props.C82_cut",
    "Verif.Props.C82_heard",
    "Verif.Props.C82_peers",
    "Verif.Props.C82_topics",
    "Verif.Props.C82_down"
   ],
   "note": "sources are peer ids that can exist and topics are texts, as in Rust. Which messages of its topic a client gets, and the panics and lags that cost it some, are in C62 (C62_complete, C62_deaf); here is that it gets no others. A subscribed topic is one for which a further subscription is refused (C82_topics)."
  },
  {
   "property": "C83",
   "status": "partial",
   "theorems": [
    "Verif.Props.C83_stays",
    "Verif.Props.C83_direct",
    "Verif.Props.C83_readable",
    "Verif.Props.C83_atomic",
    "Verif.Props.C83_blocks",
    "Verif.Props.C83_partial",
    "Verif.Props.C83_torn",
    "Verif.Props.C83_alias"
   ],
   "note": "everything is proved for every history and crash if no put of a block of the tree was cut off between the creation of its file and its data, and blocks are not removed by the cid of the other version; the code does not meet it without that (C83_torn, C83_alias). What is written is taken to stay written: loss of power with directories that were not synced is not modelled."
  },
  {
   "property": "C84",
   "status": "partial",
   "theorems": [
    "Verif.Props.C84_partial",
    "Verif.Props.C84_written",
    "Verif.Props.C84_lenient"
   ],
   "note": "what prost reads, quick-protobuf reads alike, for all bytes (C84_partial), and both read back what is written (C84_written). The other way round the code does not meet it: quick-protobuf does not check wire types (C84_lenient)."
  },
  {
   "property": "C85",
   "status": "partial",
   "theorems": [
    "Verif.Props.C85_partial",
    "Verif.Props.C85_stays",
    "Verif.Props.C85_torn"
   ],
   "note": "proved for all files, histories and crashes if no put of one of the blocks was cut off between the creation of its file and its data before (C85_torn shows that the code does not meet it without that), and blocks are not removed by the cid of the other version (C83_alias). No two of the blocks of the file have the same sha2-256. Requests do not overlap, as in C83."
  },
  {
   "property": "C86",
   "status": "partial",
   "theorems": [
    "Verif.Props.C86_partial"
   ],
   "note": "proved for all forms, histories and crashes if no put of one of the blocks was cut off between the creation of its file and its data before (C85_torn shows that the code does not meet it without that), and blocks are not removed by the cid of the other version (C83_alias). cat and get are as in C66 and C67: files with a name, ranges that do not pass 2^64, paths that can be written. No two of the blocks have the same sha2-256, and sizes fit into 64 bits. Requests do not overlap, as in C83."
  },
  {
   "property": "C87",
   "status": "proved",
   "theorems": [
    "Verif.Props.C87_answers",
    "Verif.Props.C87_cut"
   ],
   "note": "proved for all histories, ends of requests and requests. That a recursive pin or unpin goes well also needs that the walk along links ends within the steps the model gives it (WalkEnds; C69_ends and C85 show that some number of steps is enough). An unpin that is recursive also needs the block itself to be there and readable. Blocks are told apart by their cid as of version 1, pins by the cid. Requests do not overlap, as in C83."
  },
  {
   "property": "C88",
   "status": "proved",
   "theorems": [
    "Verif.Props.C88_reads",
    "Verif.Props.C88_finishes",
    "Verif.Props.C88_cancelled",
    "Verif.Props.C88_no_pending",
    "Verif.Props.C88_met",
    "Verif.Props.C88_alias"
   ],
   "note": "proved for all files, ranges and interleavings. The hash is a parameter; no other data has the sha2-256 of a block of the file. The future of the reader is polled and dropped by the reader alone. C88_met is a run with three nodes in which a range is read from the second; C88_alias shows that the refusal of C88_reads is real. What C73 shows about frames that are too long and about poisoned cids is why C88_finishes leaves them out."
  },
  {
   "property": "C89",
   "status": "proved",
   "theorems": [
    "Verif.Props.C89_same",
    "Verif.Props.C89_ends",
    "Verif.Props.C89_programs",
    "Verif.Props.C89_needed",
    "Verif.Props.C89_cancelled",
    "Verif.Props.C89_cat",
    "Verif.Props.C89_get",
    "Verif.Props.C89_met"
   ],
   "note": "proved for all programs that load blocks, forms and interleavings. The hash is a parameter; no other data has the sha2-256 of one of the blocks. The node does not store one of the blocks under another cid (C88_alias shows what happens then), and the two nodes are undisturbed as in C73 and C88. cat and get are as in C66 and C67: files with a name, ranges that do not pass 2^64, paths that can be written. What is yielded on the way is part of the result. C89_met are runs with three nodes that meet the hypotheses."
  },
  {
   "property": "C90",
   "status": "proved",
   "theorems": [
    "Verif.Props.C90_kept",
    "Verif.Props.C90_passed_on",
    "Verif.Props.C90_cat",
    "Verif.Props.C90_met"
   ],
   "note": "proved for all programs that load blocks, forms and interleavings, under the hypotheses of C89. The store is that in memory, which Net/Exchange has; the program runs after its start state with no removal of its blocks at that node. C90_met is a run with three nodes: the second removes its blocks and goes away, and the third gets them from the first."
  },
  {
   "property": "C91",
   "status": "proved",
   "theorems": [
    "Verif.Props.C91_keeps",
    "Verif.Props.C91_downloaded",
    "Verif.Props.C91_ends",
    "Verif.Props.C91_dropped",
    "Verif.Props.C91_removes",
    "Verif.Props.C91_race",
    "Verif.Props.C91_locked",
    "Verif.Props.C91_left",
    "Verif.Props.C91_met",
    "Verif.Props.C91_ends_met"
   ],
   "note": "proved for all graphs, numbers of requests and interleavings, with the store and the pins in memory. The hash is a parameter; the cids in use have no other data and no two of them the same hash, and the node stores none of them under another cid. Unpinning, and a removal with its look at the pins, are one step each. C91_race shows that the exception in the statement is needed, C91_locked that everything that looks at the pins waits for a walk, C91_left what a request that was given up leaves pinned. C91_met and C91_ends_met are runs with three nodes."
  },
  {
   "property": "C92",
   "status": "proved",
   "theorems": [
    "Verif.Props.C92_served",
    "Verif.Props.C92_pins",
    "Verif.Props.C92_free",
    "Verif.Props.C92_met",
    "Verif.Props.C92_pins_met"
   ],
   "note": "proved for all forms and interleavings, under the conditions of C91 (nobody removes the root between its arrival and the answer of the pin; the node stores none of the blocks under another cid), C89 (the two nodes are undisturbed while the pin downloads) and C66 and C67 (files with a name, ranges that do not pass 2^64, paths that can be written). The store and the pins are those in memory. C92_met is a run with three nodes."
  },
  {
   "property": "C93",
   "status": "partial",
   "theorems": [
    "Verif.Props.C93_text",
    "Verif.Props.C93_one",
    "Verif.Props.C93_second",
    "Verif.Props.C93_told",
    "Verif.Props.C93_never",
    "Verif.Props.C93_up",
    "Verif.Props.C93_init",
    "Verif.Props.C93_exact_partial",
    "Verif.Props.C93_ended_partial",
    "Verif.Props.C93_killed",
    "Verif.Props.C93_race",
    "Verif.Props.C93_full_false",
    "Verif.Props.C93_met"
   ],
   "note": "false of the code: a daemon that is killed leaves the file as it is (C93_killed; no signal is handled), and one that ends by itself has let go of the repository before it makes the file empty, so that it may empty the file of the next one (C93_race). Proved in full: one daemon at a time, no wrong address while one serves (C93_told: its own or nothing), no address nobody listened at (C93_never), starting again (C93_up, C93_init). C93_exact_partial: while a daemon serves the file tells its address, if no process lets go of the repository early; C93_ended_partial: no address without a daemon, if none is killed and the disk does not fail. Which port the system chooses is up to the environment."
  },
  {
   "property": "C94",
   "status": "partial",
   "theorems": [
    "Verif.Props.C94_listed",
    "Verif.Props.C94_addrs",
    "Verif.Props.C94_peers",
    "Verif.Props.C94_keeps",
    "Verif.Props.C94_harmless_partial",
    "Verif.Props.C94_taken",
    "Verif.Props.C94_lost"
   ],
   "note": "false of the code: addrs asks the method that a dial asks for addresses, which gives the addresses of requests to connect out only once. If the known addresses are asked for between a request to connect to a known peer and its dial, the address is lost to the dial and the request is never answered unless somebody else connects to the peer (C94_taken for every such state, C94_lost from the start). Proved: what is listed, also over HTTP, and that asking changes nothing else; C94_harmless_partial: no harm is done while no request to a known peer waits for its dial. What other behaviours know of addresses is a parameter."
  },
  {
   "property": "C95",
   "status": "partial",
   "theorems": [
    "Verif.Props.C95_tree",
    "Verif.Props.C95_file",
    "Verif.Props.C95_named",
    "Verif.Props.C95_part",
    "Verif.Props.C95_clash"
   ],
   "note": "false of the code: a bucket that follows a plain directory makes the walker panic, and the archive of a well-formed directory breaks off there under an answer with status 200 (C95_clash). Proved for every tree: one entry for each place before such a clash, and all of it without one (C95_tree); the builder of this project makes no buckets, so everything that was added over HTTP comes back in full (C95_file, C95_named, C95_part). Restrictions as in C53 and C67: names that are not empty, . or .., no NUL, not cut at .. after 100 bytes, sizes as declared, sizes and times below 2^33."
  },
  {
   "property": "C96",
   "status": "partial",
   "theorems": [
    "Verif.Props.C96_cutOff",
    "Verif.Props.C96_begun",
    "Verif.Props.C96_over",
    "Verif.Props.C96_block",
    "Verif.Props.C96_answer",
    "Verif.Props.C96_dht",
    "Verif.Props.C96_bootstrap",
    "Verif.Props.C96_cat_late",
    "Verif.Props.C96_get_late",
    "Verif.Props.C96_refs_late",
    "Verif.Props.C96_refs_when",
    "Verif.Props.C96_pin_ignored"
   ],
   "note": "false of the code: cat, get and refs await only what comes before the status under the timeout, so the body takes as long as the blocks do, or for ever (C96_cat_late, C96_get_late, C96_refs_late, for every request whose next block is late); pin/add takes no timeout and ignores one that is given (C96_pin_ignored). Proved: the status of these comes in time (C96_begun), the others are over in time (C96_over, C96_block), what a timeout changes (C96_cutOff), when refs sends its status (C96_refs_when), and the answers (C96_answer, C96_dht, C96_bootstrap). Only waiting for blocks and for the node takes time in the model."
  },
  {
   "property": "C97",
   "status": "partial",
   "theorems": [
    "Verif.Props.C97_cat",
    "Verif.Props.C97_get",
    "Verif.Props.C97_resolve",
    "Verif.Props.C97_any_time",
    "Verif.Props.C97_refs_partial",
    "Verif.Props.C97_refs_true",
    "Verif.Props.C97_pin_true",
    "Verif.Props.C97_refs_short",
    "Verif.Props.C97_pin_short",
    "Verif.Props.C97_pin_stuck",
    "Verif.Props.C97_pin_again"
   ],
   "note": "false of the code for refs: a block that fails to be loaded is passed over without a word, and the answer ends as complete without its line and everything below it (C97_refs_short; C97_refs_partial shows that the answer never tells, and that without unique what is sent are lines of the complete answer in order; C97_refs_true that with or without unique each line tells of a link that is there). A recursive pin walks the same way and is answered well without what could not be loaded (C97_pin_short); it pins nothing that is not below its root (C97_pin_true), but unpinning its root when the block is there later fails and leaves other blocks pinned (C97_pin_stuck) until the root is pinned and unpinned again (C97_pin_again). Proved for cat, get and dag/resolve: C97_cat, C97_get, C97_resolve, and C97_any_time for every moment, also while a block is awaited that never comes. What was sent while a block is awaited is what the model has sent when loading it fails. How the end of a stream in an error is carried over HTTP is left to hyper."
  }
 ]
}