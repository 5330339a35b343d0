{
 "claims": [
  {
   "property": "C01",
   "status": "proved",
   "theorems": [
    "Iodyn.C01_step",
    "Iodyn.C01_zipper_histories",
    "Iodyn.C01_histories_run",
    "Iodyn.C01_pop_peek",
    "Iodyn.C01_push_count"
   ],
   "note": "For every history of API calls on a reachable state; the client never converts a just-archived stack (usage .full), as empty leaves make pop return None mid-sequence."
  },
  {
   "property": "C02",
   "status": "proved",
   "theorems": [
    "Iodyn.C02_unfocus_elements"
   ],
   "note": "All reachable cursors, every usage."
  },
  {
   "property": "C03",
   "status": "proved",
   "theorems": [
    "Iodyn.C03_focus_index"
   ],
   "note": "i < usize::MAX; the value usize::MAX is the end marker (C05)."
  },
  {
   "property": "C04",
   "status": "partial",
   "theorems": [
    "Iodyn.C04_focus_out_of_range_partial",
    "Iodyn.C04_counterexample_leaf",
    "Iodyn.C04_counterexample_empty",
    "Iodyn.C04_focus_out_of_range_cases"
   ],
   "note": "False as stated: on a sequence without archive points focus panics (non-empty) or returns a cursor (empty); both proved as counterexamples. Proved: None for every sequence with an archive point, and a complete case description."
  },
  {
   "property": "C05",
   "status": "proved",
   "theorems": [
    "Iodyn.C05_focus_last_count",
    "Iodyn.C05_focus_last_names",
    "Iodyn.C05_focus_last_unit",
    "Iodyn.C05_focus_first_names",
    "Iodyn.C05_focus_first_unit",
    "Iodyn.C05_focus_left",
    "Iodyn.C05_focus_first_count"
   ],
   "note": "Each metadata type; focus_left for all metadata types."
  },
  {
   "property": "C06",
   "status": "partial",
   "theorems": [
    "Iodyn.C06_focus_unfocus_partial",
    "Iodyn.C06_next_to_element_partial",
    "Iodyn.C06_counterexample",
    "Iodyn.C06_focus_left_unfocus_partial"
   ],
   "note": "Holds for every tree from editing and for memo_from of stacks that were pushed to after the last archive, and for every other tree from editing and memo_from if the focus is next to an element. Fails at an empty subsequence (C06_counterexample): memo_from of a stack archived last, focus at its end, unfocus drops the archive point."
  },
  {
   "property": "C07",
   "status": "proved",
   "theorems": [
    "Iodyn.C07_count",
    "Iodyn.C07_count_inner"
   ],
   "note": "Root and inner nodes."
  },
  {
   "property": "C08",
   "status": "proved",
   "theorems": [
    "Iodyn.C08_names",
    "Iodyn.C08_names_inner",
    "Iodyn.C08_names_nodup"
   ],
   "note": "Root and inner nodes, no duplicates."
  },
  {
   "property": "C09",
   "status": "partial",
   "theorems": [
    "Iodyn.C09_focus_name",
    "Iodyn.C09_focus_absent_partial",
    "Iodyn.C09_counterexample_leaf",
    "Iodyn.C09_duplicate_names"
   ],
   "note": "Present names: proved (names pairwise distinct; a duplicate-name counterexample shows the need). Absent names: None for sequences with an archive point; false (panic) for a single leaf, proved as counterexample."
  },
  {
   "property": "C10",
   "status": "partial",
   "theorems": [
    "Iodyn.C10_fold_up_partial",
    "Iodyn.C10_fold_up_edited_partial",
    "Iodyn.C10_fold_up_panics",
    "Iodyn.C10_counterexample_empty_leaf"
   ],
   "note": "Holds for exactly the trees that are empty or have no empty subsequence; on all others fold_up panics (C10_fold_up_panics). Trees from editing and join have none (C10_fold_up_edited_partial)."
  },
  {
   "property": "C11",
   "status": "partial",
   "theorems": [
    "Iodyn.C11_fold_up_gauged",
    "Iodyn.C11_gauged_free",
    "Iodyn.C11_fold_up_nl_partial",
    "Iodyn.C11_fold_up_nl_edited_partial",
    "Iodyn.C11_fold_up_nl_panics",
    "Iodyn.C11_no_empty_chunk"
   ],
   "note": "fold_up_gauged for every tree. fold_up_nl for exactly the trees that are empty or have no empty subsequence; it panics on all others (C11_fold_up_nl_panics)."
  },
  {
   "property": "C12",
   "status": "proved",
   "theorems": [
    "Iodyn.C12_fold_lr"
   ],
   "note": ""
  },
  {
   "property": "C13",
   "status": "proved",
   "theorems": [
    "Iodyn.C13_fold_lr_meta"
   ],
   "note": ""
  },
  {
   "property": "C14",
   "status": "proved",
   "theorems": [
    "Iodyn.C14_fold_lr_archive"
   ],
   "note": ""
  },
  {
   "property": "C15",
   "status": "proved",
   "theorems": [
    "Iodyn.C15_map",
    "Iodyn.C15_map_count",
    "Iodyn.C15_map_map"
   ],
   "note": "Also composition of maps."
  },
  {
   "property": "C16",
   "status": "partial",
   "theorems": [
    "Iodyn.C16_is_empty_partial",
    "Iodyn.C16_is_empty_sound",
    "Iodyn.C16_is_empty_counterexample",
    "Iodyn.C16_join",
    "Iodyn.C16_join_empty",
    "Iodyn.C16_from_vec",
    "Iodyn.C16_empty"
   ],
   "note": "join, from_vec and empty in full. is_empty: exact for trees without empty leaves, always sound (true means no elements), but false for some trees without elements (C16_is_empty_counterexample)."
  },
  {
   "property": "C17",
   "status": "proved",
   "theorems": [
    "Iodyn.C17_memo_from_tail",
    "Iodyn.C17_level_bounds"
   ],
   "note": "Levels 1..u32::MAX-1; the bound is shown to be needed."
  },
  {
   "property": "C18",
   "status": "proved",
   "theorems": [
    "Iodyn.C18_memo_from_head"
   ],
   "note": "Levels 1..u32::MAX."
  },
  {
   "property": "C19",
   "status": "proved",
   "theorems": [
    "Iodyn.C19_memo_from_unfocus"
   ],
   "note": "Exact equality of the trees, with the name suffix applied to the stack."
  },
  {
   "property": "C20",
   "status": "proved",
   "theorems": [
    "Iodyn.C20_heap_ordered",
    "Iodyn.C20_join_not_heap_ordered"
   ],
   "note": "All trees from editing, memo_from and map, including those with empty leaves. RazTree::join takes any level and does not keep heap order (C20_join_not_heap_ordered); the property does not claim it."
  },
  {
   "property": "C21",
   "status": "proved",
   "theorems": [
    "Iodyn.C21_canonical_general",
    "Iodyn.C21_canonical",
    "Iodyn.C21_empty_leaf"
   ],
   "note": "Histories of editing calls (usage .edit). C21_canonical_general adds memo_from of every stack, for trees that agree on is_empty; the condition is needed (C21_empty_leaf)."
  },
  {
   "property": "C22",
   "status": "proved",
   "theorems": [
    "Iodyn.C22_cursor_calls",
    "Iodyn.C22_tree_calls",
    "Iodyn.C22_fold_up",
    "Iodyn.C22_focus",
    "Iodyn.C22_level_zero_loses_data"
   ],
   "note": "Cursor calls, tree calls, folds and focus at valid positions; level 0 excluded (shown to lose data)."
  },
  {
   "property": "C23",
   "status": "proved",
   "theorems": [
    "Iodyn.C23_archive"
   ],
   "note": ""
  },
  {
   "property": "C24",
   "status": "proved",
   "theorems": [
    "Iodyn.C24_archive_points",
    "Iodyn.C24_pop",
    "Iodyn.C24_pop_edited"
   ],
   "note": "All reachable cursors."
  },
  {
   "property": "C25",
   "status": "proved",
   "theorems": [
    "Iodyn.C25_of_vec",
    "Iodyn.C25_stack_histories",
    "Iodyn.C25_lifo",
    "Iodyn.C25_iter"
   ],
   "note": "All histories: every answer equals that of a list specification (covers C26 and C27 too), and a plain LIFO stack for the elements."
  },
  {
   "property": "C26",
   "status": "proved",
   "theorems": [
    "Iodyn.C26_archives",
    "Iodyn.C26_nothing_lost"
   ],
   "note": ""
  },
  {
   "property": "C27",
   "status": "partial",
   "theorems": [
    "Iodyn.C27_pop_meta",
    "Iodyn.C27_is_empty",
    "Iodyn.C27_name_archive",
    "Iodyn.C27_name_pop",
    "Iodyn.C27_active_len_partial",
    "Iodyn.C27_active_len_counterexample"
   ],
   "note": "pop_meta, name, is_empty proved. active_len does not count archived data, against its documentation: counterexample and what holds instead."
  },
  {
   "property": "C28",
   "status": "proved",
   "theorems": [
    "Iodyn.C28_push",
    "Iodyn.C28_new",
    "Iodyn.C28_iter"
   ],
   "note": "Functional engine; persistence of named and unnamed cells in a store is C40/C41."
  },
  {
   "property": "C29",
   "status": "proved",
   "theorems": [
    "Iodyn.C29_level",
    "Iodyn.C29_level_range"
   ],
   "note": "Exact characterisation of the level and its range."
  },
  {
   "property": "C30",
   "status": "proved",
   "theorems": [
    "Iodyn.C30_walk",
    "Iodyn.C30_needs_heap_order"
   ],
   "note": "All sequences of moves, forced and unforced, against a specification on paths; heap order is shown to be needed."
  },
  {
   "property": "C31",
   "status": "proved",
   "theorems": [
    "Iodyn.C31_derived",
    "Iodyn.C31_join",
    "Iodyn.C31_split",
    "Iodyn.C31_moves",
    "Iodyn.C31_no_panic",
    "Iodyn.C31_split_join"
   ],
   "note": "All cursors a client can make by moving, splitting and joining, for every data type."
  },
  {
   "property": "C32",
   "status": "proved",
   "theorems": [
    "Iodyn.C32_left_start",
    "Iodyn.C32_iterator",
    "Iodyn.C32_fold_out",
    "Iodyn.C32_iterator_split"
   ],
   "note": "By path for walked cursors, by split for every cursor a client can make; C32_left_start for the left iterator, which has no next."
  },
  {
   "property": "C33",
   "status": "proved",
   "theorems": [
    "Iodyn.C33_fold_up_meta",
    "Iodyn.C33_fold_up",
    "Iodyn.C33_fold_lr_meta",
    "Iodyn.C33_fold_lr",
    "Iodyn.C33_map",
    "Iodyn.C33_map_branches",
    "Iodyn.C33_map_map"
   ],
   "note": "All trees."
  },
  {
   "property": "C34",
   "status": "partial",
   "theorems": [
    "Iodyn.C34_counterexample_rejects",
    "Iodyn.C34_counterexample_accepts",
    "Iodyn.C34_good_levels_partial"
   ],
   "note": "False: good_levels checks the mirrored convention; it rejects trees the library builds with equal levels and accepts trees on which cursors lose data (both proved). Exact when no branch has its parent level."
  },
  {
   "property": "C35",
   "status": "proved",
   "theorems": [
    "Iodyn.Skip.C35_most_recent",
    "Iodyn.Skip.C35_histories"
   ],
   "note": "All histories over any number of maps and both engines, path length 1..63, names used as documented (see C38)."
  },
  {
   "property": "C36",
   "status": "proved",
   "theorems": [
    "Iodyn.Skip.C36_prior",
    "Iodyn.Skip.C36_frame"
   ],
   "note": "Result of every ext/put/rem, and all other keys unchanged."
  },
  {
   "property": "C37",
   "status": "partial",
   "theorems": [
    "Iodyn.Skip.C37_no_panic_partial",
    "Iodyn.Skip.C37_no_panic_any_names_partial",
    "Iodyn.Skip.C37_panics_from_64",
    "Iodyn.Skip.C37_panics_at_0"
   ],
   "note": "Path lengths 1 to 63: no panic for any history, whatever names are used. False from path length 64 (debug build: shift overflow) and at 0 (make_mask), both proved."
  },
  {
   "property": "C38",
   "status": "proved",
   "theorems": [
    "Iodyn.Skip.C38_clones",
    "Iodyn.Skip.C38_unarchived_clone",
    "Iodyn.Skip.C38_name_reuse"
   ],
   "note": "Clones that are archived under fresh names are independent; without archiving, or with a name used twice, data is lost under DCG (counterexamples)."
  },
  {
   "property": "C39",
   "status": "partial",
   "theorems": [
    "Iodyn.TrieM.C39_find",
    "Iodyn.TrieM.C39_union_partial",
    "Iodyn.TrieM.C39_union_panics",
    "Iodyn.TrieM.C39_union_rec_loses",
    "Iodyn.TrieM.C39_union_rec_pairs",
    "Iodyn.TrieM.C39_union_rec_deep",
    "Iodyn.TrieM.C39_split"
   ],
   "note": "find on one map and unions of at most one non-empty-program map proved. False in general: union of two maps always panics in split_map, and union_rec loses keys (all proved)."
  },
  {
   "property": "C40",
   "status": "proved",
   "theorems": [
    "Iodyn.Heap.C40_push",
    "Iodyn.Heap.C40_histories",
    "Iodyn.Heap.C40_reused_name"
   ],
   "note": "Single pushes in every store, and all histories over any number of stacks; with a reused name an older stack changes (counterexample)."
  },
  {
   "property": "C41",
   "status": "proved",
   "theorems": [
    "Iodyn.Heap.C41_functional_engine",
    "Iodyn.Heap.C41_persistent",
    "Iodyn.Heap.C41_lists",
    "Iodyn.Heap.C41_runs"
   ],
   "note": "All programs over any number of sequences and clones; also the answers as plain lists, and no panic without focus."
  },
  {
   "property": "C42",
   "status": "partial",
   "theorems": [
    "Iodyn.Heap.C42_peek_partial",
    "Iodyn.Heap.C42_peek_added_partial",
    "Iodyn.Heap.C42_peek_changes_clone"
   ],
   "note": "Proved for the functional engine, for unnamed sequences, and for named ones without clones. False for clones of a named tree under the incremental engine: peek writes the store (witness)."
  },
  {
   "property": "C43",
   "status": "partial",
   "theorems": [
    "Iodyn.Eval.C43_naive",
    "Iodyn.Eval.C43_dcg_partial",
    "Iodyn.Eval.C43_dcg_diverges",
    "Iodyn.Eval.C43_dcg_aliases"
   ],
   "note": "Functional engine: all programs. Incremental engine: all programs that use each name once; with a reused name seq_pop loops for ever or reads another list (both proved)."
  },
  {
   "property": "C44",
   "status": "proved",
   "theorems": [
    "Iodyn.Eval.C44_empty",
    "Iodyn.Eval.C44_from_raz",
    "Iodyn.Eval.C44_from_tail",
    "Iodyn.Eval.C44_init",
    "Iodyn.Eval.C44_init_iff",
    "Iodyn.Eval.C44_stack_empty",
    "Iodyn.Eval.C44_stack_shown",
    "Iodyn.Eval.C44_stack_pushed"
   ],
   "note": "Also the exact archive points, and the exact condition for not panicking. An archive point at the very end is dropped."
  },
  {
   "property": "C45",
   "status": "proved",
   "theorems": [
    "Iodyn.Eval.C45_from_empty",
    "Iodyn.Eval.C45_from_empty_insert",
    "Iodyn.Eval.C45_insert",
    "Iodyn.Eval.C45_append",
    "Iodyn.Eval.C45_insert_empty",
    "Iodyn.Eval.C45_histories"
   ],
   "note": "Single edits and whole histories against the plain-list edit; inserting into an empty sequence panics (proved)."
  },
  {
   "property": "C46",
   "status": "proved",
   "theorems": [
    "Iodyn.Eval.C46_reverse",
    "Iodyn.Eval.C46_filter",
    "Iodyn.Eval.C46_filter_archives",
    "Iodyn.Eval.C46_filter_join"
   ],
   "note": "Also which archive points stay. The point filter keeps between two kept elements is the highest one only for heap-ordered trees (counterexample for RazTree::join at a low level)."
  },
  {
   "property": "C47",
   "status": "proved",
   "theorems": [
    "Iodyn.Eval.Adder.C47_same_result",
    "Iodyn.Eval.Adder.C47_archives_irrelevant",
    "Iodyn.Eval.Adder.C47_when_ok"
   ],
   "note": "Both give the same result or the same panic."
  },
  {
   "property": "C48",
   "status": "partial",
   "theorems": [
    "Iodyn.C48_local_edit_partial",
    "Iodyn.C48_join_counterexample"
   ],
   "note": "All trees from editing, memo_from and map. Missing: trees from RazTree::join at a level that is too low; there the claim is false (C48_join_counterexample), since the edit rebuilds the tree by its levels."
  },
  {
   "property": "C49",
   "status": "proved",
   "theorems": [
    "Iodyn.Eval.C49"
   ],
   "note": ""
  },
  {
   "property": "C50",
   "status": "partial",
   "theorems": [
    "Iodyn.Eval.C50_extend",
    "Iodyn.Eval.C50_empty",
    "Iodyn.Eval.C50_append_partial",
    "Iodyn.Eval.C50_vec_insert",
    "Iodyn.Eval.C50_insert_differs"
   ],
   "note": "Holds for initialisation and all appends; insertion differs (the vector harness draws the batch before the position and inserts it in reverse): proved with a witness."
  },
  {
   "property": "C51",
   "status": "proved",
   "theorems": [
    "Iodyn.Eval.C51_insert",
    "Iodyn.Eval.C51_append",
    "Iodyn.Eval.C51_insert_no_names",
    "Iodyn.Eval.C51_histories",
    "Iodyn.Eval.C51_init",
    "Iodyn.Eval.C51_inc_from_duplicates"
   ],
   "note": "Insertion without any name panics and inc_from of a tree that already has numbered names makes duplicates (both proved)."
  },
  {
   "property": "C52",
   "status": "partial",
   "theorems": [
    "Iodyn.Eval.C52_rev",
    "Iodyn.Eval.C52_tfoldnl_partial",
    "Iodyn.Eval.C52_tfoldnl_panics",
    "Iodyn.Eval.C52_max_partial",
    "Iodyn.Eval.C52_map",
    "Iodyn.Eval.C52_fold",
    "Iodyn.Eval.C52_tfold_partial",
    "Iodyn.Eval.C52_max_tfold_panics",
    "Iodyn.Eval.C52_counterexample"
   ],
   "note": "Map and left folds for every tree. Maximum and tree fold for exactly the trees that are empty or have no empty subsequence; on all others they panic (C52_max_tfold_panics, C52_counterexample)."
  },
  {
   "property": "C53",
   "status": "partial",
   "theorems": [
    "Iodyn.Eval.Adder.C53_reference_partial",
    "Iodyn.Eval.Adder.C53_long_numbers",
    "Iodyn.Eval.Adder.C53_reference_drops",
    "Iodyn.Eval.Adder.C53_parse_sum",
    "Iodyn.Eval.Adder.C53_parse_overflow",
    "Iodyn.Eval.Adder.C53_invalid"
   ],
   "note": "Numbers below 100000 only: a longer number is split after six digits and its last digit is used twice (proved as counterexample). The reference drops a number at the end of the text."
  },
  {
   "property": "C54",
   "status": "partial",
   "theorems": [
    "Iodyn.Eval.C54_max_partial",
    "Iodyn.Eval.C54_max_panics",
    "Iodyn.Eval.C54_max_empty"
   ],
   "note": "Holds for exactly the trees that are empty or have no empty subsequence; on all others the incremental program panics (C54_max_panics, C54_max_empty)."
  },
  {
   "property": "C55",
   "status": "proved",
   "theorems": [
    "Iodyn.Heap.C55_names_used_once",
    "Iodyn.Heap.C55_clones_interfere",
    "Iodyn.Heap.C55_reused_name"
   ],
   "note": "Also as plain lists. Both restrictions are needed (counterexamples for clones and for a reused name)."
  },
  {
   "property": "C56",
   "status": "proved",
   "theorems": [
    "Iodyn.Incr.C56_memo_folds",
    "Iodyn.Incr.C56_raz_folds",
    "Iodyn.Incr.C56_lists"
   ],
   "note": "Every answer and the final panic; for fold_up and fold_lr also as folds of plain lists. The reuse rule of memo! is an assumption about Adapton (Model/Incr)."
  },
  {
   "property": "C57",
   "status": "partial",
   "theorems": [
    "Iodyn.Incr.C57_two_functions",
    "Iodyn.Incr.C57_same_results_partial"
   ],
   "note": "Holds if all functions of a namespace give the same results. False for two different functions in one namespace (C57_two_functions), under the assumed reuse rule of memo!."
  },
  {
   "property": "C58",
   "status": "proved",
   "theorems": [
    "Iodyn.Incr.C58_update",
    "Iodyn.Incr.C58_one_place",
    "Iodyn.Incr.C58_unchanged",
    "Iodyn.Incr.C58_reachable",
    "Iodyn.Incr.C58_client"
   ],
   "note": "Exact work of the first fold and a bound for the second one after any change; C58_reachable and C58_client connect to programs. The bound is relative to the fold just before it in the namespace, which must be the first there."
  },
  {
   "property": "C59",
   "status": "proved",
   "theorems": [
    "Iodyn.Incr.C59_update_lr",
    "Iodyn.Incr.C59_one_place"
   ],
   "note": "As C58; the bound is relative to the first fold in the namespace."
  },
  {
   "property": "C60",
   "status": "proved",
   "theorems": [
    "Iodyn.Incr.C60_session",
    "Iodyn.Incr.C60_session_lr",
    "Iodyn.Incr.C60_names_return"
   ],
   "note": "Both folds. Relative to the assumed reuse rule of memo!. Without the condition on names the bound need not hold (C60_names_return)."
  },
  {
   "property": "C61",
   "status": "proved",
   "theorems": [
    "Iodyn.Incr.C61_map_again",
    "Iodyn.Incr.C61_client",
    "Iodyn.Incr.C61_lists"
   ],
   "note": "Incremental engine, each function in its own namespace. Also the elements as List.map of plain lists. The reuse rule of memo! is an assumption about Adapton (Model/IncrMap)."
  },
  {
   "property": "C62",
   "status": "proved",
   "theorems": [
    "Iodyn.Incr.C62_session",
    "Iodyn.Incr.C62_at_most_size",
    "Iodyn.Incr.C62_empty"
   ],
   "note": "Same cost measure as C60. Names that left the tree must not have come back in earlier maps of the session. Mapping an empty sequence keeps all stored calls (C62_empty)."
  },
  {
   "property": "C63",
   "status": "partial",
   "theorems": [
    "Iodyn.Heap.C63_map_partial",
    "Iodyn.Heap.C63_lists_partial",
    "Iodyn.Heap.C63_map_changes_clone",
    "Iodyn.Heap.C63_overwritten"
   ],
   "note": "Proved for the functional engine, for unnamed sequences, and for named ones without clones. False for clones of a named sequence under the incremental engine (C63_map_changes_clone, in general C63_overwritten). memo! is a plain call."
  },
  {
   "property": "C64",
   "status": "partial",
   "theorems": [
    "Iodyn.Heap.C64_memo_from_partial",
    "Iodyn.Heap.C64_lists_partial",
    "Iodyn.Heap.C64_rerun_panics"
   ],
   "note": "Proved for the functional engine, for unnamed stacks, and for named ones without clones. Under the incremental engine, false for every stack with a named archive point that is converted a second time (C64_rerun_panics). memo! is a plain call; reading a cell of the wrong type is a panic in the model."
  },
  {
   "property": "C65",
   "status": "proved",
   "theorems": [
    "Iodyn.Eval.C65_unique_skiplist",
    "Iodyn.Eval.C65_cells",
    "Iodyn.Eval.C65_unique_native"
   ],
   "note": "Any store content, hash function and engine; distinct names under the incremental engine, which the harness guarantees (C67)."
  },
  {
   "property": "C66",
   "status": "proved",
   "theorems": [
    "Iodyn.Eval.C66_tree_to_list",
    "Iodyn.Eval.C66_cells",
    "Iodyn.Eval.C66_tree_to_stack"
   ],
   "note": "Any store content and engine; distinct names under the incremental engine, which the harness guarantees (C67). Fuel bounds the recursion of a pop; enough always exists."
  },
  {
   "property": "C67",
   "status": "proved",
   "theorems": [
    "Iodyn.Eval.C67_session",
    "Iodyn.Eval.C67_session_vec",
    "Iodyn.Eval.C67_session_empty",
    "Iodyn.Eval.C67_unique_session",
    "Iodyn.Eval.C67_list_session",
    "Iodyn.Eval.C67_max_map_session",
    "Iodyn.Eval.C67_append_agree",
    "Iodyn.Eval.C67_answers_change"
   ],
   "note": "Generic over the computation, with instances for unique_elms, tree_to_list, crossover (max) and to_string (map). memo! is a plain call here; the answers are judged in the store of their time (C67_answers_change shows why). Insertion into an empty sequence panics (C67_session_empty)."
  },
  {
   "property": "C68",
   "status": "proved",
   "theorems": [
    "Iodyn.Heap.C68_functional_engine",
    "Iodyn.Heap.C68_no_names",
    "Iodyn.Heap.C68_owned",
    "Iodyn.Heap.C68_names_used_once",
    "Iodyn.Heap.C68_version",
    "Iodyn.Heap.C68_lists",
    "Iodyn.Heap.C68_runs",
    "Iodyn.Heap.C68_same_namespace",
    "Iodyn.Heap.C68_version_follows_original"
   ],
   "note": "C68_version is the claim of src/lib.rs:23-26; C68_owned the general form, for both engines, with a decidable condition on the program. Negative parts: C68_same_namespace, C68_version_follows_original. ns itself is Adapton code: that names are looked up per namespace is an assumption."
  },
  {
   "property": "C69",
   "status": "proved",
   "theorems": [
    "Iodyn.Heap.C69_owned",
    "Iodyn.Heap.C69_session",
    "Iodyn.Heap.C69_lists",
    "Iodyn.Heap.C69_runs",
    "Iodyn.Heap.C69_same_namespace"
   ],
   "note": "C69_session is the shape of the harness sessions (source in S, map or memo_from elsewhere to one result variable); C69_owned the general form, with a decidable condition. C69_lists and C69_runs relate to plain lists and exclude panics; the stacks converted must have been pushed to since the last archive point (CTops), as for C64. memo! is a plain call here. Negative part: C69_same_namespace."
  },
  {
   "property": "C70",
   "status": "proved",
   "theorems": [
    "Iodyn.Incr.C70_convert_again",
    "Iodyn.Incr.C70_same_again",
    "Iodyn.Incr.C70_client",
    "Iodyn.Incr.C70_lists"
   ],
   "note": "Model/IncrMemoFrom has memo_from as a memoised program in a namespace of its own. C70_convert_again: any history (Converted); C70_client, C70_lists: clients; C70_same_again: nothing is run for an unchanged stack whose last archive point is named. The condition on clients is SSafe, as in C64 (each name once, no clones, or no names)."
  },
  {
   "property": "C71",
   "status": "proved",
   "theorems": [
    "Iodyn.Incr.C71_work",
    "Iodyn.Incr.C71_at_most_points",
    "Iodyn.Incr.C71_head",
    "Iodyn.Incr.C71_tail"
   ],
   "note": "C71_work is the bound, C71_at_most_points, C71_head and C71_tail its consequences. The number of bodies run is that of the model of memo! (Model/IncrMap): a call runs again unless its arguments, what it read and what it made are unchanged. Examples with eight points; with equal levels AtTail reruns all (example), which the bound allows."
  },
  {
   "property": "C72",
   "status": "partial",
   "theorems": [
    "Iodyn.C72_names",
    "Iodyn.C72_tree",
    "Iodyn.C72_raz",
    "Iodyn.C72_tree_same",
    "Iodyn.C72_raz_same",
    "Iodyn.C72_elm",
    "Iodyn.TrieM.C72_trie",
    "Iodyn.TrieM.C72_trie_equal_but_different",
    "Iodyn.TrieM.C72_trie_counterexample",
    "Iodyn.TrieM.C72_trie_order",
    "Iodyn.TrieM.C72_trie_partial"
   ],
   "note": "Sequences, cursors, stacks, metadata: proved (C72_tree, C72_raz, C72_names, C72_elm; C72_tree_same, C72_raz_same for exact metadata). Tries: the contract of Eq and Hash holds (C72_trie), but equal tries can have different values (C72_trie_equal_but_different, C72_trie_counterexample), as leaves compare by a 64-bit hash; C72_trie_partial is for maps that the hasher tells apart; C72_trie_order: the same map in another order of iteration need not be equal. Hashers are any function of the words written."
  },
  {
   "property": "C73",
   "status": "proved",
   "theorems": [
    "Iodyn.Incr.C73_again",
    "Iodyn.Incr.C73_session",
    "Iodyn.Incr.C73_at_most_size",
    "Iodyn.Incr.C73_client",
    "Iodyn.Incr.C73_lists"
   ],
   "note": "Memoised fold_up_gauged with the functions of reverse.rs and filter.rs (any predicate), which make sequences: result and panic as from scratch after any history, for clients and on plain lists; work bounded by the nodes above and in what changed. memo! as assumed in DESIGN.md; the stored calls are kept with the namespace of the program, so each namespace is used with one program."
  },
  {
   "property": "C74",
   "status": "proved",
   "theorems": [
    "Iodyn.Incr.C74_again",
    "Iodyn.Incr.C74_session",
    "Iodyn.Incr.C74_at_most_size",
    "Iodyn.Incr.C74_client",
    "Iodyn.Incr.C74_lists"
   ],
   "note": "C74_again after any history (Accumulated), C74_client and C74_lists for clients, C74_session and C74_at_most_size for the work. The stack stores levels (IAStack<T,u32>); memo! as assumed in DESIGN.md, each fold in its own namespace as in eval/src/actions.rs."
  },
  {
   "property": "C75",
   "status": "proved",
   "theorems": [
    "Iodyn.Incr.C75_again",
    "Iodyn.Incr.C75_client",
    "Iodyn.Incr.C75_lists",
    "Iodyn.Incr.C75_at_most_size"
   ],
   "note": "C75_again after any history, also with the panics; C75_client and C75_lists for clients, the latter with the non-incremental program (C47_when_ok); C75_at_most_size for the work. Three namespaces as in eval/examples/adder.rs and eval/src/actions.rs."
  },
  {
   "property": "C76",
   "status": "proved",
   "theorems": [
    "Iodyn.Heap.C76_fold_up",
    "Iodyn.Heap.C76_map",
    "Iodyn.Heap.C76_rebuild",
    "Iodyn.Heap.C76_to_list",
    "Iodyn.Heap.C76_adder",
    "Iodyn.Heap.C76_max_lists",
    "Iodyn.Heap.C76_map_lists",
    "Iodyn.Heap.C76_rebuild_lists",
    "Iodyn.Heap.C76_list_lists",
    "Iodyn.Heap.C76_adder_lists"
   ],
   "note": "C76_fold_up, C76_map, C76_rebuild, C76_to_list for both indices, C76_adder for positions (the program is for those): no bounds on the parameters, panics included. C76_max_lists, C76_map_lists, C76_rebuild_lists, C76_list_lists, C76_adder_lists: on plain lists, within the number types. The adder can panic on texts that it does not understand, so C76_adder_lists is about sessions that end. memo! as assumed in DESIGN.md."
  },
  {
   "property": "C77",
   "status": "proved",
   "theorems": [
    "Iodyn.C77_distribution",
    "Iodyn.C77_top",
    "Iodyn.C77_no_other",
    "Iodyn.C77_same_generator",
    "Iodyn.C77_bounds",
    "Iodyn.C77_l_inc",
    "Iodyn.C77_l_dec",
    "Iodyn.C77_generated"
   ],
   "note": "C77_distribution, C77_top and C77_no_other count all 2^64 numbers; C77_same_generator for NegBin and inc_level; C77_bounds, C77_l_inc, C77_l_dec for integer types of any width; C77_generated. That the generator draws each number equally often is a matter of the rand crate and not modelled."
  },
  {
   "property": "C78",
   "status": "partial",
   "theorems": [
    "Iodyn.C78_shape_partial",
    "Iodyn.C78_left_names",
    "Iodyn.C78_names_differ"
   ],
   "note": "C78_shape_partial: shape, levels and elements as drawn; C78_left_names: the names left of the root too. The remaining names differ from the drawing (C78_names_differ, for every element type)."
  },
  {
   "property": "C79",
   "status": "proved",
   "theorems": [
    "Iodyn.Incr.C79_session",
    "Iodyn.Incr.C79_named",
    "Iodyn.Incr.C79_unnamed"
   ],
   "note": "C79_session: all local editing sessions over the store, results and work; C79_named: the bound 2*(depth+points)+1 when all archive points have names; C79_unnamed: without names the whole tree is folded again. The bound is for edits that do not pop an archive point of the tree."
  },
  {
   "property": "C80",
   "status": "proved",
   "theorems": [
    "Iodyn.Incr.C80_fold",
    "Iodyn.Incr.C80_map",
    "Iodyn.Incr.C80_rebuild",
    "Iodyn.Incr.C80_named"
   ],
   "note": "C80_fold, C80_map, C80_rebuild: all sessions of batches of local edits over the store, results and work; C80_named: the bound 2*k+1 when all archive points have names. Edits are local as in C79. memo! as assumed in DESIGN.md."
  },
  {
   "property": "C81",
   "status": "proved",
   "theorems": [
    "Iodyn.Incr.C81_fold",
    "Iodyn.Incr.C81_fold_names",
    "Iodyn.Incr.C81_map",
    "Iodyn.Incr.C81_map_names",
    "Iodyn.Incr.C81_rebuild",
    "Iodyn.Incr.C81_rebuild_names",
    "Iodyn.Incr.C81_named",
    "Iodyn.Incr.C81_total"
   ],
   "note": "C81_fold, C81_map, C81_rebuild and the same with names as places: answers and work in all sessions of the driver with at least one element and one element per batch; C81_named: the gap is at most 1 with name gauge 1; C81_total: no panic within the number types (positions). memo! as assumed in DESIGN.md."
  },
  {
   "property": "C82",
   "status": "proved",
   "theorems": [
    "Iodyn.Incr.C82_batches",
    "Iodyn.Incr.C82_session",
    "Iodyn.Incr.C82_session_names",
    "Iodyn.Incr.C82_total"
   ],
   "note": "C82_batches: all sessions of batches of local edits over the store, lists and work; C82_session and C82_session_names: all sessions of the driver with name gauge 1, at least one element and one element per batch; C82_total: no panic within the number types (positions), and the elements of the lists. Edits are local as in C79. memo! as assumed in DESIGN.md."
  },
  {
   "property": "C83",
   "status": "proved",
   "theorems": [
    "Iodyn.Incr.C83_fold",
    "Iodyn.Incr.C83_map",
    "Iodyn.Incr.C83_rebuild",
    "Iodyn.Incr.C83_named",
    "Iodyn.Incr.C83_local",
    "Iodyn.Incr.C83_pops"
   ],
   "note": "C83_fold, C83_map, C83_rebuild: results and work over the store for all sessions of batches of edits that leave the sequence nonempty; C83_named: all gaps are at most 1 with named archive points; C83_local: the numbers of C80 for local edits; C83_pops: crossings bounded by pops. memo! as assumed in DESIGN.md."
  },
  {
   "property": "C84",
   "status": "proved",
   "theorems": [
    "Iodyn.Incr.C84_path",
    "Iodyn.Incr.C84_mean_path",
    "Iodyn.Incr.C84_fold",
    "Iodyn.Incr.C84_map",
    "Iodyn.Incr.C84_rebuild"
   ],
   "note": "C84_path: focus passes exactly the archive points that see the cut; C84_mean_path: their mean number over all random numbers; C84_fold, C84_map, C84_rebuild: results as lists and mean work over the store, for all sessions of local edits fixed in advance. memo! as assumed in DESIGN.md; the random numbers of different archive points are independent and uniform."
  },
  {
   "property": "C85",
   "status": "proved",
   "theorems": [
    "Iodyn.Heap.C85_store",
    "Iodyn.Heap.C85_lists",
    "Iodyn.Heap.C85_vec",
    "Iodyn.Heap.C85_zero",
    "Iodyn.Heap.C85_kept"
   ],
   "note": "C85_store: rounds over any store give what they give on values; C85_lists, C85_vec: what the rounds give as lists; C85_zero: a size of 0 panics; C85_kept: witness that a sequence kept from an earlier round changes, with the incremental engine only. Sizes that f32 powers give are not modelled: any list of sizes."
  },
  {
   "property": "C86",
   "status": "proved",
   "theorems": [
    "Iodyn.Heap.C86_calls",
    "Iodyn.Heap.C86_endless"
   ],
   "note": "C86_calls: all programs of calls; C86_endless: with a name used again an iterator never ends."
  },
  {
   "property": "C87",
   "status": "proved",
   "theorems": [
    "Iodyn.Incr.C87_fold",
    "Iodyn.Incr.C87_map",
    "Iodyn.Incr.C87_rebuild"
   ],
   "note": "C87_fold, C87_map, C87_rebuild (reverse and filter): all sessions with positions as places and namegauge 1."
  },
  {
   "property": "C88",
   "status": "proved",
   "theorems": [
    "Iodyn.C88_depth",
    "Iodyn.C88_mean_depth",
    "Iodyn.C88_any_place"
   ],
   "note": "C88_depth, C88_mean_depth (mean and tail), C88_any_place: all histories of edits; the sequence is non-empty before each edit."
  },
  {
   "property": "C89",
   "status": "proved",
   "theorems": [
    "Iodyn.Incr.C89_fold",
    "Iodyn.Incr.C89_map",
    "Iodyn.Incr.C89_rebuild"
   ],
   "note": "C89_fold, C89_map, C89_rebuild (reverse and filter): any edits at the cursor that never leave the sequence empty; all archive points named."
  },
  {
   "property": "C90",
   "status": "proved",
   "theorems": [
    "Iodyn.C90_same",
    "Iodyn.C90_navigate",
    "Iodyn.C90_edit",
    "Iodyn.C90_local",
    "Iodyn.C90_make",
    "Iodyn.C90_mean"
   ],
   "note": "C90_same, C90_navigate, C90_edit, C90_local, C90_make, C90_mean. Only calls that move cursors are counted."
  },
  {
   "property": "C91",
   "status": "proved",
   "theorems": [
    "Iodyn.Skip.C91_same",
    "Iodyn.Skip.C91_exact",
    "Iodyn.Skip.C91_most",
    "Iodyn.Skip.C91_mean"
   ],
   "note": "C91_same, C91_exact, C91_most, C91_mean. Histories are the allowed ones of Spec/MapApi (Client.Good); finite type of keys for the mean."
  },
  {
   "property": "C92",
   "status": "proved",
   "theorems": [
    "Iodyn.Incr.C92_consistent",
    "Iodyn.Incr.C92_ends"
   ],
   "note": "C92_consistent, C92_ends. Adapton is modelled (Model/IncrObs): what memo!, force_map and cell do is an assumption."
  },
  {
   "property": "C93",
   "status": "proved",
   "theorems": [
    "Iodyn.Incr.C93_again",
    "Iodyn.Incr.C93_client",
    "Iodyn.Incr.C93_lists",
    "Iodyn.Incr.C93_session",
    "Iodyn.Incr.C93_session_names"
   ],
   "note": "C93_again, C93_client, C93_lists, C93_session, C93_session_names; the last is against the session on values, whose answers are the sets of elements."
  },
  {
   "property": "C94",
   "status": "proved",
   "theorems": [
    "Iodyn.Incr.C94_work",
    "Iodyn.Incr.C94_record",
    "Iodyn.Incr.C94_bound",
    "Iodyn.Incr.C94_again"
   ],
   "note": "C94_work (exact), C94_bound, C94_again; C94_record ties the records to the runs of C92. Adapton is modelled (Model/IncrObs)."
  },
  {
   "property": "C95",
   "status": "proved",
   "theorems": [
    "Iodyn.Incr.C95_exact",
    "Iodyn.Incr.C95_first",
    "Iodyn.Incr.C95_work",
    "Iodyn.Incr.C95_edit",
    "Iodyn.Incr.C95_again"
   ],
   "note": "C95_exact, C95_first, C95_again, C95_work (bound by new nodes and changed leaves), C95_edit (which leaves can change). Adapton is modelled (Model/IncrObs)."
  },
  {
   "property": "C96",
   "status": "proved",
   "theorems": [
    "Iodyn.Incr.C96_leaves",
    "Iodyn.Incr.C96_mean"
   ],
   "note": "C96_leaves, C96_mean: sums over all hash functions, compared with their number times the bound. Adapton is modelled (Model/IncrObs)."
  },
  {
   "property": "C97",
   "status": "proved",
   "theorems": [
    "Iodyn.Incr.C97_trees",
    "Iodyn.Incr.C97_batches",
    "Iodyn.Incr.C97_session",
    "Iodyn.Incr.C97_session_names",
    "Iodyn.Incr.C97_total"
   ],
   "note": "C97_trees, C97_batches, C97_session, C97_session_names, C97_total: sums over all hash functions, compared with their number times the bound (uqBound). Adapton is modelled (Model/IncrObs)."
  },
  {
   "property": "C98",
   "status": "proved",
   "theorems": [
    "Iodyn.Incr.C98_unique",
    "Iodyn.Incr.C98_list",
    "Iodyn.Incr.C98_bound"
   ],
   "note": "C98_unique, C98_list, C98_bound: sums over all random numbers and all hash functions, compared with their number times the bound (uqLogs, listLogs). Local edits with positions; Adapton is modelled (Model/IncrObs)."
  },
  {
   "property": "C99",
   "status": "proved",
   "theorems": [
    "Iodyn.Incr.C99_unique",
    "Iodyn.Incr.C99_leaves",
    "Iodyn.Incr.C99_bound",
    "Iodyn.Incr.C99_list"
   ],
   "note": "C99_unique (any bound of the leaves), C99_leaves, C99_bound (both), C99_list: sums over all random numbers and all hash functions, compared with their number times the bound (driverBound, driverList). Adapton is modelled (Model/IncrObs)."
  },
  {
   "property": "C100",
   "status": "proved",
   "theorems": [
    "Iodyn.Incr.C100_session",
    "Iodyn.Incr.C100_edit"
   ],
   "note": "C100_session, C100_edit, with the conditions on the text stated on texts (Speaking, Separated; plus_speaking). Adapton is modelled (Model/IncrLr)."
  },
  {
   "property": "C101",
   "status": "proved",
   "theorems": [
    "Iodyn.Incr.C101_batches",
    "Iodyn.Incr.C101_session",
    "Iodyn.Incr.C101_session_names"
   ],
   "note": "C101_batches (clients), C101_session and C101_session_names (driver), for legible texts (Spec/OpenBatches). tokenize alone: to_tree and parse of the adder are in C75. Adapton is modelled (Model/IncrLr)."
  },
  {
   "property": "C102",
   "status": "proved",
   "theorems": [
    "Iodyn.Incr.C102_batches",
    "Iodyn.Incr.C102_session"
   ],
   "note": "C102_batches (clients), C102_session (driver), for legible texts. tokenize alone: to_tree and parse of the adder are in C75. Adapton is modelled (Model/IncrLr)."
  },
  {
   "property": "C103",
   "status": "proved",
   "theorems": [
    "Iodyn.Eval.C103_small",
    "Iodyn.Eval.C103_10k",
    "Iodyn.Eval.C103_elm",
    "Iodyn.Eval.C103_sum",
    "Iodyn.Eval.Adder.C103_readable",
    "Iodyn.Eval.Adder.C103_letters",
    "Iodyn.Eval.Adder.C103_session",
    "Iodyn.Eval.Adder.C103_mean",
    "Iodyn.Eval.Adder.C103_defaults"
   ],
   "note": "C103_small, C103_10k, C103_elm, C103_sum, C103_readable, C103_letters (values), C103_session, C103_mean, C103_defaults (sessions). The share is over independent numbers of the coordinating generator; StdRng itself is not modelled."
  },
  {
   "property": "C104",
   "status": "proved",
   "theorems": [
    "Iodyn.Eval.C104_table",
    "Iodyn.Eval.C104_rows",
    "Iodyn.Eval.C104_stages",
    "Iodyn.Eval.C104_compute2",
    "Iodyn.Eval.C104_folds",
    "Iodyn.Eval.C104_span",
    "Iodyn.Eval.C104_untimed",
    "Iodyn.Eval.Adder.C104_adder",
    "Iodyn.Eval.C104_session",
    "Iodyn.Eval.C104_adder_session",
    "Iodyn.Eval.C104_single_append",
    "Iodyn.Eval.C104_extend",
    "Iodyn.Eval.C104_create"
   ],
   "note": "C104_table, C104_rows, C104_stages, C104_folds, C104_compute2, C104_span (tables and times), C104_untimed, C104_session (clocks do not matter), C104_adder, C104_adder_session (both experiments), C104_single_append, C104_extend, C104_create. The values of the times are those of an arbitrary clock."
  },
  {
   "property": "C105",
   "status": "partial",
   "theorems": [
    "Iodyn.Eval.Rep.C105_report",
    "Iodyn.Eval.Rep.C105_panics",
    "Iodyn.Eval.Rep.C105_break_even_partial",
    "Iodyn.Eval.Rep.C105_lost_again",
    "Iodyn.Eval.Rep.C105_zero",
    "Iodyn.Eval.Rep.C105_data_partial",
    "Iodyn.Eval.Rep.C105_last_missing",
    "Iodyn.Eval.Rep.C105_adder",
    "Iodyn.Eval.Rep.C105_adder_panics",
    "Iodyn.Eval.Rep.C105_adder_data_partial",
    "Iodyn.Eval.Rep.C105_session",
    "Iodyn.Eval.Rep.C105_adder_session"
   ],
   "note": "Proved: C105_report, C105_panics, C105_session, C105_adder, C105_adder_panics, C105_adder_session (numbers and panics). Violated: C105_lost_again (behind again after the crossover), C105_zero (0 also if ahead from the start), C105_last_missing (the last change is not in the data file); C105_break_even_partial holds if no change takes longer than without Adapton, C105_data_partial and C105_adder_data_partial describe all other rows. Rounding of f64 is not modelled."
  },
  {
   "property": "C106",
   "status": "proved",
   "theorems": [
    "Iodyn.Incr.C106_fold",
    "Iodyn.Incr.C106_map",
    "Iodyn.Incr.C106_rebuild",
    "Iodyn.Incr.C106_fold_usual",
    "Iodyn.Incr.C106_fold_crossing",
    "Iodyn.Incr.C106_map_usual",
    "Iodyn.Incr.C106_rebuild_usual"
   ],
   "note": "C106_fold, C106_map, C106_rebuild (all parameters in range); C106_fold_usual, C106_map_usual, C106_rebuild_usual, C106_fold_crossing (default parameters of the examples)."
  },
  {
   "property": "C107",
   "status": "proved",
   "theorems": [
    "Iodyn.Incr.C107_fold",
    "Iodyn.Incr.C107_map",
    "Iodyn.Incr.C107_rebuild",
    "Iodyn.Incr.C107_crossing"
   ],
   "note": "C107_fold, C107_map, C107_rebuild (all parameters in range with at least one change, all k); C107_crossing (default parameters of crossover.rs)."
  },
  {
   "property": "C108",
   "status": "proved",
   "theorems": [
    "Iodyn.Incr.C108_fold",
    "Iodyn.Incr.C108_map",
    "Iodyn.Incr.C108_rebuild",
    "Iodyn.Incr.C108_crossing"
   ],
   "note": "C108_fold, C108_map, C108_rebuild (all parameters in range, all j); C108_crossing (default parameters of crossover.rs)."
  },
  {
   "property": "C109",
   "status": "proved",
   "theorems": [
    "Iodyn.C109_path",
    "Iodyn.Incr.C109_fold",
    "Iodyn.Incr.C109_map",
    "Iodyn.Incr.C109_rebuild"
   ],
   "note": "C109_fold, C109_map, C109_rebuild (any sequence, any batches of local edits, all j); C109_path (the way to the cursor)."
  },
  {
   "property": "C110",
   "status": "proved",
   "theorems": [
    "Iodyn.C110_moves",
    "Iodyn.Incr.C110_fold",
    "Iodyn.Incr.C110_map",
    "Iodyn.Incr.C110_rebuild"
   ],
   "note": "C110_fold, C110_map, C110_rebuild (any batches of edits that never leave the sequence empty, all j); C110_moves (moves of cursors)."
  },
  {
   "property": "C111",
   "status": "proved",
   "theorems": [
    "Iodyn.C111_range",
    "Iodyn.C111_deepest",
    "Iodyn.C111_shallowest",
    "Iodyn.C111_made"
   ],
   "note": "C111_range (all trees), C111_deepest, C111_shallowest (the extremes), C111_made (both occur at all sizes)."
  },
  {
   "property": "C112",
   "status": "proved",
   "theorems": [
    "Iodyn.Incr.C112_tokenize"
   ],
   "note": "C112_tokenize (all parameters in range, all j)."
  },
  {
   "property": "C113",
   "status": "proved",
   "theorems": [
    "Iodyn.Incr.C113_list",
    "Iodyn.Incr.C113_tokenize"
   ],
   "note": "C113_list, C113_tokenize (all local sessions, all j)."
  },
  {
   "property": "C114",
   "status": "proved",
   "theorems": [
    "Iodyn.C114_start",
    "Iodyn.C114_made",
    "Iodyn.C114_end"
   ],
   "note": "C114_start, C114_made (the start, all trees), C114_end (the end, for every n)."
  }
 ]
}