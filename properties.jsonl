{"id": "C01", "title": "Editing at the cursor behaves like a pair of lists", "statement": "For every history of push_left/right, pop_left/right, peek_left/right, archive_left/right, focus and unfocus calls (archive levels >= 1), the results returned by every call are those of a plain zipper: a list of the elements left of the cursor and a list of the elements right of it. push adds next to the cursor, pop removes and returns the element next to the cursor and only returns None when that whole side is empty, peek returns what pop would return.", "quantifier": "all element types, all metadata types, all finite histories of editing calls, all archive levels >= 1 and names, all intermediate focus positions", "why_tests_cant": "Each pop may cross into archived vectors, into a forest of partially rebuilt tree nodes, or into a leaf produced by an earlier unfocus; the number of such configurations is unbounded and tests only walk a few.", "anchors": ["src/raz.rs: Raz::{push_left,push_right,pop_left,pop_right,peek_left,peek_right,archive_left,archive_right,unfocus}, RazTree::{focus,focus_left}"]}
{"id": "C02", "title": "unfocus keeps every element in order", "statement": "Calling unfocus on a cursor yields a tree whose left-to-right element sequence is exactly the elements left of the cursor followed by the elements right of the cursor: nothing is lost, duplicated or reordered, whatever archives were made and whatever their (>= 1) levels.", "quantifier": "all reachable cursor states, for every metadata type and all archive levels >= 1 in any order (also levels that are not heap ordered)", "why_tests_cant": "unfocus merges two forests and two stacks of vectors by level comparison; loss or reordering would only show for particular level orders and particular split points.", "anchors": ["src/raz.rs: Raz::unfocus", "src/tree_cursor.rs: Cursor::{join,up,down_left_force,down_right_force}"]}
{"id": "C03", "title": "focus(i) puts exactly i elements to the left", "statement": "For a counted sequence of length n and any i <= n, focus(i) succeeds and yields a cursor with the first i elements on its left and the remaining n-i on its right, both in order.", "quantifier": "all trees produced by the public API, all i <= n", "why_tests_cant": "Navigation depends on the per-node counts and on every possible tree shape; off-by-one errors only appear at subsequence boundaries.", "anchors": ["src/raz.rs: RazTree::focus", "src/raz_meta.rs: Count::{navigate,split_vec}"]}
{"id": "C04", "title": "focus beyond the end fails cleanly", "statement": "For a counted sequence of length n and any index i > n other than the end marker, focus(i) reports failure by returning None (it never yields a cursor and never panics).", "quantifier": "all trees produced by the public API, all out-of-range indices", "why_tests_cant": "Behaviour differs by tree shape (empty, single leaf, branch) and every index has to be covered.", "anchors": ["src/raz.rs: RazTree::focus", "src/raz_meta.rs: Count::{navigate,split_vec}"]}
{"id": "C05", "title": "End positions: focus at the end marker, focus_left", "statement": "focus at the end marker (usize::MAX for counts, Position::Right for names and unit metadata) yields a cursor with the whole sequence on the left and nothing on the right; focus_left and Position::Left yield a cursor with nothing on the left and the whole sequence on the right.", "quantifier": "all trees produced by the public API, each metadata type", "why_tests_cant": "Needs every tree shape.", "anchors": ["src/raz.rs: RazTree::{focus,focus_left}", "src/raz_meta.rs: FirstLast, Position, Count, Names"]}
{"id": "C06", "title": "Focusing and unfocusing without editing gives back an equal tree", "statement": "For every tree built through the editing API, focusing anywhere and unfocusing again without editing yields an equal tree: same elements, same subsequence boundaries, same levels, same names, same shape and metadata.", "quantifier": "all trees built by unfocus or memo_from, all focus positions", "why_tests_cant": "Equality of shape is a property of the re-join algorithm over all level sequences and all split positions.", "anchors": ["src/raz.rs: RazTree::focus, Raz::unfocus", "src/tree_cursor.rs: Cursor::join"]}
{"id": "C07", "title": "The count metadata is the number of elements", "statement": "Every counted tree that the API can produce (unfocus, memo_from, join, from_vec, empty, map) reports meta() equal to the number of elements in the sequence, and every inner node stores the true counts of its two sides.", "quantifier": "all histories of API calls producing a tree", "why_tests_cant": "Counts are updated incrementally on rebuild of nodes; a missed rebuild is visible only for specific move/edit sequences.", "anchors": ["src/raz.rs: RazTree::meta, treetop_meta, TreeData::rebuild", "src/raz_meta.rs: Count"]}
{"id": "C08", "title": "The name metadata is the set of names in the tree", "statement": "Every tree with name metadata reports meta() containing exactly the names of the archive points currently in the tree.", "quantifier": "all histories of API calls producing a tree", "why_tests_cant": "Stale or missing names only show after particular edits and joins.", "anchors": ["src/raz.rs: RazTree::meta, treetop_meta, TreeData::rebuild", "src/raz_meta.rs: Names"]}
{"id": "C09", "title": "Focusing on a name finds that archive point", "statement": "With unique names, focusing on the name of an archive point succeeds and places the cursor exactly at that archive point: the elements before it are on the left and the elements after it on the right. Focusing on a name that does not occur reports failure by returning None.", "quantifier": "all trees with pairwise distinct names, all names", "why_tests_cant": "Navigation uses name sets of both branches; correctness depends on every tree shape and on uniqueness.", "anchors": ["src/raz.rs: RazTree::focus", "src/raz_meta.rs: Names::{navigate,split_vec,from_meta,from_vec}"]}
{"id": "C10", "title": "fold_up with an associative operation is the plain fold", "statement": "For every associative operation, fold_up over a tree equals folding the operation over the mapped elements from left to right; it is None exactly for the empty sequence.", "quantifier": "all trees produced by the public API, all associative operations and initialisers", "why_tests_cant": "Tests fix one operation (max, sum, concatenation) and a few shapes; independence of shape holds only by associativity and in-order traversal.", "anchors": ["src/raz.rs: RazTree::fold_up", "src/level_tree.rs: Tree::{fold_up,fold_up_meta}"]}
{"id": "C11", "title": "fold_up_nl and fold_up_gauged see each subsequence and archive point once, in order", "statement": "fold_up_nl and fold_up_gauged compute, for operations that are associative across archive points, the left-to-right combination of the per-subsequence results with exactly the archive points' levels and names between them; in particular the free-monoid instance returns the full sequence of subsequences, levels and names.", "quantifier": "all trees, all initialisers and all binary operations satisfying the associativity law", "why_tests_cant": "Same as fold_up, with levels and names.", "anchors": ["src/raz.rs: RazTree::{fold_up_nl,fold_up_gauged}"]}
{"id": "C12", "title": "fold_lr is the left fold of the sequence", "statement": "fold_lr(init, f) equals the left fold of f over the elements in order, for arbitrary (not necessarily associative) f; on the empty tree it returns init.", "quantifier": "all trees (also with empty subsequences), all f and init", "why_tests_cant": "Order and completeness over every shape.", "anchors": ["src/raz.rs: RazTree::fold_lr", "src/level_tree.rs: Tree::fold_lr_meta"]}
{"id": "C13", "title": "fold_lr_meta interleaves elements and archive points in order", "statement": "fold_lr_meta(init, bin, meta) equals the left fold over the sequence in which every archive point appears once between the subsequences it separates, with its own level and name.", "quantifier": "all trees, all functions", "why_tests_cant": "Order and completeness over every shape.", "anchors": ["src/raz.rs: RazTree::fold_lr_meta", "src/level_tree.rs: Tree::fold_lr_meta"]}
{"id": "C14", "title": "fold_lr_archive closes every subsequence with the name of the archive point before it", "statement": "fold_lr_archive calls finbin once after each subsequence, with the name of the archive point immediately preceding that subsequence (\"start\" for the first one), and meta once per archive point with its level, in order.", "quantifier": "all trees, all functions", "why_tests_cant": "The carried name is threaded through the recursion; every shape matters. A name handed out twice would break the engine's naming discipline.", "anchors": ["src/raz.rs: RazTree::fold_lr_archive", "src/level_tree.rs: Tree::fold_lr_meta"]}
{"id": "C15", "title": "map applies the function pointwise and keeps the structure", "statement": "map(f) yields a tree whose elements are f of the original elements in order, with the same subsequence boundaries, levels, names and shape, and with freshly computed metadata of the target metadata type that is correct for the new sequence.", "quantifier": "all trees, all functions, all source and target metadata types", "why_tests_cant": "Every shape; metadata of a different type is rebuilt from scratch.", "anchors": ["src/raz.rs: RazTree::map", "src/level_tree.rs: Tree::map"]}
{"id": "C16", "title": "join, from_vec and empty", "statement": "RazTree::join(a, lev, nm, b) of two non-empty trees is the concatenation of their sequences with one new archive point (lev, nm) between them, and None if either is empty; from_vec(v) is the sequence v (None if v is empty); empty() is the empty sequence; is_empty tells whether there are no elements.", "quantifier": "all trees, levels, names and vectors", "why_tests_cant": "Unbounded trees and vectors; join performs no level check, so correctness for bad levels needs proof.", "anchors": ["src/raz.rs: RazTree::{join,from_vec,empty,is_empty}, bin, leaf"]}
{"id": "C17", "title": "memo_from(AtTail) keeps the stack's sequence", "statement": "Converting an archive stack with AtTail yields the tree whose element sequence is the stack from bottom to top with exactly the archive points (levels, names) of the stack between the same elements; it does not panic for levels generated by inc_level.", "quantifier": "all archive stacks, all levels in 1..u32::MAX-1", "why_tests_cant": "The conversion is a nested recursion driven by level comparison with several assertions; all level sequences must be covered.", "anchors": ["src/raz.rs: impl MemoFrom<AtTail> for RazTree"]}
{"id": "C18", "title": "memo_from(AtHead) reverses the stack", "statement": "Converting an archive stack with AtHead yields the tree whose element sequence is the stack from top to bottom with the same archive points in reverse order; it does not panic for levels generated by inc_level.", "quantifier": "all archive stacks, all levels in 1..u32::MAX", "why_tests_cant": "As C17.", "anchors": ["src/raz.rs: impl MemoFrom<AtHead> for RazTree"]}
{"id": "C19", "title": "memo_from builds the same tree as pushing and unfocusing", "statement": "For a stack whose active vector is not empty, memo_from(AtTail(stack)) and pushing/archiving the same data left of a fresh cursor followed by unfocus give trees of the same shape, levels, subsequences and metadata (names differing only by the suffix that unfocus adds).", "quantifier": "all archive stacks with a non-empty active vector, levels in 1..u32::MAX-1", "why_tests_cant": "Two unrelated algorithms must agree on every level sequence.", "anchors": ["src/raz.rs: impl MemoFrom<AtTail> for RazTree, Raz::unfocus"]}
{"id": "C20", "title": "Trees are heap ordered by level", "statement": "Every tree obtained from unfocus or memo_from satisfies the level discipline: the root of a left branch has a strictly smaller level than its parent and the root of a right branch has a level that is not greater.", "quantifier": "all histories of editing calls starting from the empty sequence, all levels >= 1", "why_tests_cant": "The invariant must survive arbitrary interleavings of archive, pop across archive points, focus and unfocus.", "anchors": ["src/level_tree.rs: module docs", "src/tree_cursor.rs: Cursor::join", "src/raz.rs: Raz::unfocus, MemoFrom"]}
{"id": "C21", "title": "Structure is canonical", "statement": "Two trees that contain the same elements, subsequence boundaries, levels and names are equal, whatever operations (and in whatever order) produced them.", "quantifier": "all pairs of histories of editing calls that lead to the same annotated sequence", "why_tests_cant": "A statement about all pairs of histories.", "anchors": ["src/level_tree.rs: module docs (\"All trees with the same levels will have the same structure\")", "src/tree_cursor.rs: Cursor docs", "src/raz.rs: Raz::unfocus"]}
{"id": "C22", "title": "No panic in the sequence API", "statement": "No call of the editing and tree API (new, push, pop, peek, archive, unfocus, focus at a valid position, fold_*, map, join) panics, for any history of calls with archive levels >= 1.", "quantifier": "all histories of calls with levels >= 1", "why_tests_cant": "The code contains asserts, unwraps and unreachable!s whose unreachability depends on global invariants.", "anchors": ["src/raz.rs: all unwrap/assert/panic/unreachable sites", "src/tree_cursor.rs: Cursor::{join,up}"]}
{"id": "C23", "title": "Archiving never changes the sequence", "statement": "archive_left/archive_right do not change the elements on either side of the cursor; they add one archive point next to the cursor exactly when the last item on that side is an element that has not been archived, and otherwise do nothing.", "quantifier": "all reachable cursor states, all levels and names (also level 0 as long as it is not unfocused)", "why_tests_cant": "All states.", "anchors": ["src/raz.rs: Raz::{archive_left,archive_right}", "src/archive_stack.rs: AStack::archive"]}
{"id": "C24", "title": "Archive points survive edits elsewhere", "statement": "The archive points (level and name) of the tree after unfocus are exactly those that were left of the cursor followed by those right of it, in order, except that when the cursor sits directly at an archive point with nothing between (an empty subsequence would result) exactly one adjacent archive point is dropped. pop removes an archive point only when it crosses it.", "quantifier": "all reachable cursor states", "why_tests_cant": "All states and all boundary configurations.", "anchors": ["src/raz.rs: Raz::{unfocus,pop_left,pop_right}"]}
{"id": "C25", "title": "The archive stack is a LIFO stack", "statement": "push/pop/peek/archive/next_archive/into_iter on an archive stack behave as on a plain stack of elements: pop returns the most recently pushed element not yet popped, even if it was archived, and None only if there is none; archiving does not change the elements; iteration yields all elements from top to bottom.", "quantifier": "all histories of stack operations", "why_tests_cant": "Unbounded histories.", "anchors": ["src/archive_stack.rs: AStack::{new,push,pop,peek,archive,is_empty,into_iter}"]}
{"id": "C26", "title": "Archives come back with their own data and metadata", "statement": "Repeated next_archive returns the archived vectors from most recent to oldest, each paired with the metadata that was given when the data below it was archived, and ends with None; nothing is lost or duplicated.", "quantifier": "all archive stacks", "why_tests_cant": "Unbounded numbers of archives.", "anchors": ["src/archive_stack.rs: AStack::{next_archive,archive}"]}
{"id": "C27", "title": "pop_meta, name, active_len and is_empty report truthfully", "statement": "pop_meta returns the same element as pop, with the archive's metadata exactly when the pop opened an archive; name returns the name of the most recent archive still closed; is_empty is true exactly if no element is left; active_len returns the total item count of the stack, including archived data (as documented).", "quantifier": "all archive stacks", "why_tests_cant": "All states.", "anchors": ["src/archive_stack.rs: AStack::{pop_meta,name,active_len,is_empty}"]}
{"id": "C28", "title": "The cons-list stack is persistent and LIFO", "statement": "peek/pull/name/iter of a stack obtained by push return the pushed element, the old stack, the given name, and all elements from top to bottom; a stack that is kept is not changed by later pushes on it.", "quantifier": "all stacks and histories", "why_tests_cant": "All histories.", "anchors": ["src/stack.rs: Stack, Head, push_onto, Iter"]}
{"id": "C29", "title": "Generated levels are never 0 and never exceed 64", "statement": "For every random 64-bit number, the generated branch level lies between 1 and 64, so levels from inc_level meet the preconditions of every level-based structure (level 0 is reserved for leaves; memo_from needs levels below u32::MAX).", "quantifier": "all 2^64 random numbers", "why_tests_cant": "2^64 inputs.", "anchors": ["src/level_tree.rs: gen_branch_level", "src/lib.rs: inc_level", "src/trees.rs: NegBin"]}
{"id": "C30", "title": "Walking a cursor does not change the tree", "statement": "On a level-ordered tree, any sequence of unforced down_left/down_right/up moves keeps the cursor on a node of the original tree, up undoes the last unmatched down and reports the matching direction, and walking up until it fails gives back the original tree.", "quantifier": "all level-ordered trees, all sequences of moves", "why_tests_cant": "The path is stored as two separate stacks and reconstructed by comparing levels; all trees and all walks matter.", "anchors": ["src/tree_cursor.rs: Cursor::{from,down_left,down_right,up,up_discard,at_tree}"]}
{"id": "C31", "title": "Cursor split and join preserve order and level discipline", "statement": "Splitting a cursor and joining the two parts with any node data and level gives, after moving to the root, a tree whose in-order sequence of (level, name) nodes is left nodes, the new node, right nodes, and which is level ordered if the parts were; joining back the same node gives back the same tree.", "quantifier": "all cursors on level-ordered trees, all levels", "why_tests_cant": "All trees, levels and positions.", "anchors": ["src/tree_cursor.rs: Cursor::{split,join,up}"]}
{"id": "C32", "title": "Tree iterators enumerate the nodes right of the cursor in order", "statement": "into_iters on a cursor returns a right iterator that yields exactly the data of all nodes to the right of the cursor node, once each, in order, and then None; fold_out is the left fold of that sequence. The left iterator starts at the last node before the cursor node, and is empty if there is none.", "quantifier": "all level-ordered trees and cursor positions", "why_tests_cant": "Iteration uses up/down moves with level comparisons; all shapes matter.", "anchors": ["src/tree_cursor.rs: Cursor::into_iters, IterR::{next,fold_out}"]}
{"id": "C33", "title": "Tree folds and maps visit every node exactly once", "statement": "On any tree, fold_up(_meta) computes the bottom-up catamorphism, fold_lr(_meta) the left fold of the in-order node sequence with the right level and name, and map preserves shape, levels and names and composes: map g after map f is map (g . f).", "quantifier": "all trees, data types and functions", "why_tests_cant": "All shapes and functions.", "anchors": ["src/level_tree.rs: Tree::{fold_up,fold_up_meta,fold_lr,fold_lr_meta,map}"]}
{"id": "C34", "title": "good_levels accepts the trees that the library builds", "statement": "The debugging check good_levels returns true for every tree that the library builds with consistent levels (unfocus, memo_from, cursor join), and false for trees that do not follow the convention the cursor needs.", "quantifier": "all trees built by the API", "why_tests_cant": "Ties between levels decide the answer; tests use trees without ties.", "anchors": ["src/level_tree.rs: good_levels", "src/tree_cursor.rs: Cursor::{join,up}"]}
{"id": "C35", "title": "The skip list is a finite map", "statement": "For every history of put, rem, ext and get calls, get(k) returns the value of the most recent put/ext of k that was not removed afterwards, for every hash function (also with collisions after masking) and every path length from 1 to 63.", "quantifier": "all histories, all keys and values, all hash functions, path lengths 1..=63", "why_tests_cant": "Depends on hash bits of all keys; tests use one hash function and small sizes.", "anchors": ["src/skiplist.rs: Skiplist, FinMap::{emp,ext,put,rem,get}, build_path_step, build_path_rec"]}
{"id": "C36", "title": "Skip list updates return the prior mapping", "statement": "ext and rem return the value that get would have returned just before the call; put/rem/ext of one key never change the mapping of any other key.", "quantifier": "all histories, all pairs of keys, also keys with equal hashes", "why_tests_cant": "As C35.", "anchors": ["src/skiplist.rs: FinMap::{ext,rem,put,get}"]}
{"id": "C37", "title": "Skip list never panics for sane path lengths", "statement": "For every path length from 1 to 64 no sequence of map operations panics.", "quantifier": "all histories, hash functions and path lengths 1..=64", "why_tests_cant": "The shift amounts and asserted vector lengths depend on hash bit patterns that random tests do not reach.", "anchors": ["src/skiplist.rs: make_mask, build_path_step, build_path_rec"]}
{"id": "C38", "title": "Skip list archives need fresh names and then keep all versions", "statement": "In a mutable named store, if the names passed to emp and archive are pairwise different, then the map semantics hold and every clone of a skip list keeps its contents when other clones archived under different names are extended.", "quantifier": "all histories of archive/ext/get over several clones in one store", "why_tests_cant": "Depends on the store's overwriting semantics and on every interleaving.", "anchors": ["src/skiplist.rs: Skiplist::{archive,ext,get}, name_pair(name,cntr)"]}
{"id": "C39", "title": "Trie finds what was inserted, and union merges maps", "statement": "find on from_hashmap(m) returns m's value for every key; union of two tries finds every key that either trie finds, preferring the right one.", "quantifier": "all maps, keys, hash functions, names", "why_tests_cant": "All maps.", "anchors": ["src/trie.rs: Trie::{find,from_hashmap,union,union_rec,split_map}, make_mask"]}
{"id": "C40", "title": "Named stacks share a mutable store", "statement": "With the incremental engine, pushing with a fresh name leaves every existing stack unchanged, and the new stack reads back as expected; pushing without a name never changes any other stack.", "quantifier": "all stores, stacks and histories of pushes with pairwise distinct names", "why_tests_cant": "Aliasing over all histories.", "anchors": ["src/stack.rs: push_onto", "src/lib.rs: crate docs (persistence of unnamed data)"]}
{"id": "C41", "title": "Unnamed sequences are fully persistent under the incremental engine", "statement": "If no archive point carries a name, then with the incremental engine's mutable store no operation on a clone of a sequence changes any other clone, and all operations agree with the purely functional semantics.", "quantifier": "all histories over several clones without names", "why_tests_cant": "Aliasing over all histories.", "anchors": ["src/lib.rs: crate docs", "src/level_tree.rs: Tree::new (put vs cell)"]}
{"id": "C42", "title": "Peeking does not modify", "statement": "peek_left and peek_right do not change the sequence, the cursor, or any other handle to the same data, with either engine.", "quantifier": "all reachable states and all other handles", "why_tests_cant": "Requires comparing all handles before and after in the mutable store.", "anchors": ["src/raz.rs: Raz::{peek_left,peek_right}", "src/tree_cursor.rs: Cursor::up"]}
{"id": "C43", "title": "The archive-list variants of the evaluation suite are LIFO stacks", "statement": "seq_push/seq_pop on the four list types of the evaluation suite behave as on a plain stack of elements and archiving does not change the elements.", "quantifier": "all histories on List, RcList, VecList, RcVecList", "why_tests_cant": "All histories.", "anchors": ["eval/src/accum_lists.rs: List, RcList, VecList, RcVecList", "eval/src/interface.rs: IFaceSeq, IFaceArchive"]}
{"id": "C44", "title": "Random-sequence construction in the evaluation suite produces the requested sequence", "statement": "Building an initial incremental sequence of any size with any data gauge >= 1 and name gauge >= 1 never runs out of its pre-generated data, names or levels and yields exactly the generated elements in order.", "quantifier": "all sizes, gauges and random streams", "why_tests_cant": "All size/gauge combinations, including non-divisible ones.", "anchors": ["eval/src/eval_iraz.rs: inc_init"]}
{"id": "C45", "title": "Batch insertion and append in the evaluation suite", "statement": "Inserting or appending a batch into an incremental sequence never panics on missing names or levels and results in the old sequence with the batch inserted at the chosen position (or appended), in generation order.", "quantifier": "all states with length >= 1, batch sizes, gauges, counters and random streams", "why_tests_cant": "The number of archive points taken depends on the running counter modulo the gauges.", "anchors": ["eval/src/eval_iraz.rs: EvalIRaz::{insert,append}"]}
{"id": "C46", "title": "Incremental reverse and filter", "statement": "The incremental reverse and filter programs (fold_up_gauged with from_vec and join) return the reversed, respectively filtered, sequence; filter returns an empty sequence when nothing matches.", "quantifier": "all sequences, archive structures and predicates", "why_tests_cant": "All shapes.", "anchors": ["eval/examples/reverse.rs", "eval/examples/filter.rs", "src/raz.rs: RazTree::{fold_up_gauged,join,from_vec}"]}
{"id": "C47", "title": "The incremental adder agrees with the batch adder", "statement": "Tokenising and parsing through the incremental sequence (fold_lr_meta into an archive stack, memo_from(AtTail), fold_lr_meta) gives the same result as tokenising and parsing the plain vector with the same step functions, and archive points never influence the result.", "quantifier": "all inputs and archive structures", "why_tests_cant": "All inputs and archive placements (an archive point may fall inside a number).", "anchors": ["eval/examples/adder.rs"]}
{"id": "C48", "title": "A local edit only rebuilds the path to the root", "statement": "If a cursor is focused and only elements of the focused subsequence are edited (without emptying it or archiving), then after unfocus the tree differs from the original only along the path from the root to that subsequence: all branches hanging off that path are unchanged and all levels and names are the same.", "quantifier": "all trees built by the API, all focus positions and local edits", "why_tests_cant": "All shapes and edits.", "anchors": ["src/raz.rs: RazTree::focus, Raz::unfocus", "src/tree_cursor.rs: Cursor::up"]}
{"id": "C49", "title": "All implementations of the sequence interface agree", "statement": "Through the evaluation suite's interface (new, seq_push, seq_pop, archive, clone) the zipper, the archive stacks (with and without metadata) and the plain vector answer every program of calls exactly like plain stacks, never panic, and values are independent of their clones.", "quantifier": "all programs over any number of values, all names and levels >= 1", "why_tests_cant": "All programs.", "anchors": ["eval/src/interface.rs: IFaceSeq, IFaceArchive, IFaceNew", "src/raz.rs: Raz::{push_left,pop_left,archive_left}", "src/archive_stack.rs: AStack::{push,pop,archive}"]}
{"id": "C50", "title": "The vector harness and the incremental harness stay in step", "statement": "Given the same coordinating generator, the plain vector harness (EvalVec) and the incremental harness (EvalIRaz) hold the same elements after initialisation and after every edit (append or insert).", "quantifier": "all sizes, gauges, generators and batches", "why_tests_cant": "All generators and batch sizes; the evaluation compares the two only by running time.", "anchors": ["eval/src/eval_vec.rs: EvalVec::{inc_init,append,insert}", "eval/src/eval_iraz.rs: EvalIRaz::{inc_init,append,insert}"]}
{"id": "C51", "title": "Insertion by name in the evaluation suite", "statement": "Starting from a sequence built by inc_init with at least one named archive point, the name-indexed harness never panics over any history of insertions and appends: every insertion puts the batch directly before the archive point whose name was drawn, whatever order the hash map enumerates names in, all old names stay, and all names stay distinct.", "quantifier": "all histories, generators, gauges and hash orders", "why_tests_cant": "Needs an invariant over histories; the hash order is random.", "anchors": ["eval/src/eval_raz_name_index.rs: EvalRazNameIndex::{inc_init,insert,append}", "src/raz_meta.rs: Names"]}
{"id": "C52", "title": "Computations of the incremental harness agree with the vector harness", "statement": "Maximum, map, left fold and (for associative operations) tree fold of the incremental harness return what the plain vector harness returns on the same elements; the maximum is the last greatest element even if different elements compare equal.", "quantifier": "all reachable sequences, orders and functions", "why_tests_cant": "All shapes and all orders with ties.", "anchors": ["eval/src/eval_iraz.rs: comp_max, comp_map, comp_fold, comp_fold_meta, comp_tfold", "eval/src/eval_raz_name_index.rs: comp_*", "eval/src/eval_vec.rs: comp_*"]}
{"id": "C53", "title": "The adder agrees with its reference program", "statement": "On every text of digits, plus signs and commas the step functions of the adder produce the tokens of the reference tokenizer (plus the number at the end of the text) and the results of the reference parser; any other character makes both panic; parsing preserves the sum of all numbers and panics only if it does not fit into a u32.", "quantifier": "all texts and token lists", "why_tests_cant": "All texts; the shipped test uses short numbers only.", "anchors": ["eval/examples/adder.rs: tokenize_step, tokenize_final, parse_step, reference_tokenize, reference_parse"]}
{"id": "C54", "title": "The maximum programs agree", "statement": "The incremental maximum program (fold_up_gauged over leaves) returns the last greatest element, the same as the native program on the plain vector, for every tree shape; on the empty sequence it returns None where the native program panics.", "quantifier": "all reachable sequences and total preorders", "why_tests_cant": "All shapes and orders with ties.", "anchors": ["eval/examples/max.rs", "src/raz.rs: RazTree::fold_up_gauged"]}
{"id": "C55", "title": "Names used once keep named sequences correct under the incremental engine", "statement": "If every name is given to at most one archive point or join, no name is one the library makes itself, and no sequence is cloned, then with the incremental engine's mutable store, where a named cell is overwritten when its name is used again, every call on every sequence gives the answer of the purely functional semantics; the library's own reuse of a node's name (rebuilding a node while walking, unfocusing, peeking) is never observable.", "quantifier": "all programs over any number of sequences with from_vec, join, cursors, pushes, pops, peeks, archive points and focus", "why_tests_cant": "Overwriting of shared cells over all histories and tree shapes.", "anchors": ["src/level_tree.rs: Tree::new (cell)", "src/tree_cursor.rs: Cursor::up", "src/raz.rs: Raz::unfocus, archive_left, archive_right, RazTree::join", "src/stack.rs: push_onto"]}
{"id": "C56", "title": "Memoised folds equal folds from scratch after any edits", "statement": "A client edits sequences and folds them, in any order and any number of times. Every fold (fold_up, fold_up_nl, fold_up_gauged, fold_lr, fold_lr_meta, fold_lr_archive) stores its recursive calls under names forked from the archive points' names and reuses stored calls whose arguments and articulations are unchanged. If each namespace is used with one function, every answer equals that of folding the current sequence from scratch, panics included.", "quantifier": "all sessions of edits and folds over any number of sequences, all functions, both engines (under the incremental engine: no names, or names used once and no clones)", "why_tests_cant": "Stale results depend on which of the stored calls survive which edits, over all histories, shapes and name assignments.", "anchors": ["src/level_tree.rs: Tree::fold_up_meta, fold_lr_meta", "src/raz.rs: RazTree::fold_up, fold_up_nl, fold_up_gauged, fold_lr_meta, fold_lr_archive"]}
{"id": "C57", "title": "Folds with different functions do not disturb each other", "statement": "The result of a fold depends only on the sequence and the function, also if other folds with other functions ran before. (False in one namespace: the function is not part of what memo! compares.)", "quantifier": "all sessions with several functions", "why_tests_cant": "The tests of the repository put every fold into its own namespace; the library documents no such condition.", "anchors": ["src/level_tree.rs: memo!( n1 =>> Self::fold_up_meta , t:t ;; f:node_calc.clone() )", "eval/src/actions.rs: Folder, TreeFold, FindMax (no ns), MFolder, HFolder, Mapper (ns)"]}
{"id": "C58", "title": "Folding up again costs only what changed", "statement": "The first fold in a namespace calls the function once per node. A later fold, of whatever tree in whatever store, calls it only at nodes that are not below an unchanged branch (same handles and data, below a node of the same name on the same side). In particular: once if nothing changed and the root is named; path length plus size of the new subtree if one subtree was replaced below named nodes. Trees made by programs that use each name once meet the conditions.", "quantifier": "all pairs of trees and stores with distinct names, all functions, any folds in other namespaces in between", "why_tests_cant": "A cost bound over all trees and edits.", "anchors": ["src/level_tree.rs: Tree::fold_up_meta"]}
{"id": "C59", "title": "Folding left to right again costs only what changed and what is right of it", "statement": "The same for the left fold, whose calls also depend on the value and name carried into a branch: branches to the left of the change are not visited again.", "quantifier": "all pairs of trees and stores with distinct names, all functions and start values", "why_tests_cant": "A cost bound over all trees and edits.", "anchors": ["src/level_tree.rs: Tree::fold_lr_meta"]}
{"id": "C60", "title": "Every fold of a long session costs only what changed since the last one", "statement": "A client folds a sequence in one namespace again and again, with arbitrary changes of tree and store in between and folds in other namespaces. Every fold, not only the second, is right and calls its function only at nodes that are not below a branch which the previous fold in the namespace saw unchanged, if names that have left the sequence do not come back.", "quantifier": "all sessions of any length, all trees, stores, functions; fold_up and fold_lr", "why_tests_cant": "An amortisation-free cost bound over all histories; stored calls from older folds can shadow or lack newer ones.", "anchors": ["src/level_tree.rs: Tree::fold_up_meta, fold_lr_meta"]}
{"id": "C61", "title": "Mapping again after edits gives the mapped sequence", "statement": "A client edits sequences and maps them, in any order, under the incremental engine, each mapping function in a namespace of its own. Every map reuses the calls that earlier maps have stored and overwrites the cells they made; nevertheless every mapped sequence, read in full right after the map, has exactly the elements, shape and meta data of mapping from scratch.", "quantifier": "all clients that use each name once and make no clones, or use no names; all element functions; all numbers of maps and edits", "why_tests_cant": "Staleness needs a particular history of maps, edits and overwritten cells; the claim is about all of them.", "anchors": ["src/level_tree.rs: Tree::map", "src/raz.rs: RazTree::map", "eval/src/actions.rs: CompMap"]}
{"id": "C62", "title": "Mapping again costs only what changed", "statement": "In a session of any number of maps in a namespace, with arbitrary changes of tree and store in between, every map is right and runs the mapping function only at nodes that are not below a branch which the previous map saw unchanged. No node is mapped twice in one map.", "quantifier": "all sessions of any length, all trees, stores, mapping functions", "why_tests_cant": "A cost bound over all histories; stored calls also depend on the cells that they have made.", "anchors": ["src/level_tree.rs: Tree::map"]}
{"id": "C63", "title": "Map returns a new sequence and changes no other", "statement": "Mapping a sequence to elements of the same type, in the namespace in which it was built, yields the mapped sequence and leaves every other variable, clones of the mapped sequence included, as it was, with either engine.", "quantifier": "all programs of edits, clones and maps", "why_tests_cant": "Depends on which names are in use anywhere in the program and on aliasing through clones.", "anchors": ["src/level_tree.rs: Tree::map, Tree::new", "src/raz.rs: RazTree::map"]}
{"id": "C64", "title": "memo_from takes a stack by reference and leaves it usable", "statement": "Programs that fill archive stacks, clone them, convert them to sequences with memo_from (AtTail or AtHead) and edit sequences give the same answers over the shared store, with either engine, as with values; on plain lists AtTail keeps the order of the pushes and AtHead reverses it. In particular a stack can be filled further and converted again after a conversion.", "quantifier": "all programs with any number of stacks, sequences, clones and conversions, all levels and names", "why_tests_cant": "Depends on which named cells of the stack the tree nodes replace, and on every later use of the stack.", "anchors": ["src/raz.rs: MemoFrom for RazTree", "src/memo.rs", "src/level_tree.rs: Tree::new", "src/stack.rs: push_onto"]}
{"id": "C65", "title": "Gathering elements in a skip list", "statement": "Folding a sequence into a skip list, archived at every named archive point, does not panic and yields a skip list that finds exactly the elements of the sequence, whatever is in the store already and for every hash function and path length from 1 to 63; the hash map version yields the same set.", "quantifier": "all sequences, stores, hash functions, path lengths, both engines (distinct names under the incremental one)", "why_tests_cant": "Colliding hashes, arbitrary earlier content of the store and arbitrary placement of archive points.", "anchors": ["eval/examples/unique_elms.rs", "src/skiplist.rs: put, archive", "src/level_tree.rs: fold_lr_archive"]}
{"id": "C66", "title": "Copying a sequence into a list", "statement": "Folding a sequence into any of the list types, archived at every archive point, does not panic, and popping the copy gives the elements of the sequence from the last to the first and then nothing, whatever is in the store already.", "quantifier": "all sequences, stores, list types, both engines (distinct names under the incremental one), any number of pops", "why_tests_cant": "Arbitrary archive points make arbitrary chains of cells in a store with arbitrary earlier content.", "anchors": ["eval/examples/tree_to_list.rs", "eval/src/accum_lists.rs", "eval/src/interface.rs"]}
{"id": "C67", "title": "Whole sessions of the test driver", "statement": "A session of the driver (create, compute, then any number of batch edits each followed by a computation) does not panic, and each computation sees exactly the sequence that the edits so far make on a plain list, with distinct names; hence all answers of unique_elms, tree_to_list, crossover and to_string are right. With appends the incremental sequence and the vector give the same answers; insertions into an empty initial sequence panic.", "quantifier": "all sizes, gauges of at least 1, batch sizes, numbers of changes, random streams, within the number types", "why_tests_cant": "Unbounded sessions over all random streams with a shared store between the computations.", "anchors": ["eval/src/test_seq.rs", "eval/src/actions.rs", "eval/examples/crossover.rs", "eval/examples/to_string.rs"]}
{"id": "C68", "title": "Versions in namespaces", "statement": "Editing a clone of a sequence within a namespace does not affect the original: all answers of a program that goes on with the original are those of separate values, though both use the same names. More generally, a program gives the answers of separate values if it never uses a sequence after one of its cells may have been replaced through another. Without the namespace this is false, and editing the original may change the version.", "quantifier": "all programs of API calls, clones and joins, each statement in any (nested) namespace, both engines", "why_tests_cant": "Unbounded programs and nestings over a shared store; overwriting shows only in later reads of another variable.", "anchors": ["src/lib.rs", "src/level_tree.rs", "src/stack.rs", "src/raz.rs", "eval/src/actions.rs"]}
{"id": "C69", "title": "map and memo_from in a namespace of their own", "statement": "If sequences and archive stacks are edited in some namespaces and mapped or converted in others, as the harness does, then the argument of a map or conversion is unchanged by it: it can be edited further and mapped or converted again, in the same namespace each time, and the result can be read and edited. All answers are those of separate values and of plain lists, and nothing panics. In the namespace of the argument this is false.", "quantifier": "all clients, i.e. sequences of API calls, stack operations, maps and conversions, each in any (nested) namespace, all mapping functions, both engines", "why_tests_cant": "Unbounded sessions over a shared store; a map that overwrites its argument shows only in later reads.", "anchors": ["eval/src/actions.rs", "src/raz.rs", "src/level_tree.rs", "src/archive_stack.rs", "src/memo.rs"]}
{"id": "C70", "title": "Memoised memo_from after changes", "statement": "memo_from is memoised per archive point. In a namespace in which stacks were converted before, converting any stack, for example an earlier one with more archive points, gives exactly the tree that converting from scratch gives, or its panic, although stored calls and the nodes they made are reused. Clients that fill stacks, convert them and go on using them, in any order, get the trees of converting from scratch, with the elements pushed so far. Converting an unchanged stack again runs no body and makes nothing.", "quantifier": "all histories of conversions of any stacks from any stores from both ends in one namespace; all client programs; all metadata types", "why_tests_cant": "Wrong reuse shows only for particular combinations of earlier conversions, levels and names; the claim is about all histories.", "anchors": ["src/raz.rs", "src/memo.rs", "src/archive_stack.rs", "src/level_tree.rs"]}
{"id": "C71", "title": "Work of memo_from after pushing more", "statement": "When a stack is converted again after archive points were added or removed at its top, the bodies run are at most one for each new archive point and one for each old one with no larger level above it among the old ones (for AtHead also no equal one). So for AtHead, with levels below B, at most B old bodies are run, however long the stack is; for AtTail, if the first old point has the greatest level, only those with the same level. Never more than one body per archive point is run.", "quantifier": "all histories of conversions from one end in one namespace whose stacks stay in the store and whose names do not come back after going away; all stacks with a common lower part, all levels, elements and metadata types", "why_tests_cant": "A bound on the work for all stacks and histories; a test shows it for some stacks, and an implementation that reruns too much still gives correct results.", "anchors": ["src/raz.rs", "src/memo.rs", "src/archive_stack.rs"]}
{"id": "C72", "title": "Equality and hashing agree", "statement": "For sequences, cursors, stacks and their metadata, == is an equivalence and equal values write the same to every hasher; with exact metadata equal values are the same. Tries keep the contract of Eq and Hash too, and tries that are equal have the same values for all keys.", "quantifier": "all trees, cursors, stacks, tries; all element, metadata, key and value types; all hashers", "why_tests_cant": "The contract is about all pairs of values; a violation by a hash collision has no chance to be hit by testing.", "anchors": ["src/raz.rs", "src/raz_meta.rs", "src/level_tree.rs", "src/tree_cursor.rs", "src/archive_stack.rs", "src/stack.rs", "src/trie.rs", "eval/src/types.rs"]}
{"id": "C73", "title": "Memoised reverse and filter after edits", "statement": "The reverse and filter programs fold a sequence bottom-up with functions that build a new sequence out of those for the branches, memoised per branch. In a namespace in which the program ran over any sequences before, running it again gives the sequence, with its metadata, that the program gives from scratch, or its panic. Clients that edit sequences, reverse and filter them in any order read the reversed and filtered lists. After replacing one subtree the functions run only at the nodes above it and in it, and never more than once per node.", "quantifier": "all histories of runs over any sequences from any stores; all client programs in which each namespace is used with one program; all predicates, element and metadata types; for the work bound, histories in which names do not come back after leaving the sequence", "why_tests_cant": "Wrong reuse of a stored branch shows only for particular edits between runs; the claim is about all histories, and the work bound is about all trees.", "anchors": ["eval/examples/reverse.rs", "eval/examples/filter.rs", "src/raz.rs", "src/level_tree.rs", "eval/src/eval_iraz.rs"]}
{"id": "C74", "title": "Memoised left fold into a list after edits", "statement": "to_list folds a sequence from the left into an archive stack, threading the stack through calls that are memoised per branch. In a namespace in which it ran over any sequences before, running it again gives a stack that is, link by link with names and levels, the one made from scratch. Clients that edit sequences and make lists of them in any order read the elements of plain lists. If all archive points are named, then after replacing one subtree only the nodes above it and in it are visited, wherever it is: what comes after it is not, although the accumulator passes through the change. No node is visited twice.", "quantifier": "all histories of runs over any sequences from any stores; all client programs and namespaces; all element and metadata types; for the work bound, chunked trees with named nodes and histories in which names do not come back after leaving the sequence", "why_tests_cant": "Wrong reuse of a stored call (for example one that has a link to a list cell with other contents) shows only for particular edits between runs; the claim is about all histories, and the work bound is about all trees.", "anchors": ["eval/examples/tree_to_list.rs", "src/level_tree.rs", "src/raz.rs", "src/archive_stack.rs", "eval/src/actions.rs"]}
{"id": "C75", "title": "Memoised adder after edits", "statement": "The adder folds a text into a stack of tokens, converts the stack into a sequence and folds that into a stack of sums, every stage memoised in its own namespace. After any number of runs on any texts, running it again gives a stack that is, link by link, that of running from scratch, or the panic of running from scratch. Clients that edit texts and add in any order get the sums that the non-incremental program gives on plain lists of characters. The folds visit no node twice.", "quantifier": "all histories of runs over any texts from any stores, all client programs and namespaces, all archive points (also within numbers), all characters (including those that make it panic)", "why_tests_cant": "Stale results show only for particular edits between runs, through three stages; the claim is about all histories.", "anchors": ["eval/examples/adder.rs", "eval/src/actions.rs", "src/level_tree.rs", "src/raz.rs", "src/archive_stack.rs", "eval/src/eval_iraz.rs"]}
{"id": "C76", "title": "Whole sessions of the test driver with the incremental engine", "statement": "A session of the test driver, run with the incremental engine: the harness builds the sequence cell by cell in a store, then batch edits (which focus, push, archive and unfocus through the store) and computations take turns on the same store and the same table of stored calls. The answers of all computations, read in full, the state of the random generator at the end, and a panic wherever it happens, are those of the same session on values with every answer computed from scratch. Within the number types it does not panic and each answer is the one for the sequence that the edits so far make on a plain list.", "quantifier": "all sizes, gauges, batch sizes, numbers of changes, element generators and random streams (also outside of the number types, where both panic), insertions and appends, positions and names as index, any order of enumeration of hash maps; the computations fold_up (any functions), map (any function), reverse, filter (any predicate), to_list, adder", "why_tests_cant": "The harness itself is what the tests and benchmarks run; a stale or overwritten cell would only show for particular combinations of levels, gauges and edits after some number of changes. The claim covers all sessions.", "anchors": ["eval/src/test_seq.rs", "eval/src/eval_iraz.rs", "eval/src/eval_raz_name_index.rs", "eval/src/actions.rs", "src/raz.rs", "src/level_tree.rs"]}
{"id": "C77", "title": "Levels are distributed like the heights in a balanced binary tree", "statement": "For every height k from 1 to 63 exactly as many 64-bit random numbers give the branch level k as the perfect binary tree of height 64 has nodes of height k; two numbers give level 64 and none any other level. NegBin generates the same levels (the cast to u8 loses nothing), l_inc and l_dec are the next greater and next lesser level and fail only at l_max and l_min, and every generated level lies strictly above l_min and has both neighbours.", "quantifier": "all 2^64 random numbers, all levels, integer types of any width", "why_tests_cant": "A count over 2^64 random numbers; sampling only estimates the distribution.", "anchors": ["src/level_tree.rs: gen_branch_level", "src/trees.rs: Level, NegBin", "src/lib.rs: inc_level"]}
{"id": "C78", "title": "The example tree is the one drawn in its documentation", "statement": "For every element type and conversion, iraztree_depth_4 returns without panic a tree with the shape, levels, names and elements of the drawing in its documentation.", "quantifier": "all element types and conversions A::from", "why_tests_cant": "Any element type; and no test compares the tree with the drawing.", "anchors": ["eval/src/examples.rs: iraztree_depth_4"]}
{"id": "C79", "title": "Work of folds between edits", "statement": "A program makes a sequence with named archive points, folds it with memoisation, and then any number of times focuses somewhere, pushes, pops and archives next to that place, unfocuses and folds again. Every fold gives the result of a fold from scratch. The first one runs the function at most once per node. Each later one runs it at most 2*(d+k)+1 times, where d is the depth of the tree before the edit and k the number of archive points that the edit adds: the rest of the sequence does not count, however long it is. With unnamed archive points the bound is multiplied by the size of the largest group of connected unnamed nodes.", "quantifier": "all sequences of local edits (that do not pop an archive point of the tree and leave something at their place) at any positions, all functions, element and metadata types, levels, names used once, any store to start from", "why_tests_cant": "The number of runs of the function depends on which nodes unfocus makes again and which cells it writes, over whole histories of edits; the claim bounds it for all histories, and a test can only measure times of some.", "anchors": ["src/raz.rs: focus, unfocus, push_left, pop_left, archive_left, fold_up", "src/tree_cursor.rs: up, join", "src/level_tree.rs: fold_up_meta"]}
{"id": "C80", "title": "Work of memoised folds, maps, reverse and filter between batches of edits", "statement": "A program makes a sequence, runs a memoised computation over it (fold_up with any functions, map, or the reverse and filter programs), and then any number of times makes a batch of local edits and runs the computation again. Every run gives what running from scratch gives; for map, reverse and filter this is a whole sequence with its metadata. The first run calls the function at most once per node. After a batch it is called at most 2*k+1 times, where k is the sum, over the edits of the batch, of the depth of the tree before the edit and the number of archive points that the edit adds. With unnamed archive points the bound is multiplied by the size of the largest group of connected unnamed nodes.", "quantifier": "all sequences of batches of local edits, of any lengths, at any positions, all functions and predicates, element and metadata types, levels, names used once, any store to start from", "why_tests_cant": "The edits of a batch overlap in any way, and each computation stores calls and cells of its own; the claim bounds the work for all histories, where tests compare results and times of some.", "anchors": ["src/raz.rs: focus, unfocus, push_left, pop_left, archive_left, fold_up, fold_up_gauged, map", "src/level_tree.rs: fold_up_meta, map", "eval/examples/reverse.rs: main", "eval/examples/filter.rs: main"]}
{"id": "C81", "title": "Work of memoised computations in sessions of the test driver", "statement": "The benchmark harness builds a sequence of at least one element and runs a memoised computation (fold_up with any functions, map, or the reverse and filter programs); then it in turn inserts or appends a batch of random elements at a random place and runs the computation again. Every answer is the one from scratch. The first run calls the function at most once per node. After an edit it is called at most 2*(d + b/(n*g) + 1) + 1 times, with d the depth of the tree before the edit, b the batch size, n the name gauge and g the data gauge, multiplied by the size of the largest group of connected unnamed nodes. With name gauge 1 that group has at most one node. So the work after an edit grows with the depth of the tree and the size of the batch, not with the length of the sequence. Within the number types no such session panics.", "quantifier": "all sizes from 1, gauges, batch sizes from 1, numbers of changes, element and position generators, random streams, enumeration orders of the hash map, functions and predicates; with positions and with names as places", "why_tests_cant": "The benchmarks print times of some parameters and seeds. The claim bounds the number of calls for all of them, over the whole history of a session.", "anchors": ["eval/src/test_seq.rs: EditComputeSequence::test", "eval/src/eval_iraz.rs: inc_init, insert, append", "eval/src/eval_raz_name_index.rs: inc_init, insert, append", "src/raz.rs: focus, unfocus, push_left, archive_left, fold_up, fold_up_gauged, map"]}
{"id": "C82", "title": "Work of the memoised to_list after edits", "statement": "tree_to_list is a left-to-right memoised fold: every call takes the list made so far, so an edit near the front changes what all later calls are given. Still the work is small when all archive points have names, because the list made up to a name is held by a handle that depends on that name only. In sessions of batches of local edits with to_list after each batch, every list, read in full, is the one from scratch; the first run visits each node at most once; and after a batch at most 4*k+1 nodes are visited, with k the sum of the depths before each edit plus the number of archive points added. In sessions of the benchmark harness with a name for every archive point at most 2*(2*d + b/g + 1) + 1 nodes are visited after an edit, with d the depth of the tree before the edit, b the batch size and g the data gauge. Within the number types no such session panics, and the lists hold the elements that the edits make on a plain list.", "quantifier": "all sessions of local edits with distinct names other than \"start\"; all sizes from 1, gauges, batch sizes from 1, numbers of changes, generators, random streams and enumeration orders of the hash map, with positions and with names as places", "why_tests_cant": "The benchmark prints times for some parameters. That a carried accumulator does not make all calls after an edit run again is a claim on the whole history of stored calls, for all sequences and edits.", "anchors": ["src/raz.rs: fold_lr_meta, focus, unfocus, push_left, archive_left", "src/level_tree.rs: fold_lr_meta", "src/archive_stack.rs: push, archive", "eval/examples/tree_to_list.rs: to_list_step, to_list_meta", "eval/src/test_seq.rs: EditComputeSequence::test"]}
{"id": "C83", "title": "Work of memoised computations between any edits", "statement": "As C80, without the condition that edits are local: the edits of a batch may pop across archive points that are in the tree, on both sides and any number of times, and may leave nothing next to the cursor, so that unfocus takes a whole neighbouring tree as its center. Each run of a memoised fold_up, map, reverse or filter gives what running from scratch gives. After a batch, with named archive points, the function is called at most 2*k+1 times, where k is the sum over the edits of (1 + c) * d + a: d the depth of the tree before the edit, a the number of named archive points added, and c the number of pops that cross an archive point of the tree, plus one if the edit leaves nothing next to the cursor. For local edits c is 0. No edit may leave the sequence empty.", "quantifier": "all sequences of batches of edits (push, pop and archive on both sides in any order), of any lengths, at any positions, that leave the sequence nonempty; all functions and predicates, element and metadata types, levels from 1, names used once, any store to start from", "why_tests_cant": "Removing a stretch of a sequence takes apart the nodes on the way; the claim bounds the nodes that lose their stored results for all trees, positions and calls, where tests compare results and times of some.", "anchors": ["src/raz.rs: focus, unfocus, pop_left, pop_right, push_left, archive_left, fold_up, map", "src/tree_cursor.rs: up, down_left_force, down_right_force, join", "eval/examples/reverse.rs: main", "eval/examples/filter.rs: main"]}
{"id": "C84", "title": "Mean work of memoised computations over all random levels", "statement": "C80 bounds the work after local edits by depths of trees; this bounds it without reference to trees. Each archive point gets its level from its own random 64-bit number, as gen_branch_level makes it. Focusing at an index passes exactly the archive points between which and the cursor there is no higher one (on the right: none as high). Over all random numbers, for any sequence with m archive points and any index, focus passes at most 2*(log2 m + 1) archive points in the mean, with the logarithm rounded up. In sessions of batches of local edits given in advance, with named archive points, each memoised fold_up, map, reverse or filter gives the fold, mapped, reversed or filtered list of the current elements whatever the random numbers, and after a batch calls its function at most 2*k+1 times in the mean, where k is the sum over the edits of 2*(log2 m + 1) + a: m the number of archive points before the edit and a the number added. Nothing panics.", "quantifier": "all sequences and batches of local edits, of any lengths, with up to 2^63 archive points; the mean is the exact sum over all (2^64)^n assignments of random numbers to the n archive points, divided by their number; all associative operations, functions and predicates, names used once, any store to start from", "why_tests_cant": "A mean over (2^64)^n random assignments cannot be tested; a benchmark samples some. The claim is that no sequence of edits fixed in advance is bad in the mean, which is what makes the structure incremental.", "anchors": ["src/level_tree.rs: gen_branch_level", "src/raz.rs: focus, unfocus, push_left, archive_left, fold_up, map", "src/tree_cursor.rs: down_left_force, down_right_force", "eval/examples/reverse.rs: main", "eval/examples/filter.rs: main"]}
{"id": "C85", "title": "Sessions of the test driver for building", "statement": "The driver for building runs rounds of growing sizes: each builds a sequence of that size with IncrementalInit from the same initial state, which counts names from 0 again, and then edits it once with a batch insert; the sequence is then dropped. Over the mutable store of the incremental engine, whatever it holds from earlier rounds, every round gives the same sequences, random state and panics as on values: stale cells and reused names do no harm, with indices by count or by name. If all sizes are positive and fit, no round panics, the sequence built has the first n elements of the coordinate generator, and after the edit the elements that the insert of a batch describes; the vector harness agrees. A size of 0, as a multiplier below 1 gives, panics in the edit of that round for sequences and vectors. That the sequence is dropped is essential: one that is kept changes when the next is built.", "quantifier": "all lists of sizes, gauges, batch sizes, coordinate generators, random states and stores to start from, both engines; sizes n with n + batch + 1 below the maximum of usize for the absence of panics", "why_tests_cant": "The driver is itself a test and never looks at the sequences; reuse of names across rounds matters only for what the store holds, and that the results agree for all stores is not observable by timing.", "anchors": ["eval/src/test_build.rs: test", "eval/examples/build_seq.rs: main", "eval/src/actions.rs: IncrementalInit::create, BatchInsert::edit", "eval/src/eval_iraz.rs: inc_init, insert", "eval/src/eval_raz_name_index.rs: insert", "eval/src/eval_vec.rs: inc_init, insert"]}
{"id": "C86", "title": "Lists, heads and iterators in one program", "statement": "A program that makes stacks and heads of lists (new, push, pull, and the conversions between the two), looks at them (peek, name, is_empty) and goes through them with iterators (iter, next, name), in any order and with any number of iterators in progress, gives what it gives on plain lists, over the mutable store of the incremental engine, if no name is given to two cells; with the functional engine always. In particular an iterator gives the elements of the list it was made from, in order, whatever is pushed onto that list or others meanwhile, and then nothing for ever, and no call panics. If a list is pushed onto with the name of its own head it contains itself: its iterators never end.", "quantifier": "all programs of calls over any number of stacks, heads and iterators, all elements and names, any store to start from in which the names are not in use", "why_tests_cant": "The two tests of the module use one list each, with names used once. That no interleaving of iterators with pushes changes what an iterator gives is a claim on all programs.", "anchors": ["src/stack.rs: Stack, Head, Iter, push_onto, next"]}
{"id": "C87", "title": "Mean work of memoised computations in sessions of the test driver", "statement": "C81 bounds the work of a session of the benchmark harness by the depths of its trees, which depend on the random levels; this gives the mean. In a session with name gauge 1 that builds a sequence of size s with data gauge g and then c times inserts (at a random place) or appends b elements and runs a memoised fold_up, map, reverse or filter, whatever the random numbers for the levels: nothing panics, exactly s/g + c*(b/g + 1) of them are taken, and the answers are those for the lists the edits make. After the edit with index j, the function is called in the mean over all random numbers at most 2*(2*(log2 m + 1) + b/g + 1) + 1 times, with m = s/g + j*(b/g + 1) and the logarithm rounded up. So the mean work after an edit is logarithmic in the length of the sequence.", "quantifier": "all sizes and batch sizes from 1, data gauges, numbers of changes, element and position generators, within the number types and up to 2^63 random numbers; the mean is the exact sum over all assignments of 64-bit numbers to the draws; all associative operations, functions and predicates", "why_tests_cant": "The benchmark prints times for some seeds. The claim is on the mean over all (2^64)^n streams of random numbers, for all parameters.", "anchors": ["eval/src/test_seq.rs: EditComputeSequence::test", "eval/src/eval_iraz.rs: inc_init, insert, append", "src/level_tree.rs: gen_branch_level", "src/raz.rs: focus, unfocus, push_left, archive_left, fold_up, map"]}
{"id": "C88", "title": "Mean depth of the tree over all random levels", "statement": "The tree of a sequence is balanced in the mean, whatever the history of edits and whatever place is visited. The depth of the tree depends only on the list of levels of the archive points (not on the order of the edits): it is the maximum over all places of the number of archive points seen from there. When each archive point got its level from its own uniform 64-bit number, then after any history of edits (also across archive points) the mean over all random numbers of the depth of the tree is at most 6*log2(m+2) + 1/2, with m the number of archive points and the logarithm rounded up, and at most the fraction (2/3)^j / 4 of all random numbers make it deeper than that by j or more. In particular the way of focus is logarithmic in the mean also for a place that is chosen after the levels are known.", "quantifier": "all histories of edits of a sequence with up to 2^63 archive points, all lists, all places (also chosen depending on the random numbers); means are exact sums over all assignments of 64-bit numbers", "why_tests_cant": "A test draws some levels. The claim counts all (2^64)^n assignments, and all histories of edits.", "anchors": ["src/level_tree.rs: gen_branch_level", "src/trees.rs: NegBin, \"appropriate for a balanced binary tree\"", "src/raz.rs: focus, unfocus, archive_left, archive_right"]}
{"id": "C89", "title": "Mean work of memoised computations between any edits", "statement": "C84 bounds the mean work for edits that stay between two archive points; this is for all edits. A sequence is made, and then come batches of edits at any places, with calls that may pop across archive points, as long as the sequence is never left empty; all archive points are named and get their level from their own random number. Whatever the random numbers, the session with a memoised fold_up, map, reverse or filter after each batch does not panic and the answers are those of the lists. After each batch, the function is called in the mean over all random numbers at most 2*k + 1 times, where k is from the lists alone: for each edit 6*log2(m+2) + 1 (m archive points before, logarithm rounded up), once for the edit and once for each archive point it crosses, and the number of archive points it adds.", "quantifier": "all sequences of named calls, all batches of edits that leave the sequence non-empty, up to 2^63 archive points, all stores, all associative operations, functions and predicates; the mean is the exact sum over all assignments of 64-bit numbers", "why_tests_cant": "A benchmark measures some seeds and some edits. The claim is on the mean over all (2^64)^n levels, for all edits.", "anchors": ["src/level_tree.rs: gen_branch_level", "src/raz.rs: focus, unfocus, push_left, archive_left, fold_up, map", "src/tree_cursor.rs: down_left_force, down_right_force", "eval/examples/reverse.rs: main", "eval/examples/filter.rs: main", "src/raz.rs: pop_left, pop_right"]}
{"id": "C90", "title": "Moves of cursors in navigation and edits", "statement": "The README promises efficient global navigation. Count every call of up, down_left and down_right of a tree cursor, also those that fail. Counting changes nothing. focus moves once for each branch between the root and the place and at most once more, and never more than the depth of the tree plus one (also when there is no such place); focus_left likewise. An edit (focus, pushes, pops and archives, unfocus) moves at least 2*p and at most 2*p + 4*d*x + q + 8*a + 9 times, where p is the number of branches between the root and the place, d the depth of the tree, x the number of times the calls cross an archive point of the tree, q the number of pops and a the number of new archive points: so rebuilding the tree in unfocus costs no more than walking the path back up, and an edit between two archive points does not depend on the depth of the rest of the tree. Making a sequence moves at most q + 8*a + 8 times, so it is linear, whatever the levels. When each archive point gets its level from its own random number, the moves of a whole session, in the mean over all random numbers, are at most those for making the sequence and for each edit 4*log2(m) + 4, for each crossing 24*log2(m+2) + 4, q, 8*a and 9, with m the number of archive points at that time and logarithms rounded up.", "quantifier": "all trees made and edited with these calls, all metadata that is lawful (for the mean: Count), all indices, all lists of calls with levels from 1; for the mean all sessions with up to 2^63 archive points and the exact sum over all assignments of 64-bit numbers", "why_tests_cant": "Tests look at results, not at moves, and a benchmark measures some sequences and seeds. The bound is for every edit, and its mean over all (2^64)^n levels.", "anchors": ["README.md:15", "src/raz.rs: focus, focus_left, unfocus, pop_left, pop_right", "src/tree_cursor.rs: join, up, down_left_force, down_right_force", "src/level_tree.rs: gen_branch_level"]}
{"id": "C91", "title": "Cells forced by searches in the skip list", "statement": "Count every force_map of the skip list. Counting changes nothing. A call of get, put, rem or ext forces exactly the cells of those earlier updates of its handle (with the updates before the handle was cloned) whose keys share more of the path bits with the key than the keys of all later updates; no other call forces a cell. So a search forces at most path_len + 1 cells, and at most one for each different key updated since the last update of the key sought, plus one for that update. In the mean over all functions from the keys to 64-bit hashes a search for a key that was updated before forces at most log2(m) + 2 cells, with m the number of different keys updated since, and a search for any other key at most log2(m) + 1, with logarithms rounded up.", "quantifier": "all histories of allowed calls on any number of handles (with clones and archives), both engines, all path lengths from 1 to 63, all hash functions; for the mean all finite types of keys and the exact sum over all functions to 64-bit numbers", "why_tests_cant": "Tests compare answers of a few calls and cannot see which cells are forced. The source says that the performance needs improvement; no run of a benchmark gives the exact number of cells for each history and each hash function, nor the mean over all (2^64)^n of them.", "anchors": ["src/skiplist.rs: build_path_step, build_path_rec, ext, get, archive", "src/lib.rs:39"]}
{"id": "C92", "title": "From-scratch consistency of memoised functions that write named cells", "statement": "Take any function whose body reads cells from outside, reads cells of its namespace through functions (force_map), writes cells with names, panics, and calls itself plainly or through memo! with a name. However often it ran before in the namespace, with any arguments and over any stores, and with the cells of the namespace changed in any way between the runs: a run with stored calls has the result, or panic, of the run without stored calls, and leaves every cell of the namespace as that run leaves it. A run that ends without stored calls ends with them, and its calls are nested no deeper.", "quantifier": "all bodies, all observing functions, all histories of runs and disturbances, all stores, arguments and depths", "why_tests_cant": "A stale stored call shows only when a later run finds the same name with the same argument while something it has seen or written differs; tests try a few edits of a few programs. No test can range over bodies and over every state that the cells can be left in.", "anchors": ["src/level_tree.rs: fold_lr_meta (memo!)", "src/skiplist.rs: build_path_rec (force_map), ext (cell)", "src/raz.rs: fold_lr_archive"]}
{"id": "C93", "title": "Memoised unique_elms finds the elements after every edit", "statement": "The computation of the unique_elms example, a memoised fold_lr_archive that puts the elements of a sequence in a skip list: in a namespace in which it ran before in any way, and whatever happened to the cells of the skip lists since, it does not panic and gives a skip list that finds exactly the elements of the sequence, if the names of the archive points differ from each other, from unit and from \"start\". For clients that edit sequences and gather their elements in any order, and for the sessions of the test driver with batch insertions and appends by position or by name, every skip list finds exactly the elements that a plain list edited in the same way has.", "quantifier": "all histories of the namespace, sequences, hash functions, path lengths from 1 to 63, client programs, session parameters in range and random streams", "why_tests_cant": "Stored calls depend on which links the searches have seen in cells that later runs overwrite under the same names; whether a wrong one is reused depends on the hash function, the edits and the random levels. Tests sample a few.", "anchors": ["eval/examples/unique_elms.rs:97-104", "src/raz.rs: fold_lr_archive", "src/skiplist.rs: put, get, archive", "eval/src/eval_iraz.rs: comp_fold_archive", "eval/src/test_seq.rs"]}
{"id": "C94", "title": "A memoised run evaluates exactly the calls that are new", "statement": "Take any function whose body reads cells from outside, reads cells of its namespace through functions (force_map), writes cells with names, and calls itself plainly or through memo! with a name. It runs again and again in one namespace, over any stores and with any arguments; within each run the names of the calls and of the cells differ, and names of calls that a run no longer uses do not come back later. Write down all calls that a run would make without stored calls: name, arguments, what is read, what the observing functions show, what is written, result, and the calls below. Then the next run with stored calls evaluates the function once for itself and once for each call that the last run did not make in just the same way and that is not below a call which it made in just the same way: no fewer and no more. If nothing differs, nothing but the function itself is evaluated.", "quantifier": "all bodies, observing functions, histories of runs, stores and arguments", "why_tests_cant": "Reuse is lost or gained at single calls deep in a run, when a cell was overwritten under its name or an observed link moved; the results stay right, so tests of results do not see it, and timing tests do not tell which calls were evaluated. The claim ranges over all programs and edits.", "anchors": ["src/level_tree.rs: fold_lr_meta (memo!)", "src/skiplist.rs: build_path_rec (force_map), ext (cell)", "src/raz.rs: fold_lr_archive"]}
{"id": "C95", "title": "The work of unique_elms after an edit: new nodes, and the way to each leaf that an update can tell from before", "statement": "unique_elms runs again and again over trees (distinct names, no empty leaf, names that went away do not come back), each time with the stored calls of the earlier runs, with any hash function. The first run visits each node once, a run over the same tree visits the root only. After an edit, exactly the calls are evaluated that are new: the branch is new in the store, or the handle of the skip list before it differs, or one of its searches is shown something else. This is at most the number of new nodes (as for to_list), plus the depth for each leaf whose updates depend on other earlier updates than before. If leaves A are replaced by leaves B, these are at most B, the next leaf, and those later leaves that have an element which shares, with an element of A, B or the next leaf, at least as many hash bits as every element in between.", "quantifier": "all element types, hash functions, path lengths from 1 to 63, histories, stores and trees", "why_tests_cant": "The result is the same set whether calls are reused or not. How far an edit is seen depends on the hash bits of all elements after it; a test with one hash function and one sequence says nothing about others.", "anchors": ["eval/examples/unique_elms.rs:97-104", "src/raz.rs: fold_lr_archive", "src/skiplist.rs: build_path_rec, ext, archive", "src/level_tree.rs: fold_lr_meta (memo!)"]}
{"id": "C96", "title": "After a local edit unique_elms redoes logarithmically many leaves in the mean over all hash functions", "statement": "unique_elms runs over trees with stored calls, as in C95; an edit replaces the leaves A by the leaves B and leaves the others as they are. Let l be the next leaf, z the number of elements of A, B and l, m the number of different elements after l, and r the most often that one of them occurs there. In the mean over all functions from the elements to 64-bit hashes, at most |B| + 1 + z * r * (log2 m + 2 + m / 2^L) leaves have updates that depend on something else than before, and the run evaluates at most the new nodes (as many as to_list would visit) plus the depth of the tree times that number.", "quantifier": "all finite element types, path lengths L from 1 to 63, histories, stores, trees and local edits; mean over all hash functions", "why_tests_cant": "A mean over all hash functions cannot be measured; a hash function that happens to do badly for one sequence, or well for another, says nothing. The result of the computation does not show how much was redone.", "anchors": ["eval/examples/unique_elms.rs:97-104", "src/raz.rs: fold_lr_archive", "src/skiplist.rs: build_path_rec, ext", "src/level_tree.rs: fold_lr_meta (memo!)"]}
{"id": "C97", "title": "unique_elms between batches of edits: mean work over all hash functions, in sessions and in the driver", "statement": "A sequence is made, unique_elms runs over it with stored calls, and then in turn come batches of local edits at any places and unique_elms again. All archive points have different names. Every skip list that comes out finds exactly the elements of the sequence at that time. Let k be the sum of the depths before the edits of a batch and of the number of archive points added, d the depth of the tree after it, g the length of the longest leaf, r the most often that an element occurs, m the number of different elements. The first run visits each node once, for every hash function. After each batch, in the mean over all functions from the elements to 64-bit hashes, at most (4k + 1) + d * (2k + 1) * (1 + 2 * g * r * (log2 m + 2 + m / 2^L)) nodes are visited. The same holds for the sessions of the driver (eval/examples/unique_elms.rs) with positions or names as places, where k is the depth plus batch / datagauge + 1; within the number types these do not panic.", "quantifier": "all finite element types, path lengths L from 1 to 63, sequences, batches of edits, stores, parameters, generators and random streams; mean over all hash functions", "why_tests_cant": "A mean over all hash functions cannot be measured, and one run says nothing about others. Edits at many places interact: a leaf after two edits can see both.", "anchors": ["eval/examples/unique_elms.rs:97-104", "src/raz.rs: fold_lr_archive, unfocus", "src/skiplist.rs: build_path_rec, ext", "eval/src/test_seq.rs: EditComputeSequence::test", "eval/src/eval_iraz.rs"]}
{"id": "C98", "title": "unique_elms and to_list between batches of edits: mean work over all random levels and all hash functions is polylogarithmic", "statement": "A sequence is made, unique_elms runs over it with stored calls, and then in turn come batches of local edits at any places and unique_elms again. Each archive point gets its level from gen_branch_level with its own random number. For all random numbers and all hash functions the session does not panic, every skip list finds exactly the elements of the plain list, and the first run visits 2m + 1 nodes for m archive points. After a batch of e edits that adds p archive points, the mean number of visited nodes over all random numbers and all functions from the elements to 64-bit hashes is at most 4 (e s + p) + 1 + (2 e s^2 + (2p + 1) s) (1 + 2 g r (log2 d + 2 + d / 2^L)), where s = 6 log2 (m + 2) + 2 for the greatest number m of archive points, g is the longest run between archive points, r the most often that an element occurs and d the number of different elements: all from the lists alone. For to_list the mean over all random numbers is at most 4 (e s + p) + 1.", "quantifier": "all finite element types, path lengths L from 1 to 63, sequences, batches of local edits and stores; mean over all 64-bit random numbers and all hash functions", "why_tests_cant": "The work depends on depths, which in the worst case are linear, and on which paths of the skip list coincide. Only the mean over all random numbers and hash functions together is small, and this mean of a product cannot be sampled.", "anchors": ["eval/examples/unique_elms.rs:97-104", "eval/examples/tree_to_list.rs", "src/level_tree.rs: gen_branch_level", "src/raz.rs: fold_lr_archive, focus, unfocus", "src/skiplist.rs: build_path_rec, ext"]}
{"id": "C99", "title": "unique_elms and to_list in sessions of the test driver: mean work over all random numbers and all hash functions, from the parameters alone", "statement": "The test driver (namegauge 1) makes a sequence of size elements with an archive point after every datagauge elements, and then in turn changes it by a batch of elements, inserted at a drawn place or appended, and runs unique_elms with stored calls. For all random numbers and all hash functions the session does not panic, takes exactly size / datagauge + changes (batch / datagauge + 1) random numbers, and every skip list finds exactly the elements of the plain list. The first run visits at most 2 (size / datagauge) + 1 nodes. No leaf of the tree after i edits has more than datagauge + i min(datagauge, batch) elements. Let b = batch / datagauge + 1, s = 6 log2 (size / datagauge + (j + 1) b + 2) + 2, d = size + (j + 1) batch, g = datagauge + (j + 1) min(datagauge, batch), and let no element occur more than r times after j + 1 edits. Then the mean number of visited nodes after edit j, over all random numbers and all functions from the elements to 64-bit hashes, is at most 4 (s + b) + 1 + (2 s^2 + (2b + 1) s) (1 + 2 g r (log2 d + 2 + d / 2^L)). For to_list the mean over all random numbers is at most 2 (2 (6 log2 (size / datagauge + j b + 2) + 1) + b) + 1.", "quantifier": "all parameters within the number types with namegauge 1, finite element types, sources of elements and places, path lengths L from 1 to 63; mean over all 64-bit random numbers and all hash functions", "why_tests_cant": "A test sees one stream of random numbers and one hash function, and only some parameters. The claim is about the mean over all of them and every number of edits; leaves grow with the edits, so no fixed session shows the bound.", "anchors": ["eval/examples/unique_elms.rs", "eval/examples/tree_to_list.rs", "eval/src/test_seq.rs", "eval/src/eval_iraz.rs", "src/level_tree.rs: gen_branch_level", "src/raz.rs: fold_lr_archive, focus, unfocus"]}
{"id": "C100", "title": "tokenize after edits visits what changed, although the open number is part of the accumulator", "statement": "The tokenizer of the adder (tokenize in eval/examples/adder.rs) folds a text of characters in archive points; its accumulator is the stack of finished tokens, which is archived at every leaf, and the number that is not yet complete. The calls are stored by the name of the tree node with the accumulator, and a call is reused if these are the same. In a session of any number of runs in one namespace, between which text and store change in any way, a run panics or visits only the nodes that are not below a branch that the run before has seen unchanged with the same last name and the same open number before it. If one subtree is replaced by another, with k nodes in it and above it, then at most k nodes are visited if the same number is open after the new subtree as after the old one, and at most k plus the depth of the tree otherwise, if every leaf of the text has some character that is not a digit: then the following leaf is entered with another number, but the one after it is not. Conditions: all archive points have names, no two the same, names that had left the sequence do not come back, and some token is complete in each leaf, given what is open before it.", "quantifier": "all texts, trees, stores, sessions of any length, edits that replace any subtree by any other", "why_tests_cant": "The results are the same however much is computed again. Whether calls after the edit are reused depends on the equality of accumulators, which contain handles of archived stacks and a number that crosses leaves; the claim is for all texts and positions of the edit.", "anchors": ["eval/examples/adder.rs: tokenize_step, tokenize_meta, tokenize_final", "src/raz.rs: fold_lr_archive", "src/archive_stack.rs: AStack::archive, push"]}
{"id": "C101", "title": "tokenize between batches of edits: work in the depth of the tree", "statement": "A text is made with the zipper and split into tokens by the tokenizer of the adder with stored calls; then come batches of edits, each of which goes to a place, changes it locally and leaves, and tokenize runs again after each batch. All cells get different names, none of them start, all archive points have names, and in each part of each text between archive points some token is complete and some character is no digit. If no text is one that tokenize does not understand, every list of tokens, read in full through its handles, is the one made from scratch with names and levels, and the same number is open at the end. The first run visits each node at most once. After a batch tokenize visits at most 6 k + 1 nodes, where k is the sum of the depths before each edit and of the number of archive points added: an edit changes the open number only for the part after it, so besides the way to the edited part only the ways to the next two parts are visited. In sessions of the test driver (namegauge 1, at least one element per edit) it visits at most 2 (3 depth + batch / datagauge + 1) + 1 nodes after each edit, with positions and with names as places.", "quantifier": "all texts, sessions, local edits, batches, parameters, generators and random streams with legible texts", "why_tests_cant": "The answers are right however much is computed again, and the bound is about all places of edits and all shapes of trees. That the open number does not carry an edit further than one part depends on the text between the archive points, which tests sample only at random.", "anchors": ["eval/examples/adder.rs: tokenize_step, tokenize_meta", "src/raz.rs: fold_lr_archive, focus, unfocus", "eval/src/eval_iraz.rs", "src/archive_stack.rs: AStack::archive, push"]}
{"id": "C102", "title": "Mean work of tokenize: logarithmic, between batches of edits and in sessions of the test driver", "statement": "A text is made with the zipper and split into tokens by the tokenizer of the adder with stored calls, and again after each of any number of batches of local edits. All archive points have names, all cells different ones. The texts have only digits, plus signs and commas, and in each part between archive points some token is complete and some character is no digit. Then, whatever the random levels are, every run finds the tokens of the text, stated on the text alone (numbers of more than five digits are split), and the first one visits at most 2 m + 1 nodes. In the mean over all random numbers from which the levels come, the run after a batch visits at most 6 (e (6 log (m + 2) + 2) + q) + 1 nodes, for e edits that add q archive points and at most m archive points at any time. In sessions of the test driver (namegauge 1) the mean after edit j is at most 2 (3 (6 log (size / datagauge + j a + 2) + 1) + a) + 1 with a = batch / datagauge + 1. Whether the texts are legible does not depend on the levels: one choice of random numbers decides for all.", "quantifier": "all texts, batches, generators and parameters with legible texts; mean over all random numbers", "why_tests_cant": "The mean is over all 2^64 values of each random number, and the bound is about all texts and places. A test sees single runs, in which the tokens are right however many nodes are visited.", "anchors": ["eval/examples/adder.rs: tokenize_step, tokenize_meta", "src/raz.rs: fold_lr_archive", "src/level_tree.rs: gen_branch_level", "eval/src/eval_iraz.rs", "eval/src/test_seq.rs"]}
{"id": "C103", "title": "Random values of the evaluation suite, and how often tokenize is fast on a random text of the adder", "statement": "Whatever the random generator gives: GenSmall values are below 100, Gen10k values below 10000, and Lang values are digits, plus signs and commas. Over all 2^64 numbers each value of GenSmall and Gen10k, each GenSetElm and each letter occurs an exactly known number of times (a plus sign in 1/7 of all cases, rounded up). Sums of small values do not overflow for fewer than 1.8 * 10^17 of them. In a session of the test driver for the adder with namegauge 1, datagauge dividing the size, and changes * batch < datagauge: for all but a share of at most (size / datagauge) * (6/7)^datagauge of the random texts, whatever the random levels are, every run of tokenize finds the tokens of the text, and its work after edit j is, in the mean over all random levels, at most the logarithmic bound of C102. For the adder without arguments (size 1000000, datagauge 1000, 30 single insertions): for all but 1 in 10^63 random texts the mean after each insertion is at most 405 nodes.", "quantifier": "all generators; all random numbers (counted exactly); all parameters with full parts and few changes; mean over all random levels", "why_tests_cant": "Shares of all random texts and means over all random levels cannot be measured: there are 10^20 cases for each letter and 10^6 letters.", "anchors": ["eval/src/types.rs", "eval/examples/adder.rs: Lang::rand, main2", "eval/src/eval_iraz.rs: inc_init, insert, append", "eval/src/test_seq.rs"]}
{"id": "C104", "title": "Tables of the test driver", "statement": "EditComputeSequence::test ends with a table exactly if the creation, the first computation and all changes go through. The table then has one time for the creation and one for each edit, and one row of times and one answer for the first computation and for each change, in that order; each computation sees the data of its time. A row of a computation made with Folder, FFolder, MFolder, HFolder, Proj0 and Compute2 has as many times as there are folds, those of the first computation first; final functions are not timed. With a clock that does not go back no time is negative. Whatever the clock shows, the answers and panics are those without clock. The two experiments of the adder are Compute2 of two MFolders with the results of C47 and C76 and two times in each row. n SingleAppends add the elements of one BatchAppend(n) and leave the same generator; BatchExtend on vectors adds what BatchAppend adds.", "quantifier": "all creators, editors and computations, all numbers of changes, all clocks; all sequences within the number types for appends", "why_tests_cant": "The driver is only run by hand with a few parameters; its tables are not compared with anything.", "anchors": ["eval/src/test_seq.rs: EditComputeSequence::test", "eval/src/actions.rs: Compute2, Proj0, Folder, FFolder, MFolder, HFolder, SingleAppend, BatchExtend, IncrementalFrom", "eval/examples/adder.rs: main2"]}
{"id": "C105", "title": "Reports of the experiments", "statement": "The programs max, filter, reverse, to_string and adder print, from the tables of the two experiments: the initial times, their quotient as overhead, the mean time of the changes, the quotient of the initial time of the other program and that mean as speedup, and as crossover the number of the change from which on the incremental program is ahead; they write a data file with the cumulative times after each change. The report does not panic on the tables of the driver unless a time does not fit in an i64 of nanoseconds.", "quantifier": "all tables of times", "why_tests_cant": "The programs are run by hand; there are no tests of the numbers they print, and times are different in each run.", "anchors": ["eval/examples/max.rs: main2 (post-process results, generate data file)", "eval/examples/adder.rs: main2", "eval/examples/filter.rs, reverse.rs, to_string.rs, crossover.rs, unique_elms.rs"]}
{"id": "C106", "title": "Work of whole sessions", "statement": "In a session of the test driver with a memoised fold, map, reverse or filter and a name for every archive point, the first computation visits every node of the tree exactly once, which are 2*((size-1)/datagauge)+1 nodes (there is no archive point at the end of the sequence). All computations after the changes together visit in the mean over all random levels at most changes * (2*(2*(ceil(log2 k)+1)+batch/datagauge+1)+1) nodes, where k is the number of random levels of the session. With the default parameters of max.rs, reverse.rs, filter.rs and to_string.rs the first computation visits 1999 nodes and the 30 others together at most 1530 in the mean; with those of crossover.rs the first visits 19999 nodes and the 30 others at most 1890: all changes together cost less than computing once.", "quantifier": "all generators of elements and positions, all parameters in range with namegauge 1, all associative folds, all maps, reverse and all filters; mean over all random levels", "why_tests_cant": "Tests see single runs; the mean is over (2^64)^1030 sequences of random numbers.", "anchors": ["eval/src/test_seq.rs: EditComputeSequence::test", "eval/examples/max.rs: main2", "eval/examples/reverse.rs: main2", "eval/examples/filter.rs: main2", "eval/examples/to_string.rs: main2", "eval/examples/crossover.rs: main2"]}
{"id": "C107", "title": "Dear sessions are rare", "statement": "In a session of the test driver with a memoised fold, map, reverse or filter and a name for every archive point, for every k at most one in k of all sequences of random levels makes the computations after the changes together visit k * changes * (2*(2*(ceil(log2 d)+1)+batch/datagauge+1)+1) nodes or more, where d is the number of random levels of the session. With the default parameters of crossover.rs, for at least nine of ten sequences of random levels the folds after all 30 insertions together visit fewer nodes than the first fold alone.", "quantifier": "all generators of elements and positions, all parameters in range with namegauge 1 and at least one change, all k, all associative folds, all maps, reverse and all filters; counted over all random levels", "why_tests_cant": "Tests see single runs; the count is over (2^64)^10030 sequences of random numbers.", "anchors": ["eval/src/test_seq.rs: EditComputeSequence::test", "eval/examples/crossover.rs: main2"]}
{"id": "C108", "title": "Every change is cheap in all but very few sessions", "statement": "In a session of the test driver with a memoised fold, map, reverse or filter and a name for every archive point, for every j at most a fraction changes*(2/3)^j/4 of all sequences of random levels makes any of the computations after the changes visit 2*(4*ceil(log2(d+2))+j+batch/datagauge+1) nodes or more, where d is the number of random levels of the session. With the default parameters of crossover.rs, for all but one in 10^43 of the sequences of random levels the folds after all 30 insertions together visit fewer nodes than the first fold alone.", "quantifier": "all generators of elements and positions, all parameters in range with namegauge 1, all j, all associative folds, all maps, reverse and all filters; counted over all random levels", "why_tests_cant": "The exceptions are too rare to be met by tests, and their number is that of the sequences of random numbers.", "anchors": ["eval/src/test_seq.rs: EditComputeSequence::test", "eval/src/eval_iraz.rs: EditInsert::edit", "src/level_tree.rs: gen_branch_level", "eval/examples/crossover.rs: main2"]}
{"id": "C109", "title": "After any local edits, dear computations are rare", "statement": "A sequence is made by any operations at the cursor and folded, mapped, reversed or filtered with memoisation; then come any batches of local edits, and the computation again after each batch. For every j, at most a fraction e*(2/3)^j/4 of all assignments of random levels, where e is the number of edits, makes any computation after a batch visit more than 2k+1 nodes, where k sums, over the edits of the batch, 4*ceil(log2(m+2)) for the number m of archive points, j, and the number of archive points added. Likewise at most a fraction (2/3)^j/4 makes focus at a given index pass 4*ceil(log2(m+2))+j archive points or more.", "quantifier": "all operations that make the sequence, all batches of local edits, all indices, all j, all associative folds, all maps, reverse and all filters; counted over all random levels", "why_tests_cant": "The exceptions are too rare to be met by tests, and the claim is about all edits and all sequences of random numbers.", "anchors": ["src/raz.rs: RazTree::focus", "src/raz.rs: Raz::unfocus", "src/raz.rs: RazTree::fold_up", "src/level_tree.rs: gen_branch_level"]}
{"id": "C110", "title": "After edits at any places, dear computations and long moves are rare", "statement": "For batches of edits at any places of a sequence, also across archive points, that never leave it empty: for every j, at most a fraction e*(2/3)^j/4 of all assignments of random levels, where e is the number of edits, makes any memoised fold, map, reverse or filter after a batch visit more than 2k+1 nodes, where k sums, over the edits of the batch, (1+c)*(6*ceil(log2(m+2))+j) for m archive points and c crossings, and the number of archive points added. With the same exceptions, making and editing a sequence moves cursors at most (2+4c)*(6*ceil(log2(m+2))+j) times for each edit, besides one for each pop, eight for each archive point, nine for each edit and eight.", "quantifier": "all operations that make the sequence, all batches of edits, all j, all associative folds, all maps, reverse and all filters; counted over all random levels", "why_tests_cant": "The exceptions are too rare to be met by tests, and the claim is about all edits and all sequences of random numbers.", "anchors": ["src/raz.rs: RazTree::focus", "src/raz.rs: Raz::unfocus", "src/raz.rs: Raz::pop_left", "src/level_tree.rs: Cursor", "src/level_tree.rs: gen_branch_level"]}
{"id": "C111", "title": "How deep and how shallow a tree can be", "statement": "Whatever the levels, a tree with m archive points has a depth d with d <= m < 2^d. Both bounds are reached: if the levels never rise from left to right (as when they are equal) or always rise, the depth is m; if they are the levels that gen_branch_level gives for 1, 2, ..., 2^k-1 the depth is k, and no tree with as many archive points is shallower. For every n and every k up to 63, calls make such trees, so the logarithmic bounds on work depend on random levels.", "quantifier": "all trees a client can make, also by join with any level; all level sequences; all n and all k up to 63", "why_tests_cant": "The bounds are about all trees of all sizes; a test measures single trees.", "anchors": ["src/raz.rs: Raz::unfocus", "src/raz.rs: RazTree::join", "src/level_tree.rs: gen_branch_level", "src/tree_cursor.rs: Cursor"]}
{"id": "C112", "title": "tokenize after every change is cheap for all but few random levels", "statement": "In a session of the test driver with the memoised tokenize of adder.rs whose texts are legible (only digits, plus signs and commas, and in each part between archive points some token is complete and some number ends), the tokens of each text are found with all random levels, and for every j at most a fraction changes*(2/3)^j/4 of all sequences of random levels makes tokenize after any change take 6*(6*ceil(log2(d+2))+j)+2*(batch/datagauge+1)+1 steps or more, where d is the number of random levels of the session.", "quantifier": "all generators of legible texts and of positions, all parameters in range with namegauge 1, all j; counted over all random levels", "why_tests_cant": "The exceptions are too rare to be met by tests, and their number is that of the sequences of random numbers.", "anchors": ["eval/examples/adder.rs: tokenize_step, tokenize_meta", "eval/src/test_seq.rs: EditComputeSequence::test", "src/raz.rs: fold_lr_archive", "src/level_tree.rs: gen_branch_level"]}
{"id": "C113", "title": "to_list and tokenize after local edits are cheap for all but few random levels", "statement": "A sequence is made and turned into a list with the memoised to_list, and again after each of any number of batches of local edits; or a legible text is split into tokens with tokenize of adder.rs in the same way. The lists and tokens are right with all random levels. For every j, at most a fraction e*(2/3)^j/4 of all assignments of random levels, where e is the number of edits, makes any run after a batch evaluate more than 4k+1 calls (to_list) or 6k+1 calls (tokenize), where k sums, over the edits of the batch, 6*ceil(log2(m+2))+j for m archive points before the edit, and the number of archive points added.", "quantifier": "all operations that make the sequence, all batches of local edits, all j; counted over all random levels", "why_tests_cant": "The exceptions are too rare to be met by tests, and their number is that of the sequences of random numbers.", "anchors": ["eval/examples/tree_to_list.rs", "eval/examples/adder.rs: tokenize_step, tokenize_meta", "src/raz.rs: fold_lr_archive, focus, unfocus", "src/level_tree.rs: gen_branch_level"]}
{"id": "C114", "title": "The way to the start of a sequence is short with all levels, the way to its end is not", "statement": "focus_left of a tree that is not empty moves the cursor exactly once for each archive point that is higher than all on the left of it, and once more. So with levels from gen_branch_level it moves it at most 65 times, however long the sequence is and whatever the random numbers. For the end there is no such bound: for every n there is a sequence of n + 1 elements with levels that gen_branch_level can give where focus at the end moves the cursor at least n times while focus_left moves it twice.", "quantifier": "all reachable trees, all calls that make a sequence, all n", "why_tests_cant": "The bound holds for sequences of every length and all random numbers; the long ways to the end need levels that random numbers hardly ever give.", "anchors": ["src/raz.rs: focus_left, focus", "src/tree_cursor.rs: down_left_force, down_right_force", "src/level_tree.rs: gen_branch_level"]}
