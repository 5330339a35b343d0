# Formal model of iodyn.rust: design

Source: `/repo` (cuplv/iodyn.rust), read as text and never built. Model and proofs: Lean 4 under `lean/Verif/`.

## Layout

| directory | content |
|---|---|
| `Verif/Model/*` | function-by-function model of the Rust code; every definition cites file and lines |
| `Verif/Spec/*`  | small, independent specifications (plain lists, zippers of items, finite maps, reachable states) |
| `Verif/Proof/*` | invariants and helper lemmas |
| `Verif/Props/*` | the property theorems `C01_…`, `C02_…`, each with a concrete non-vacuity `example` |
| `seeded/LOG.jsonl` | mutation tests: edits of the model and the theorems that fail under them |

Which Rust file is modelled where:

| Rust | model |
|---|---|
| src/level_tree.rs | `Model/Tree` (values), `Model/Heap` (over a store) |
| src/tree_cursor.rs | `Model/Cursor`, `Model/Heap` |
| src/stack.rs, src/archive_stack.rs | `Model/Stack`, `Model/Heap` |
| src/raz.rs, src/raz_meta.rs | `Model/Meta`, `Model/Raz`, `Model/Heap`; `memo_from` in `Model/MemoFrom`, `Model/HeapMemoFrom` |
| src/skiplist.rs, src/trie.rs | `Model/Skiplist`, `Model/Trie` |
| engine (`put`, `cell`, `force`) | `Model/Store` |
| `memo!` and the memoised folds, `map` and `memo_from` of src/level_tree.rs, src/raz.rs | `Model/Incr`, `Model/IncrMap`, `Model/IncrMemoFrom`, `Model/IncrFold`, `Model/IncrLr`, `Model/IncrObs`; `map` in the sequence's own namespace in `Model/HeapMap` |
| the harnesses and the test driver over the store, with stored calls | `Model/HeapSession` |
| src/trees.rs (`Level`), src/lib.rs (`inc_level`), eval/src/examples.rs | `Model/Levels` |
| eval/src/{accum_lists,interface}.rs | `Model/AccumLists` |
| eval/src/{eval_iraz,eval_raz_name_index,eval_vec}.rs | `Model/Eval` |
| eval/examples/{reverse,filter,max,adder}.rs | `Model/Programs` |
| eval/src/types.rs, `Lang` of eval/examples/adder.rs | `Model/Generators` |
| eval/src/{test_seq,actions}.rs, eval/examples/{unique_elms,tree_to_list,crossover,to_string}.rs | `Model/Session`, `Model/Actions` |
| the post-processing in eval/examples/{max,filter,reverse,to_string,adder,crossover,unique_elms}.rs | `Model/Report` |

## Modelling decisions

* **Panics.** Functions that can panic return `P α := Except Panic α`; `unwrap`, `expect`, `assert!`,
  `unreachable!`, explicit `panic!`, index errors and checked arithmetic (debug build) are `Except.error` with the
  kind of panic. A theorem `f x = .ok y` therefore also says that `f` does not panic on `x`.
* **`&mut self`** becomes a function returning the new value (and the result).
* **`Vec`** is `List`. A `Vec` used as a stack keeps Rust's order (last = top), except cursor forests,
  where the list head is the last `Vec` entry (stated at the definition).
* **`u32` levels, `usize` counts** are `Nat`. `u32::MAX`/`usize::MAX` appear as constants
  (`u32Max`, `usizeMax`) where the code compares with them. Overflow of an element count is not modelled: a
  sequence longer than `usize::MAX` does not fit in memory. The arithmetic of the evaluation harnesses and of the
  adder is checked (`addU`, `mulU`, `grow`, …).
* **`Option<Tree<E>>`** is one inductive type `Tree` with `nil` for `None`.
* **Names.** `Name` is a free datatype: unit, number, string, pair, left/right fork. Adapton's names are
  hash-consed symbols; we assume hashing is injective (trusted).
* **Engine.** Most files use values in place of articulations (`put`/`cell` wrap, `force` unwraps, `memo!` calls the
  function). `Model/Store` and `Model/Heap` have an explicit store with two engines: `naive` (every `cell` is fresh)
  and `dcg` (a `cell` with a name already in use replaces the content all holders see). `Model/Heap` repeats the
  sequence API over that store; C41 and C55 prove that both models give the same answers if names are used once.
  The store has namespaces: a named cell belongs to the namespace it was made in, and `ns` runs a computation in a nested one
  (C68).
  Adapton is not part of /repo: that `cell` overwrites, that `put` does not, and that `memo!` returns what the call
  would return are assumptions.
* **Memoisation.** `Model/Incr` models `memo!` itself: a table of stored calls by namespace and name; a stored call is
  used if its arguments before `;;` are equal and everything it has read is unchanged, otherwise the call is run and
  replaces it. This is Adapton's documented behaviour and an assumption. Fold bodies are written as trees of engine calls
  (`Prog`), which are run plainly (`run`) or with the table (`mrun`); `work` counts the bodies that are run.
  `Model/IncrMap` does the same for `map`, whose calls also make cells: a stored call is used if in addition the cells it
  made still have the content it gave them. An anonymous `put` in a namespace finds the articulation with the
  same content, if there is one, as Adapton's does (by hash). `Model/IncrMemoFrom` has `memo_from` in this style, `Model/IncrFold` the reverse and filter programs, `Model/IncrLr` the left fold into a stack (`to_list` and the adder).
  `Model/IncrObs` adds `force_map` (of a cell read through a function, only what the function shows matters) and the fold into a skip list. `Model/HeapMap` (C63)
  and `Model/HeapMemoFrom` (C64) have plain calls.
* **Loops over the store** (`Model/Heap`, `Model/AccumLists`) take fuel; running out stands for a call that does not
  return. Theorems say that some fuel suffices and that all larger fuel gives the same result.
* **One store for all cell types** in `Model/Heap`; reading a cell as the wrong type is a panic. (In Adapton, using
  one name at two types is an error too.)
* **Hash functions** (`DefaultHasher`), **random numbers** and the **order of a hash map** are parameters.
* **Traits.** `RazMeta` and `TreeUpdate` are type classes; theorems quantify over all instances, with the law
  `LawfulMeta` only where navigation matters (proved for all three instances of /repo).

## Reachable states

`Spec/Reach` defines the states a client can make with the public API: `Reach u s`. Every theorem about trees and
cursors quantifies over such states (or over something weaker). The usage `u` has two switches:
`join` (may the client call `RazTree::join`, which takes any level) and `emptyTop` (may the client call `memo_from` on
a stack that was archived and not pushed to since, which makes a leaf without elements).
`.any` allows all, `.full` forbids `emptyTop`, `.edit` forbids both. Levels are at least 1 (C22 shows what level 0
does). A theorem that needs `.full` or `.edit` against the text of its property is called `_partial` and has a
counterexample next to it.

## Not modelled

Debug formatting, vector capacities, reference counts, time and space, the command line,
plotting code in `eval/` (times are readings of an arbitrary clock), rounding of `f64`, Adapton itself (dirtying, change propagation), threads (there are
none).

## Trusted base

Lean 4.33 kernel; axioms at most `propext`, `Classical.choice`, `Quot.sound` (checked by `vcheck` for every theorem);
the reading of the Rust code recorded in the definitions' comments; the assumptions on names, hashing, engine and
memoisation above. No axioms of our own, no `sorry`, no `native_decide`, no `bv_decide`.

## Central ideas

* **Items.** A tree (`RazTree`) denotes a list of *items*: elements and archive points (level, name).
  A cursor (`Raz`) denotes two such lists. Editing operations are specified on the two lists, `unfocus` as
  gluing them, `focus` as splitting. Elements-only statements are corollaries.
* **Well-formedness** (`WF`): leaves have level 0 and no branches, branch nodes have two branches, level
  >= 1 and metadata computed from the branches. All operations preserve it for levels >= 1; this also
  gives absence of panics. No level *order* is needed for the sequence properties.
* **Canonical form** (`Canon`): left root level < node level, right root level <= node level. A canonical
  well-formed tree is determined by its items. `join`/`unfocus`/`memo_from` preserve it.
* **Ownership in the store** (`Proof/Heap*`): each handle owns the named cells it reaches, footprints of different
  handles are disjoint or shared read-only; a computation writes only fresh cells and cells it owns.

## Properties

Status as in `MANIFEST.json`.

| id | what is modelled and how it is proved |
|---|---|
| C01 | `Raz` operations refine the item zipper; induction over histories of calls, incl. focus/unfocus |
| C02 | `unfocus` items = `glue left right`; elements = left ++ right |
| C03 | `focus` for `Count`: descent invariant (index = remaining count) |
| C04 | partial. Branch tree: `None`; single leaf: panic; empty tree: `Some`. False as stated, counterexamples and complete case description proved |
| C05 | `focus` at the end markers, `focus_left`: descent along a spine |
| C06 | partial. Canonical uniqueness + C02 on items. False at an empty subsequence from `memo_from` |
| C07, C08 | structural metadata invariant (any `RazMeta`), instantiated to `Count`, `Names` |
| C09 | partial. Descent invariant for `Names` with distinct names; an absent name on a one-leaf tree panics |
| C10, C11 | partial. Tree fold = list fold by induction using associativity; exactly the trees with an empty subsequence make `fold_up`, `fold_up_nl` panic |
| C12, C13, C14 | fold over in-order items by induction |
| C15 | structural induction; items are mapped, metadata recomputed |
| C16 | partial. On items; `is_empty` is false for a tree that consists of empty leaves |
| C17, C18 | fuel-recursion model of `from_stack`, invariant over level bounds; the bounds are needed |
| C19 | C17 + C02 + canonical uniqueness |
| C20 | `Canon` invariant over histories; `RazTree::join` breaks it (witness) |
| C21 | uniqueness of canonical trees |
| C22 | all calls return `.ok` on reachable states; level 0 loses data (witness) |
| C23, C24 | item-level specification of archive, pop, unfocus |
| C25-C27 | refinement of `AStack` to lists of segments, also for stacks made from vectors; C27 partial: `active_len` does not do what its documentation says |
| C28 | `Stack` as list; over the store in C40 |
| C29 | bit-vector reasoning over all 64-bit words |
| C30-C32 | two-stack path representation = one-path zipper on heap-ordered trees; counterexample without the order. The left iterator has no `next` in the source, so only its starting point is proved (`C32_left_start`) |
| C33 | structural induction |
| C34 | partial. False: `good_levels` uses the mirrored convention (counterexamples both ways); exact without level ties |
| C35-C38 | skip list over the store; denotation of a path as a map from hashes; freshness of (name, counter) |
| C37 | partial. False from path length 64 (shift overflow) and at 0; proved for 1..63 |
| C39 | partial. `union` of two leaves always panics and `union_rec` pairs the wrong branches (proved for all inputs); `find` and union with empty proved. C39_split and C39_union_rec_deep say where an entry goes and at which prefixes the shifts overflow |
| C40 | stacks over the store: pushes with distinct names leave all stacks unchanged; a reused name changes an older stack |
| C41 | the sequence API over the store refines the value model for programs over any number of unnamed sequences and clones |
| C42 | partial. `peek_*` writes the store under the incremental engine: a clone of a named tree can change (witness); harmless in the other cases |
| C43 | partial. Refinement of each list type to `List`; with a reused name `seq_pop` can loop for ever |
| C44, C45 | counting argument on `/` and `%`; sequence result by C01/C02; also for harnesses created empty, from a cursor and from a stack (`Props/Entry.lean`), and for the harness of archive stacks (`Props/EvalStack.lean`) |
| C46 | fold theorems with a specification of which archive points stay |
| C47 | both adders give the same result or the same panic, by simulation of stack and vector |
| C48 | partial. Zipper context argument using canonical uniqueness; false for trees from `RazTree::join` at a low level |
| C49 | refinement of all seven sequence types to lists, programs over any number of values |
| C50 | partial. Initialisation, also from nothing, `extend` and appends agree; insertion differs (witness) |
| C51 | name uniqueness along histories of the name-indexed harness |
| C52, C54 | partial. Maximum as last greatest element by C10/C11; panic exactly on empty subsequences; reversal and the tree fold with levels and names in `Props/Entry.lean` |
| C53 | partial. False for numbers of six or more digits (witness); else simulation of the tokenizers and parsers |
| C55 | as C41 with names used once, sequences not cloned; both conditions are needed (witnesses) |
| C56 | every stored call is valid in each store that agrees with its reads; invariant of memoised runs of any body, then simulation of whole sessions |
| C57 | partial. False for two functions in one namespace (witness) |
| C58, C59 | the calls of a run as a tree; a memoised run visits only calls that are not stored; names forked from distinct names are distinct |
| C60 | invariant of a session: all calls of the last tree are stored, completely, and nothing else can match; the condition on names is needed (witness) |
| C61 | invariant: a stored call fixes the tree it has read and, while its cells are as it left them, leads to the mapped tree; then simulation of whole sessions |
| C62 | as C60; the cells of the last map are as it left them, since names of different branches differ |
| C63 | partial. As C41, C55 with `map` as a statement; false for every tree with a named top (general theorem and witness) |
| C64 | partial. As C41, C55 with stacks and conversions as events; false for every stack with a named archive point that is converted again: only tree nodes are written, so the links of the stack lead to a node for ever |
| C65 | a skip list in a part of the store behaves as in that part alone; then as C38, along the archive points |
| C66 | any implementation that is a stack (C43, C49) in a part of the store; induction over the items |
| C67 | invariant of the driver: reachable tree, distinct names below the harness's counter, room for the remaining batches |
| C68 | each variable has a set of names and of namespaces that its cells are in; a simulation as for C55 in which a statement invalidates the variables whose cells it may replace. The version theorem and names used once are instances; same namespace and the other direction are false (witnesses) |
| C69 | as C68, with `map` and `memo_from` as events that make new cells in the namespace of the call and leave their argument; sessions of the harness's shape are an instance. In the namespace of the argument it is false (witness) |
| C70 | invariant of the namespace: every stored call of `from_stack`, wherever what it read and made is unchanged, has the handles of the result that `from_stack` has with values; induction over calls. Clients by simulation as in C61. Converting the same stack again: the stored call of the last archive point is found, as the anonymous leaf is shared by content |
| C71 | archive points with their handles, taken up to the first that is not below the maximum; invariant: for each point of the last stack, the call that its body makes first is stored under the name of the next point, with the leaf of its elements, and what is stored for a name belongs to its point. Counting: only points with no larger one above them in the unchanged part are reached |
| C72 | `Model/Hash`: each derived or written `eq` and `hash` (the words written to the hasher); instance by instance. For tries `==` compares 64-bit hashes of the leaves: by the pigeonhole principle different maps have equal tries, for every hasher (witness without computing it) |
| C73 | `Model/IncrFold`: `fold_up_meta` with node functions that make cells. Invariant of the namespace for any node function that simulates a function on values: every stored call, wherever what it read and made is unchanged, has the handle of that value; induction over the tree. Instances for reverse and filter, which read the metadata of cells they have made. Work as in C62, by calls stored for the last tree; elements by C46 |
| C74 | `Model/IncrLr`: `fold_lr_meta` with node functions that read and make stack cells. Invariant for any node function that simulates a function on values: a stored call, wherever what it read and made is unchanged, takes *every* accumulator value with the same handle to the right result (calls are compared by handle, so what is behind a link may have changed). Needs that cells below the accumulator have other names than those still to be made; these are the distinct names of the nodes. Work: an accumulator that has just been archived at a named node is a handle which depends on the name only. |
| C75 | the same invariant for `tokenize` and `parse`, with C70's for the conversion between them; composition of three simulations. On plain lists through C47_when_ok: a stack that `memo_from` accepts has levels below `u32::MAX`. Work after edits: C100 (the open number is part of the accumulator, so an edit can change all calls after it unless numbers end). |
| C76 | `Model/HeapSession`: the harnesses and the driver over the store. Simulation of every step of `incremental_init`, `insert`, `append` (the names that the harness generates are numbered, so no cell that is still used is overwritten), reachability of every sequence of the harness without any bound, and the simulations of C56, C61, C73, C74, C75 for the computations; induction over the changes. On plain lists through C67. |
| C77 | `Model/Levels`; level `k` means that the number is `2^(k-1)` modulo `2^k` (by bits, from C29), and residues below `2^64` are counted by a bijection; the spec counts nodes of a given height in a perfect tree by recursion |
| C78 | `Model/Levels`: by C19 the tree is that of `memo_from` of the same steps, which is computed with the elements as variables. The names differ from the drawing: witness for every element type; `_partial` for shape, levels and elements |
| C79 | the store models of C58 and the memo table of C60. `focus` goes down one path; local edits touch only the stacks; `unfocus` writes only the cells on that path and those of the new archive points (a narrower write set than in C58), so every other named node of the new tree is a node of the old one with everything below it, by the uniqueness of what a handle shows. So C60's cost is at most that of the nodes hanging off the path. Sessions by induction; names used once give C60's condition. Witness that names are needed |
| C80 | the edits of C79 in batches, and the memoised computations of C60, C62 and C73 behind one interface (`Reuses`): after a history, a run gives the result and works at most where the last tree had no equal named node. That every named node off the paths is a node of the old tree composes over the edits of a batch (`Shared.trans`), so C79's bound holds with the sum of depths and points. The results of map, reverse and filter are read back in full (`Holds`). The left folds of C74 are in C82: their stored calls depend on the carried accumulator |
| C81 | the sessions of C76 with the computations of C80. Building and editing by the harness are shown to be lists of `push_left` and `archive_left` calls on the cursor (`incInit_calls`, `Calls`), in the model on values and in the one over the store; these are local edits, their names are the next numbers of the harness and therefore new, and there are at most `batch / (namegauge * datagauge) + 1` of them. Then C80's step applies to each edit. Batches or sequences of no elements are left out: a cursor that is put down again without a push rejoins at an archive point, which is not a local edit. `C81_total`: within the number types the session on values does not panic |
| C82 | the fold of C74 in the sessions of C80 and C81. A stored call of the fold is found again when its node is unchanged and the accumulator is the same handle; that handle depends only on the last name before the node ("start" at the front). So `SharedFrom`: off the paths of the edits, each named node has the same last name before it as in the old tree, except for the nodes on the way to the first old name after the cursor, at most as many as the tree is deep (`edited_from`: the sequence of the names is the old one with new names put in at the cursor). It composes over the edits of a batch. Needs that all archive points have names and no part between them is empty (`Whole`), which building and local edits with names keep |
| C83 | the sessions of C80 with any calls at the cursor. The nodes of the old tree have addresses (paths from the root). The invariant of the calls (`GInvs`): the entries of both cursors are nodes at addresses of a set closed under going up; a pop across an archive point adds the addresses of one spine, at most the depth of the tree, and so does `unfocus` when nothing is next to the cursor (`unfocus_cross`). The store changes only at the names at these addresses and at the new names, so all other named nodes are shared with the old tree, and the bounds of C80 apply. `C83_pops` bounds the number of crossings by the number of pops. That the sequence is never left empty is a condition: an empty sequence has no root to compute on |
| C84 | the calls of a session carry slots in place of levels; `drawn w` gives slot `k` the level made of the random number `w k`. Sequences are lists of items and the edits act on lists (`editList`), so nothing but the levels depends on the random numbers (`at_edit`). `focus_seen`: on trees in heap order, the entries of the cursors after `focus` are the archive points that are records of the levels seen from the cut (weak records on the left, strict on the right). `level_mean`: for `k ≤ 2^m` independent levels the sum of the number of weak records over all assignments is at most `(2^64)^n * (m+1)`; it is counted exactly by the levels (`card_above`: the numbers with level at least `j`), and the tail of high levels by the number of entries. `edit_path_sim`: an edit over the store touches as many old names as there are entries. `stands_session` puts the bounds of C80 on paths in place of depths; `session_ends` shows that no session panics; `mean_reruns` sums over all assignments |
| C85 | `buildTest` models the rounds of `BuildTest::test`; the list of sizes is a parameter in place of `multiplier.powi(i) as usize`, and an observer reads the sequences in full after each step. `build_sim`: each round over the store simulates the round on values from any store, since `inc_init` and the edits do (C65, C66) and the next round uses nothing of the last but the random state. `round_test` makes a round a session of C67 with one change, which gives the lists. `C85_kept` is a witness that a sequence kept from an earlier round changes |
| C86 | `Call.run` models each function of src/stack.rs on numbered variables over the store, an iterator being the head still to be visited; `Call.spec` is the same on lists. `call_steps`: each call keeps the variables in agreement with the lists (`Reads` of C40), since pushing changes no cell in use. `C86_endless` runs the iterator of a list pushed onto with its own name for any number of steps |
| C87 | `reads w` is the generator that gives the numbers `w` in order, so the levels are `drawn w` of slots. `incInit_plan`, `editAt_plan`: what `inc_init`, `insert` and `append` do to the items is a plan (`planLoop`: pushes and archive points with slots) that does not depend on `w`; `Sketch` is the session as such a list of plans, and `session_along` shows that the session of the harness over the store follows it. Then the means of C84 (`batches_mean`) apply, and `plans_bounds` counts the archive points of the plans |
| C88 | `C88_depth`: the tree of a reachable sequence has as depth `deepest` of its levels (`Spec/MeanDepth`: the most archive points seen from a place; seen means no higher level between). For the mean, with c = 3/2: the mean of c to the number of weak records from level x on in m levels is at most 1 + m * P(level ≥ x) (`seen_power`, by induction over the list, with the tails of the level from C76); both sides of a cut and the sum over all cuts give that the mean of c^depth is at most (m+2)^3/4 (`deepest_power`), and Markov and Bernoulli give the tail and the mean. Sums are exact, in ℚ. Places chosen knowing the numbers: `C88_any_place` |
| C89 | The crossings of C83 depend only on the list (`crossings_sides`, `at_crossings`), and the depth is `deepest` of the levels (C88), so the numbers of C83 for the session with levels `drawn w` are `depthBatches (drawn w)` (`any_session`). Sums over all `w` by `deepest_mean` (`batches_depth_mean`), and named archive points give gap 1 (`C83_named`) |
| C90 | `Model/Moves`: twins of the cursor and zipper functions in a monad that counts calls of `up`, `down_left_force`, `down_right_force`; copying of vectors, stack operations and `gen_branch_level` are not counted. `C90_same`: without the counts they are the functions of `Model/Cursor` and `Model/Raz`. Over a `join` the ups are the loss of height plus the downs, so only the downs are bounded (`joinC_cost`), by the depth of what the earlier joins put there (`RS`, `LS`, `join_tree_right`, `join_tree_left`); heap order (C20) makes the downs at the two forests 0. Then `unfocusC_cost`, `focusC_cost`, `popLeftC_cost`, `popRightC_cost`, `lopsC_cost` with the path as potential, and as lower bound `2 * path`. The mean by C84 (`path_mean`) and C88 (`depth_mean`) |
| C91 | `Model/SkipCost`: twins of the functions of `Model/Skiplist` that count calls of `force_map`; copying of links is not counted. `C91_same`: without the counts they are the functions modelled before. `Spec/SkipCost` has for each handle only the list of the keys of its updates: `common` counts shared bits, `leaders` the records of that list from the newest on. Invariant `PastInv`: link i of a cell leads to the newest earlier update whose key shares the first i bits (`Linked`), so a search goes from record to record (`recC_cost`, `runC_cost`: `C91_exact`). `C91_most`: records are different numbers of shared bits. `C91_mean`: records are at most the largest number of shared bits plus one, and m keys share j bits with a fixed one for at most m/2^j of all functions (`sharing_card`) |
| C92 | `Model/IncrObs`: bodies as trees of engine calls (`OProg`), with `force_map` given as data so that the engine can ask again; a stored call is used if its arguments and outer reads are the same, each function still shows the same, and each cell it has made is still as made. `Spec/IncrObs`: the same bodies with all calls plain (`srun`), and the namespaces that come from any runs and disturbances (`Rerun`). Invariant `TableOK`: wherever a stored call can be used, running it plainly would give its result and change no cell, because all it writes is there already; so nothing about freshness of names is needed. Termination by induction on the depth |
| C93 | `fold_lr_archive` with `put` and `archive` as such a body (`uniqueNode`); its plain run is the computation of C65 in the same store (`run_fold`, `foldP_unique`), which is right in every store; C92 carries this over to memoised runs. Clients and sessions as in C74 and C76, with names followed through (`ComputesOff`, `ComputesN`) because "start" and unit must not be names of archive points |
| C94 | `Spec/IncrWork`: runs without stored calls that write down their calls (`trun`, `Calls`), histories of runs (`RanAs`) and the calls that are new against a list (`Calls.fresh`). Proof by induction on depth and body with an invariant on the names and cells still to be used in the run: the stored calls under these names are those of the last run, and the cells that the last run made there are untouched (`exec_work`). A call made in the same way is found because all that it writes is there already, so that what it sees is the same (`RecGood.quiet`); a stored call that is used has the same record, hence the same calls below (`trun_good`). `C94_record`: the records belong to the runs of C92 |
| C95 | `Spec/UniqueWork`: what an update of the skip list depends on, by the shared bits with the updates before it alone (`sees`: latest update with exactly / at least `j` shared bits, elements with all bits shared); what a run over a leaf depends on (`LeafView`); the calls of a run over a tree (`uqCalls`). Proof: the search of the model is shown just `lookFacts` of these (`Proof/SkipSees`, `texec_put`), the record of a run over a tree is `uqCalls` (`Proof/UniqueRec.tree_rec`); with C94 the work is exact (`C95_exact`). A call is new only if its branch is new or one of its leaves depends on something else (`fresh_most`, giving `C95_work`); an element hides everything that shares fewer bits (`sees_hidden`, `C95_edit`) |
| C96 | Mean over all `w : E → Fin (2 ^ 64)` by counting. For one replaced element `z` and one number `k < L`, the pairs of a hash function and an element that leads with exactly `k` bits shared with `z` are mapped injectively to hash functions by flipping bit `k` of the hash of the element, which is then the first to share more than `k` bits (`leads_level`): at most one leads in the mean. Elements that share at least `log m` bits are few (`share_many`, from `fixed_bits` of C91). Repeated elements count as often as they occur (`touched_leads`). Together with `C95_edit` and `C95_work` |
| C97 | C96 for many places at once. Leaves that the edits replace (and the first leaf after each, whose handle differs) are cut out of both sequences of leaves (`cut`, Proof/UniqueCut); the rest are the same leaves in the same order, woven with different ones (`Woven`, Proof/UniqueMany). A leaf of the rest is seen differently only if a cut-out element leads to one of its own (`Hits`), and the mean number of these is bounded per cut-out element as in C96. Which nodes an edit replaces comes from C82 (`SharedFrom`), to which the order of the names was added (`inNames` is a sublist). Sessions as in C82, with all hash functions side by side (`UqBetween`) |
| C98 | C97 and C82 with random levels. The bound of C97 has the depth after a batch times the sum of the depths before each edit. Depths are those of lists of levels (`deepest`, C88); a product is at most half the sum of the squares (`deep_pairs`), and the mean square of the depth is at most s^2 + s + 2 with s = 6 log2 (m + 2) (`deepest_square`, from the tail bound of C88). Longest leaves, elements and sizes of trees are those of the lists (`tree_run`, `tree_elems`, `tree_size`). The session with given levels is `deep_session`; then C97_batches is summed over the hash functions, and this over the levels. `C98_bound` gives the bound as a polynomial in logarithms |
| C99 | C97 and C82 in sessions of the driver, with the random numbers of C87. What the driver draws does not depend on the random levels, so the lists of a session are fixed (`Sketch` of C87); the trees of the session have these lists with the levels put in (`trees_session`). Archive points, elements and random numbers of each list: `plan_facts`. Then C97_session is summed over the hash functions and this over the random numbers (`pair_mean`: depth after times depth before, with the mean squares of C98). `C99_leaves`: what an edit puts in has no run longer than `min datagauge batch` (`plan_runs`), and a run gets longer by at most that (`run_between`) |
| C100 | Same model as C75 (`tokNode`, `lrAccBody`). Spec/OpenWork says on texts what is open after a text (`openAfter`), when a token is complete (`Speaks`) and which nodes are not below a known branch entered with the same name and open number (`costWith`). Proof/OpenWork: the work of a fold whose accumulator is determined at each leaf by the last name and something carried (`Carry`): as in C74 an archived stack is known by the name of its archive point, here together with what is carried. Proof/OpenTok: `tokenize` is such a fold where each leaf completes a token (otherwise the stack is not new at the archive point). C100_session, C100_edit (`Near`, `Swapped`); plus_speaking: a sign + in each leaf is enough for the conditions on the text |
| C101 | C100 with the sharing of C79 and C82. The open number at a node is that after the text before the archive point whose name is carried to it (`open_of`, `textTo`); an edit replaces the elements of one part of the sequence (`edit_items`), so before all archive points but the first one after the edit the same number is open (`sep_later`), and the nodes entered from that one are above the second name after the edit (`edited_with`: at most two more ways down than C79). C101_batches, C101_session, C101_session_names. Conditions on texts: `Legible` (Spec/OpenBatches) |
| C102 | C101 with the means of C88 and C98. The tokens are given by `tokensIn` on the text (Spec/MeanTokens), the result of `tokenize` from scratch by `tok_scratch`; legible trees are those whose sequences are legible (`legible_wf`), whatever their levels (`legible_at`). C102_batches for clients, C102_session for the driver |
| C103 | `Model/Generators`: types.rs and `Lang::rand`; `rng.choose` gives any of the ten digits. Counts of remainders (`card_mod`). C103_session: C102 without the condition that texts are readable. C103_mean: a text is legible if each part has a plus sign (`plus_legible`); the parts of the harness are blocks of `datagauge` letters (`built_blocks`), and edits without archive points only add letters to parts (`edit_plus`). The texts with a block without plus sign are counted as a union of products (`lacking_card`). With more changes new archive points can make parts of any length, which need not be legible |
| C104 | `Model/Actions`: the actions as functions that pass on a world (generator, clock, engine), and the driver with its columns of times. A session is described change by change by the relation `Rounds`; the table is that of the only possible session. `Duration::span` reads an arbitrary clock before and after the body. The driver's own spans around each action (`full_edits`, `full_computes`) are not in the model, nor is that readings depend on the work |
| C105 | `Model/Report`: the numbers as rationals in place of `f64` (no rounding; infinite or not a number is `none`), indexing and `num_nanoseconds().unwrap()` with their panics; the text around the numbers and gnuplot are left out. Specification in nanoseconds: sums of the first times, `Overtakes`, `LastOvertaking`. **Violated in three ways**: the crossover is the last overtaking, after which the incremental program may fall behind for good (C105_lost_again); 0 or "off chart" is also printed if it is ahead from the start (C105_zero); the data file lacks the last change (C105_last_missing), because its loop ends at `changes`, not `changes+1` as that of the report. C105_break_even_partial: the crossover is as claimed if no change takes the incremental program longer than the other one. C105_report, C105_panics, C105_session, C105_adder hold in full |
| C106 | No new model: the sessions of C87. First computation: in an unused namespace no call is stored, and a name is used for one call only, so every call runs (`up_visits`, by induction over the tree, for all node programs without calls of their own; folds from C58). The archive points of the first sequence are counted along the calls that build it (`plan_marks`); `unfocus` drops the one at the end. All changes: sum of the means of C87 |
| C107 | No new model: the sessions of C106. Markov's inequality in counting form (`seldom`) from the sums of C106; for crossover.rs together with the exact work of the first fold |
| C108 | No new model: the sessions of C106. The mean of (3/2)^(way to the place of an edit) is at most (m+2)^2/4 (`path_power`, from the theory of C88), so long ways are rare (`path_tail`); union over the edits of a session (`plans_tail`); the work after an edit is bounded by the way to its place (C87) |
| C109 | No new model: the sessions of C84, with any batches of local edits. `path_tail` of C108 for each edit, union over the edits of a batch (`edits_tail`) and over the batches (`batches_tail`); the work after a batch is at most twice the ways to the places of its edits and 1 (C84) |
| C110 | No new model: the sessions of C89 and the counted moves of C90. The tail of the depth (`depth_tail`, from C88) for each edit, union over the edits (`edits_deep`) and batches (`batches_any_tail`) |
| C111 | No new model. Bounds by induction on well-formed trees (`depth_range`); the extremes from the depth as a function of the levels (C88, `deepest_node`); `deepest_counted` by halving; `spaced` makes sequences with given levels |
| C112 | No new model: the sessions of C102, whose work is bounded by the depths of the trees (`tok_depths`); tail of the depth (C110) for each tree of the session, union over them (`plan_tail`) |
| C113 | No new model: the sessions of C98 and C102, whose work is bounded by the sum of the depths before the edits and the archive points added (`list_steps`, `tok_steps`); tail of that sum from the tail of each depth (`edits_deep` of C110), union over edits and batches |
| C114 | No new model: the cursor moves of C90. The left spine of a canonical tree holds the archive points that are higher than all before them (`left_spine`, `seenLt` of C88), which are at most as many as there are levels (`seenLt_few`); the right spine also holds those that are only as high, so equal levels make it long (`C114_end`) |

## Findings about the code

Each is a theorem with a concrete witness.

1. `RazTree::focus` with an index out of range panics on a sequence without archive points (C04), and so does focusing
   an absent name (C09).
2. `memo_from` of a stack that was just archived makes an empty leaf. Then `fold_up`, `fold_up_nl`, the maximum
   programs and harness computations panic (C10, C11, C52, C54), `focus`+`unfocus` may drop an archive point (C06), and
   `is_empty` may be false without elements (C16).
3. Archiving at level 0 loses elements at `unfocus` (C22). `memo_from` needs levels below `u32::MAX` (C17).
4. `RazTree::join` accepts any level: the result may break the level order (C20), a later local edit rebuilds the whole
   tree (C48), and `filter` keeps lower archive points (C46).
5. `AStack::active_len` does not count archived elements, against its documentation (C27).
6. `good_levels` checks the mirror image of the level discipline (C34). Cursors lose data on trees it accepts (C30).
7. Skip list: path length 64 panics in debug builds (C37); a clone that is not archived, or a reused name, loses data
   under the incremental engine (C38).
8. Trie: `union` of two non-empty tries panics, `union_rec` unites left with right branches (C39).
9. Under the incremental engine peeking rebuilds named nodes and can change clones (C42); reused names change older
   stacks, sequences and lists (C40, C43, C55).
10. Harness: an archive point at the very end is dropped at initialisation (C44); insertion into an empty sequence
    panics (C45); the vector harness inserts batches reversed and draws random numbers in another order (C50); `inc_from`
    restarts the name counter and makes duplicate names (C51).
11. Adder: numbers of more than five digits are split and a digit is used twice; the reference tokenizer drops a number
    at the end (C53).
12. The stored calls of a fold do not record its function: folding with two functions in one namespace gives wrong results
    (C57). `Folder`, `TreeFold` and `FindMax` of the harness do not make a namespace of their own.
13. `map` gives the nodes of the result the names of the nodes it maps. In one namespace, to elements of the same type, the
    result overwrites the sequence it was made from, so a clone of it changes (C63). The harness uses `ns`.
14. `memo_from` takes the stack by reference but gives the tree nodes the names of the stack's cells. In one namespace the tree
    overwrites the stack: converting the stack again, also after more pushes, reads a tree node where a stack cell is expected
    (C64). src/memo.rs describes this use. The harness converts in a namespace of its own (eval/src/actions.rs:421), which
    makes both 13 and 14 safe (C69).
15. The lists of tree_to_list.rs use the names of the input: after the next computation of the
    session, under the incremental engine, the previous output has changed (C67_answers_change). The driver never looks at
    it again.
16. A version edited in a namespace leaves the original alone, as src/lib.rs says, but not the other way round: the version
    refers to cells of the original, so later edits of the original change the version (C68_version_follows_original).
17. Leaves of a trie compare and hash by a 64-bit hash of their map only: different maps can have equal tries, and the same map
    iterated in another order can have different ones (C72).
18. The drawing in the documentation of `iraztree_depth_4` has other names than the tree from the root on to the right: the root is
    drawn as `t` and built as `rl` (C78).
19. Reports of the examples: the printed crossover is the last overtaking, after which the incremental program may be behind for good; 0 or
    "off chart" also means ahead from the start; the data files lack the last change (C105).
20. Seen while reading, not modelled (command line parsing is outside the model): crossover.rs:57-58, build_seq.rs:47-48 and unique_elms.rs:75-76
    ask for an argument `seed`, but the options are called `dataseed` and `editseed`, so both seeds are always the defaults.
