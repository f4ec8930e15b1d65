# Design of the formal model of radixdb

The code is cloudpeers/radixdb (`/repo`), a persistent radix tree with a browser file system. The model and the proofs are in Lean 4 under
`lean/Verif`. `properties.jsonl` has the properties in English, `MANIFEST.json` says which theorems belong to which property, `AXIOMS.md` lists the
axioms of every property theorem, `seeded/LOG.jsonl` records the seeded bugs that the theorems were tested against.

## How to read it

| directory | contents |
|-----------|----------|
| `Verif/Tree`, `Verif/Stored`, `Verif/Paged`, `Verif/Browser`, `Verif/Heap` | the model; every definition cites the lines of the code it models |
| `Verif/Spec` | the vocabulary of the theorem statements: maps, byte contents of files, logs, sessions. It does not use the model's functions (the types of calls and results are shared) |
| `Verif/Proofs` | helper lemmas and invariants |
| `Verif/Props` | the property theorems, named after the property (`C01_...`), each with a concrete case beside it that meets its hypotheses |
| `Verif/Conform.lean` | runs the model on the literal inputs of the unit tests of the code (tests of the model, not proofs) |

A theorem whose name ends in `_partial` proves part of its property; what is missing is said in its comment and in the manifest. A theorem whose name has `_false` in it
refutes the full property with a concrete history: the code does not do what the property says (section "Findings").

## Layers of the model

1. **Detached trees** (`Verif/Tree`). `Node` is `TreeNode<Detached>`: prefix, optional value, children (`none` is the header `NONE`, `some l` an `Arc<Vec>`; `some []` and
   `none` differ in the code: `is_leaf` and `==` tell them apart). Lookup with the three ways of finding a child, all combinations, prefix
   operations, the iterators as stack machines. `Reach` is the set of trees that calls of the infallible API produce; `Prog` are programs of calls.
2. **Trees in a store** (`Verif/Stored`). Headers and small-buffer blobs, slices, node records, nodes whose prefix, value and children can be ids of a store; store errors and panics are explicit results
   (`Res`); the fallible API; attach, load, reattach, detach; `MemStore` and the `VecStore` of the tests. What a store has to guarantee is `Lawful`; the theorems are for every such store, and `MemStore`,
   `PagedFileStore` and browser files are shown to be such stores. Release builds and builds with debug assertions are both modelled where they differ.
3. **PagedFileStore** (`Verif/Paged`). A file of bytes; every file operation can fail or be cut off by a crash at any byte; pages, recent blobs, header with two ids, opening after a crash.
4. **Browser crate** (`Verif/Browser`). Chunk names and plans (`Chunk`), one file on the Cache API with failures and closed pages at any operation (`File`, `History`), the file as a store of a tree (`Store`), `PagingFile`
   (`Paging`), all directories and files and the thread that serves them (`Fs`), what SQLite reads (`vfsRead` in `Fs`).
5. **Memory** (`Verif/Heap`). Detached trees as unions of headers and pointers to reference counted cells. Using freed memory, reading the wrong field of a union, or a failed assertion gives no result, so theorems that say there is a
   result say that this does not happen. `Session` is a program that holds any number of trees, values, keys and iterators and calls the API in any order.
   `Threads` are several such programs that run at the same time, step by step, in any interleaving, hand things to each other and lend each other trees; `AttThreads` the same with a store and with caught panics, without lending.
   `Attached`, `AttRead`, `AttIter`, `AttCombine` and `AttSession` are the same for trees attached to a store that may fail.

The layers are connected by proofs: what is stored represents a tree (`Repr`), memory represents a tree (`Holds`, with exact counts), browser files and the paged file are lawful stores.

## Per property

| id | modelled | how it is proved |
|----|----------|------------------|
| C01 | programs of API calls, evaluated on trees and on maps | induction on programs, from C02-C03, C07, C10-C17, C20, C21 |
| C02, C03 | `outer_combine_with`, `left_combine_with` with `single` | corollaries of C15, C17 |
| C04 | `find` | cases of the find result |
| C05, C06 | iterators as stack machines | the stack denotes the rest of the entries; order by induction |
| C07 | fold of insert | induction on the list |
| C08 | `find` | induction; exact characterization; negation for the empty prefix on the empty tree |
| C09 | `scan_prefix` | from C05; exact statement of the wrong keys |
| C10 | `filter_prefix` | induction along `find` |
| C11, C20, C21 | in-place prefix filters | mutual induction on both trees; C20 negation, and the exact result for all `f` (used for the programs of C52 and C80, too) |
| C12-C17 | the six combine functions | mutual induction on both trees |
| C18, C19 | predicate versions | mutual induction |
| C22 | `first_value` etc. | induction, compact shape |
| C23, C55 | `GroupBy` as stack machine | as C05 |
| C24 | `PartialEq` | uniqueness of the compact form; negations in both directions |
| C25 | `is_empty`, `is_leaf` | compact shape; negation |
| C26, C27 | shape invariant | preserved by every call; uniqueness by induction |
| C28, C29, C30, C33 | records, nodes with ids, lawful stores | relation "the node represents the tree"; snapshots because ids stay readable |
| C31, C42 | headers, blobs, ranges | arithmetic |
| C32 | `deserialize` with panics | decision logic; exact set of panicking blobs |
| C34 | in-place functions on nodes with ids | simulation of the detached functions; negation for long stored prefixes |
| C35 | iterators over a failing store | invariant of the stack machine |
| C36 | user functions that fail | negation: the value at the failing key is lost; for every outcome: nothing is invented |
| C37 | `MemStore` as a state machine | invariant over histories |
| C38-C41 | bytes of the file, pages, header, crash points | invariant over histories with crashes |
| C43 | every operation at the store that always panics | no ids occur |
| C44-C47 | chunk sets, plans, contents as a function of offsets; `Spec/Pieces`, `Spec/Changes`: pieces with levels, for the length | invariant over plans and over every prefix of their operations; chunk sets refine pieces |
| C48 | `ranges` | arithmetic |
| C49 | chunk names | round trip by induction on digits |
| C50, C51, C60 | `PagingFileInner` over a browser file | invariant of pages; the length of the file below from C45 (exact, so that for C60 also the general form of what is lost is proved, `C60_lost`); negations |
| C52, C53, C61, C62 | memory with reference counts, sessions | ownership invariant (each cell's count is the number of references to it), refinement of sessions on memory by sessions on maps |
| C68, C69 | threads whose calls are sequences of atomic steps on shared memory, any schedule | rely/guarantee: each call is run against an environment that may do whatever respects the counts (`Mem`); each step keeps the guarantee; world invariant over schedules; return of calls by well-foundedness of the remaining steps |
| C70 | `Touched`: trees after in-place calls with any outcome, with the set of entries ever put in | all-outcome induction over the recursion: predicates on entry sets are kept by each step whatever it returns; negation for long prefixes |
| C71 | in-place combinations over any two stores, with the three converters | refinement to the combination of maps on `Ok`, classification of errors and panics (`Ends`); negations with trees whose `todo!()` branches are reached |
| C72 | the outcome of a call as a function of what the store gives for each id (`ReadsAtMost`) | two stores that agree on the blobs along the key give the same outcome: induction on the key |
| C73 | a store that counts writes; `Changed`: trees with the size of the keys they were changed with, keys of any length and calls with any outcome | potential: the number of nodes in memory bounds the writes; every in-place step makes at most as many as the key has bytes; that a stored node is only loaded where the key goes needs that ids of prefixes start with the first byte of the prefix, which is part of the invariant of C82 |
| C74 | `Accepts`: the store takes so many blobs up to a size | bound on every blob that serialization makes: at most 256 children with records of at most 258 bytes plus an id; number of writes from the number of nodes; growth of the file per write; negation for small pages |
| C75 | any store | serialization does not see the difference between an empty child array and none; trees with equal contents differ in nothing else (`shape_unique`); what can be loaded is what is written for it (inverse of `readOne`); negation for degenerate results of `filter_prefix` |
| C76 | `View`: where the bytes of a blob of a paged file are | the model of reads returns the place of the bytes as well; a view ends before the last id; invariant over histories: the file is only changed in the header and behind the last id, and is never cut off before it |
| C77 | `shared S`: a store as one client sees it while others write to it (`Sharing`: what they write before each write and each read, and the log of all writes) | the shared store is lawful if the store is, so every theorem about lawful stores holds for it; blobs carry over from one to the other; two clients: the two logs are the two sides of one sequence |
| C78 | the bound on the levels of recursion that the functions of the model take (`Res.deep`), `Node.height` | height ≤ longest key + 1 by induction (prefixes of children are not empty, every subtree of a compact tree has an entry); the refinement proofs need no more levels than the height, or for lookups the length of the key; a family of trees that reaches the bound |
| C79 | trees attached to a store as unions of headers and pointers to reference counted cells (`Heap/Attached`, `Heap/AttRead`, `Heap/AttIter`, `Heap/AttCombine`), sessions with one store that may do anything (`Heap/AttSession`) | simulation: each function in memory against the function on plain values of `Verif/Stored`, for results and errors; a session keeps the counts exact; frame lemmas on plain values |
| C80 | sessions of C79; `Spec/AttMaps`: what a call may show and leave behind, as a relation on lists of maps, byte strings and rests of iterators, plus the maps saved under ids | refinement: each slot of the session on plain values stands for its item (`Rel`), kept by every call and by everything that only adds to the store; with C79 this carries over to memory; a second session starts from the saved maps only |
| C81 | sessions of C79/C80; `Spec/AttSafe`: which calls are about known things | progress: for related states (`Rel` of C80) every safe call has a depth with which it returns; what it gives does not depend on the depth (monotone in the fuel), so sessions compose; combinations that read attached trees by the lemmas of C90 and C91, if the keys fit; negation for the others (F8) |
| C82 | `Spec/Format`: the data format written down from the documentation (`src/lib.rs` 104-200), not from the code; `serialize`, `read_one`, `try_load` as before | `Rep` (the meaning of stored nodes) and the documented format are equivalent, by induction; for trees from memory a second induction over `serialize` with the exact rules for writers; for all other histories (`FromDocs`, whatever the outcomes of calls) an invariant about the ids in nodes (blobs under ids of prefixes and values are long, ids of children are ids of exact blobs), kept by every operation in place, and a proof that documented bytes describe one tree only, which joins the exact rules with the map; trees written by other programs are a constructor of `Att`, so all theorems about attached trees cover them; programs of C80 may start with such trees in the store |
| C83 | sessions of C80 over `PagedFileStore` (with crashes, C39) and over a browser file (C44), one after the other; `Spec/Lives`: what lives may see, and the excuses for errors | C80 with the saved maps carried from life to life; an error needs a reason (case analysis of the relation of C80), and reads and small writes succeed while nothing fails: file operations without failures keep the store open (a combinator proof over the calls of the store) |
| C84 | `Browser/Vfs`: all of vfs.rs over the whole browser file system of C63; `Spec/Vfs`: which answers make sense (`VExplains`), calls as SQLite may make them (`Sound`) | each call of SQLite is one or two calls of the file system, so that the simulation of C63 carries over; success from C44 by an invariant: each file came from few calls that do not reach far (`Made`), the open files stay open; partial: the size (F13), witnesses `C84_false`, `C84_panic_false` |
| C85 | `Stored/Caught`, `Heap/Caught`: sessions of C79 with steps of iterators that are left as they are when the store or `descend` panics; other calls that panic are the calls of C79 that fail, since unwinding drops the locals that `?` drops; `Spec/Caught`: which logs an interrupted iterator may have (`SkipLog`) | the simulation of C79 for the new steps; for iterators induction over the stack, for values with the keys of the nodes as ghost state; partial: panics of the code itself; false for groups (F20, witness `C85_group_false`) |
| C86 | `Heap/AttThreads`: threads that make the calls of C85 as sequences of atomic steps, in any interleaving; what the store says in a call is part of the schedule (any state, one for the whole call); `Spec/AttThreads`: what threads may see that share nothing | rely/guarantee: the simulation of C79/C85 is stated for memory that others change while a call runs; here it is put together for all threads, and every step of one thread is shown to be an allowed change for the others |
| C87 | the threads of C86 with a store that keeps what is written (`Lasting`), in particular a store that all threads write to in one order (`shared` of C77, `OneOrder`); `Spec/ThreadMaps`: each thread has items as in C80, the saved maps are common | what is held is right for the state of the store at some earlier return; `Mono` carries it to the start of the next call, C80 gives the call, C86 the interleaving; calls that do not panic by C81 |
| C88 | `Blobs/Memory`: objects with reference counts, blobs, a program that holds blobs; `Blobs/Stores`: the tables of the three stores with the objects they refer to (the files are the models of C36-C51); `Spec/Blobs`: the same program with blobs as plain values | counts are the numbers of references (`Inv`), each call of a store is related to the call without memory (`Keeps`, with rules for sequences of calls in `Proofs/BlobLogic`); `Arc::make_mut` gives a page that nothing else refers to; the bytes behind maps by C76 |
| C89 | `Stored/Lazy`: `n` calls of `next` on the iterators of `Stored/Read`; "reads" as in C72 | the nodes an iterator visits before it returns an entry lie on the path to that entry (`pops_le`), each has a byte of its key, and their blobs determine the step (`next0_loc`); values by a projection of the entry iterator; first and last by induction on the tree |
| C90 | the combinations of C56 (`Stored/Combine`); `Spec/Stops`: where the keys of a map end or part | a compact tree has a node exactly where its map stops; so if the maps fit, the common prefix of two nodes that meet is the whole prefix of the stored one (`no_split`), and no borrowed node is cut; recursion with the invariant `Meet`; for the unions also `Shared` (no value of a stored tree alone is taken over), `Within` (no child of a stored tree alone is taken over) and `Parts` (a stored node is not cut where the keys part), invariants `MeetL` and `MeetO`; that the union needs them is shown by two examples; the result by C56 |
| C91 | the operations of C71 (`Stored/Update`) | as C90; the target is owned, so only the other tree has to fit (`Meet` with no condition on the target); for unions the other tree fits the union of both (`MeetW`), so it is not cut where the keys part, either; what is taken over goes through the converter, which can panic only on values, and not on those of the same store (`ConvNP`); the state of the target after each call still stands for some tree, so the assertions of `canonicalize` hold |
| C92 | `Browser/Recover`: `open` (sets of ranges as lists of ranges), its plan run by the model of `execute_plan`; `Spec/Recover`: how far a file has no gap | the plan is safe below the gap (`Safe`, `openSteps_safe`); an invariant of the loop says that the chunks done do not overlap and are what is covered (`openSteps_fin`); written bytes stay covered in histories without truncation (`run_covers`) |
| C93 | `Browser/Recover`: `retain_relevant` | false (`C93_false`); induction over the sorted chunks for the rest |
| C94 | `Spec/Changes`: pieces with levels, also for appending and cutting off | the chunks refine the pieces through every call that returned `Ok` (`run_changes`); false when a blob is cut (`C94_same_place`), proved for a cut between blobs (`C94_between_partial`); a piece that no call touches keeps its bytes (`Kept`, `C94_read_back_partial`) |
| C54 | binary search, full fan-out, linear search | loop invariant |
| C56 | copying combinations on nodes with ids | simulation; the branches that are `todo!()` are reached (negations) |
| C57 | tree store over `PagedFileStore` with crashes | C28/C29 and C39 |
| C58, C59 | browser file as a store, tree in it | C44 and C28/C29 |
| C63-C66 | all directories and files, the thread, loading the page | simulation: each file of the whole system against the file alone; negations |
| C67 | `DatabaseFile::read` | from C44, C45 |

## Findings

Where the code does not do what the property says. Each has a theorem with a concrete witness, unless marked (read).

* F1 `scan_prefix`: if the prefix ends at a node, an end piece of it is doubled in the keys (C09).
* F2 `retain_prefix_with` removes keys that it should keep (C20). A key of the other tree that `f` rejects hides the selected keys below it, unless the keys of the target part there (`C20_retain_prefix_with_exact`); so what is kept of an entry depends on the other entries of the target.
* F3 `==` is wrong in both directions: trees with the same contents can differ after in-place operations; trees that differ in an empty value can be equal (C24).
* F4 `is_leaf` is false for a one-entry tree after in-place changes (C25).
* F5 `has_prefix("")` is true on the empty tree (C08).
* F6 `filter_prefix("", s)` on a tree without entries makes a node with a prefix but no entry; `has_prefix`, `is_empty`, `first_value`, `left_combine_pred` are wrong on it (C08, C19, C22, C25, C26).
* F7 `try_remove` and others on a tree in a store: `canonicalize` joins prefix bytes with the bytes of an id when a prefix of 128 bytes or more is stored; entries are lost or invented, debug builds panic (C34, C70).
* F8 unimplemented branches (`todo!()`) are reached in combinations of trees in stores (C56, C71, C81).
* F9 a failing user function loses the value at the key at which it failed (C36).
* F10 a node record whose children field has a data header makes `try_load` panic (C32); `BorrowedTreeNode::to_owned` too (read).
* F11 `canonicalize` forgets the `Arc` of an empty child vector: a leak (C62).
* F12 `PagedFileStore`: blobs of 2^32 bytes or more (C38); `last_id` can be missing or old in the window between two commits (C40); reading ids that are not 8 bytes long panics (C41); `sync` does nothing, a different page size on opening is not noticed, page size 0 divides by 0 (read).
* F13 browser files: the length is that of the last chunk, not the end of the furthest write, so overwriting shortens the file: reads fail (C44, C45), and after any overwrite no write to another place, such as the end, changes the length (`C45_stuck`), crashes within a write lose bytes (C46), truncating loses bytes (C47; truncating to 0 makes the lengths right again, `C47_reset_partial`), SQLite sees fewer bytes (C67), also when it only writes the first page of a database again (C84); offsets from 2^63 on are refused (C48).
* F14 file names with `?`: chunks are not found again (C49), deleting `a?b` deletes `a` (C63).
* F15 `PagingFile`: a blob of the page size minus 8 is accepted and lost (C50), some larger ones panic (C51), two syncs in different pages lose every blob after the page of the first (C60; in general in `C60_lost`), and a second session that finishes the page on which the first ended loses what it puts after that page (`C60_next_session_lost`).
* F16 `file_exists` is true for an opened empty file until the page is loaded again, then false (C65); `delete_file` of it returns `Ok(false)` (C64).
* F17 `delete_dir` leaves the directory in the table of open directories: old bytes stay visible, new ones are lost (C66).
* F18 `Blob::slice` with the bound `Excluded(usize::MAX)` wraps in release builds (read). `MemStore` ids overflow after 2^64 writes (C37_overflow).
* F19 the children of a node are stored in one blob, of up to 256 records with two fields of up to 127 bytes: with pages of less than 68 kB a tree with small keys and values may be refused (C74).
* F20 `GroupBy::next0` appends the prefix of a node to the path before it calls `descend` and loads the children: if one of these panics and the panic is caught, all later groups have keys with these bytes put in (C85).
* F21 Functions for cleaning up chunks that are not called: `retain_relevant` starts at level 0 and accepts only the next level, so it discards a file whose first chunk was overwritten twice (`C93_false`); `open` deletes what was written behind a gap (`C92_gap_lost`), newest first, so that older bytes show up in between (`C92_stale`), and does not repair a wrong length (`C92_length_stays`).
* F22 `truncate` within a blob writes what is left of it to a higher level, so that its end remains the length of the file: the next two blobs that are put get the same place, and reading the first gives the second (`C94_same_place`, `C94_lost`).

## Trusted base

* The kernel of Lean 4.33. No axioms of our own, no `sorry`, no `native_decide`, no `bv_decide`. The property theorems depend on at most `propext`, `Classical.choice` and `Quot.sound`; `AXIOMS.md` has the list per theorem.
* The reading of the Rust code into definitions. Rust's own libraries mean what their documentation says: `Vec`, `Arc`, `BTreeSet`, `HashMap`, `slice::binary_search`, `u64::to_be_bytes`; `inplace_vec_builder::InPlaceVecBuilder` (a dependency that is not in `/repo`) is assumed to
  give the vector of the kept and inserted elements in order; `range_collections::RangeSet` (C92) is taken to be a set of numbers, iterated by its longest ranges in ascending order; of one that is dropped halfway nothing is assumed, or, where `Keeps` is a hypothesis (C36, C70, C73), that what it leaves is a sublist of the elements done and left.
* Files (C38-C41, C57): operations of one process take effect in order; a crash keeps a prefix of them, of a write also a prefix of its bytes; `set_len` happens or not; a memory map shows the file. This is the death of the process, not the loss of power (the code does not call fsync).
* Browser (C44-C51, C58-C60, C63-C67): cache operations are atomic, happen in order and last; one that reports an error had no effect; `caches.delete` takes a cache from its name, who holds it can go on using it; one `WebCacheFs` at a time. URLs are parsed as far as `?` and `#` (other special characters are excluded by
  `Plain`). 32 bit `usize`; overflow checks on.
* Memory (C52, C53, C61, C62, C68, C69, C79): steps of threads are atomic and happen in one order (the orderings used in `Arc` make this so; `Arc::try_unwrap`, `get_mut` and `make_mut` test the count and take out the contents in one step, which is right because a count of one cannot be raised by anybody else); a thread reads a child vector at once; of the things that Rust can lend only trees are (`&RadixTree`), with the rules that the borrow checker enforces: a lent tree is neither moved, dropped nor changed until there are no references left; addresses are not reused and cannot be observed; a mutable borrow of an exclusively owned child vector takes it out of its cell and puts it back into a new one; user functions choose one of the values they are given; the function of `group_by` sees the path.

## What is modelled and what is not

Modelled (cited in the definitions):

* `src/node/mod.rs`: all of `TreeNode` and its helpers, the three ref wrappers' conversions used by them, `find`, all combinations, in-place versions and predicates, prefix functions, iterators, `RadixTree` with the infallible and the fallible API, serialization, attaching and detaching, reference counts and drops (of detached trees and of attached ones).
* `src/store`: `BlobStore`, `Blob` slices, `MemStore`, `PagedFileStore`, the `Detached` store; `src/lib.rs` where it has code; the `VecStore` of `src/tests.rs`.
* `browser/src`: `web_cache_fs.rs`, `sync_fs.rs`, `paging_file.rs`, `vfs.rs` (all; the crate `sqlite_vfs`, which calls it, is not modelled), intervals in `lib.rs`.

Not modelled:

* `Debug`/`Display` output, `Deref`, `AsRef`, `downcast` and `From` conversions that only change types.
* Unwinding after a panic of the code itself (for panics of the store and of passed functions see C85). Reference counts of `Blob` owners other than in C88 (trees of C79 hold blobs as values; several handles of one store, blobs handed between threads and the mutex of the stores are not in C88); the writes of threads to a store are part of the schedule (C87: each call says what others write before each of its writes and reads, and all calls must agree on one order), not steps of the threads themselves: single calls of `read` and `write` of a store happen one after the other (the code holds a lock or a queue for each).
* `browser.rs` (a test program), the JavaScript glue in `browser/src/lib.rs`, `examples`, tests.
* Allocation failure, the size of the stack (C78 bounds the levels of recursion, not the bytes they take), timing.
