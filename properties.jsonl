{"id": "C01", "title": "A radix tree is a map", "statement": "For every program built from the public tree-building calls (default, single, leaf, insert, remove, remove_prefix, outer/inner/left_combine and their _with variants, remove_prefix_with, retain_prefix_with with an always-true predicate, filter_prefix, from_iter), get(k) on the resulting tree returns exactly what the same program yields when each call is replaced by the corresponding operation on a plain finite map from byte strings to byte strings.", "quantifier": "all finite programs (histories) of API calls, all keys, all values, all combining functions, all probe keys", "why_tests_cant": "The state space is an unbounded tree of byte strings; the structural case split (identical prefix / one a prefix of the other / disjoint) recurses to any depth and interacts with earlier splits and merges, so no finite set of histories covers it.", "anchors": ["src/node/mod.rs: RadixTree::{get,insert,remove,outer_combine,inner_combine,left_combine,...}, find, outer_combine_with, left_combine_with"]}
{"id": "C02", "title": "insert overwrites exactly one key", "statement": "After t.insert(k, v), t.get(k) = v, and t.get(k') is unchanged for every k' != k.", "quantifier": "all trees reachable by the API, all k, k', v (including empty keys, empty values, keys that extend or are extended by existing keys)", "why_tests_cant": "Insert may split an existing node at any byte position, and the frame condition is about every other key.", "anchors": ["src/node/mod.rs: RadixTree::try_insert, outer_combine_with, outer_combine_children_with, TreeNode::split"]}
{"id": "C03", "title": "remove deletes exactly one key", "statement": "After t.remove(k), t.get(k) is None and t.get(k') is unchanged for every k' != k; removing an absent key changes no lookup.", "quantifier": "all reachable trees, all keys", "why_tests_cant": "Removal re-merges nodes; whether the merge keeps all other keys is a statement about unboundedly many keys.", "anchors": ["src/node/mod.rs: RadixTree::try_remove, left_combine_with, TreeNode::canonicalize"]}
{"id": "C04", "title": "contains_key agrees with get", "statement": "t.contains_key(k) is true iff t.get(k) is Some(_).", "quantifier": "all reachable trees, all keys", "why_tests_cant": "Ranges over all keys and trees.", "anchors": ["src/node/mod.rs: TreeNode::contains_key, TreeNode::get"]}
{"id": "C05", "title": "iter is sorted, complete and duplicate free", "statement": "t.iter() yields keys in strictly increasing lexicographic byte order, and yields (k, v) iff t.get(k) = Some(v).", "quantifier": "all reachable trees", "why_tests_cant": "Order and completeness are statements about every pair of keys in a tree of any depth; the iterator is a stack machine whose path buffer must stay in step with the stack.", "anchors": ["src/node/mod.rs: KeyValueIter::next0, RadixTree::try_iter, IterKey"]}
{"id": "C06", "title": "values yields the values of iter in the same order", "statement": "t.values() equals the sequence of values of t.iter(), element by element.", "quantifier": "all reachable trees", "why_tests_cant": "Two different stack machines must agree on all trees.", "anchors": ["src/node/mod.rs: ValueIter::next0, KeyValueIter::next0"]}
{"id": "C07", "title": "from_iter keeps the last value per key and ignores order otherwise", "statement": "Collecting pairs into a tree gives for each key the value of its last occurrence; two sequences with pairwise distinct keys that are permutations of each other give trees with the same contents and iteration sequence.", "quantifier": "all finite sequences of pairs, all permutations", "why_tests_cant": "Factorially many insertion orders.", "anchors": ["src/node/mod.rs: impl FromIterator for RadixTree"]}
{"id": "C08", "title": "has_prefix is true iff some key starts with the prefix", "statement": "t.has_prefix(p) is true iff there is a key k in t that starts with p (doc: 'True if there are keys at or below the given prefix').", "quantifier": "all reachable trees, all prefixes", "why_tests_cant": "Quantifies over all keys; the empty tree with the empty prefix is a corner case random tests did not include.", "anchors": ["src/node/mod.rs: TreeNode::has_prefix, RadixTree::try_has_prefix, find"]}
{"id": "C09", "title": "scan_prefix yields exactly the entries below the prefix", "statement": "t.scan_prefix(p) yields, in ascending order, exactly the entries (k, v) of t.iter() whose key starts with p.", "quantifier": "all reachable trees, all prefixes", "why_tests_cant": "The existing property test draws random prefixes that almost never hit a node boundary exactly; the claim is about every alignment of p with node boundaries.", "anchors": ["src/node/mod.rs: scan_prefix, KeyValueIter"]}
{"id": "C10", "title": "filter_prefix selects a subtree and substitutes the prefix", "statement": "For r = t.filter_prefix(p, s): r.get(k) = Some(v) iff k = s ++ x and t.get(p ++ x) = Some(v) for some x.", "quantifier": "all reachable trees, all p, s, k", "why_tests_cant": "Unbounded prefixes and alignments.", "anchors": ["src/node/mod.rs: filter_prefix, RadixTree::try_filter_prefix"]}
{"id": "C11", "title": "remove_prefix removes exactly the keys with the prefix", "statement": "After t.remove_prefix(p), t.get(k) is None when k starts with p, and unchanged otherwise.", "quantifier": "all reachable trees, all p, k", "why_tests_cant": "Frame condition over all keys.", "anchors": ["src/node/mod.rs: RadixTree::try_remove_prefix, remove_prefix_with"]}
{"id": "C12", "title": "outer_combine is the pointwise outer join", "statement": "a.outer_combine(b, f).get(k) is f(va, vb) when both trees have k, the only value present when exactly one has k, and None otherwise; a result None of f deletes the key.", "quantifier": "all pairs of reachable trees, all f, all k", "why_tests_cant": "All pairs of trees and all alignments of their nodes.", "anchors": ["src/node/mod.rs: outer_combine, outer_combine_children, OuterJoin"]}
{"id": "C13", "title": "inner_combine is the pointwise inner join", "statement": "a.inner_combine(b, f).get(k) is f(va, vb) when both have k and None otherwise.", "quantifier": "all pairs of reachable trees, all f, all k", "why_tests_cant": "As for the outer join.", "anchors": ["src/node/mod.rs: inner_combine, inner_combine_children"]}
{"id": "C14", "title": "left_combine is the pointwise left join", "statement": "a.left_combine(b, f).get(k) is f(va, vb) when both have k, va when only a has k, None otherwise.", "quantifier": "all pairs of reachable trees, all f, all k", "why_tests_cant": "As for the outer join.", "anchors": ["src/node/mod.rs: left_combine, left_combine_children"]}
{"id": "C15", "title": "outer_combine_with is outer_combine in place", "statement": "After a.outer_combine_with(b, f) every lookup in a gives what a.outer_combine(b, g) would give, g being f seen as a function to an optional value.", "quantifier": "all pairs of reachable trees, all f (including those that delete), all k", "why_tests_cant": "Two separately written algorithms must agree on all pairs of trees.", "anchors": ["src/node/mod.rs: outer_combine_with, outer_combine_children_with, DetachConverter, DowncastConverter"]}
{"id": "C16", "title": "inner_combine_with is inner_combine in place", "statement": "After a.inner_combine_with(b, f) every lookup in a gives what a.inner_combine(b, g) would give.", "quantifier": "all pairs of reachable trees, all f, all k", "why_tests_cant": "As above.", "anchors": ["src/node/mod.rs: inner_combine_with, inner_combine_children_with"]}
{"id": "C17", "title": "left_combine_with is left_combine in place", "statement": "After a.left_combine_with(b, f) every lookup in a gives what a.left_combine(b, g) would give.", "quantifier": "all pairs of reachable trees, all f, all k", "why_tests_cant": "As above.", "anchors": ["src/node/mod.rs: left_combine_with, left_combine_children_with"]}
{"id": "C18", "title": "inner_combine_pred decides an existential over common keys", "statement": "a.inner_combine_pred(b, f) is true iff some key k is in both trees with f(va, vb) true.", "quantifier": "all pairs of reachable trees, all predicates", "why_tests_cant": "Existential over all keys with early exit.", "anchors": ["src/node/mod.rs: inner_combine_pred, inner_combine_children_pred"]}
{"id": "C19", "title": "left_combine_pred decides an existential over keys of the left tree", "statement": "a.left_combine_pred(b, f) is true iff some key k of a is absent from b, or is in both with f(va, vb) true (so with f = (va != vb) it decides that a is not a sub-map of b).", "quantifier": "all pairs of reachable trees, all predicates", "why_tests_cant": "Soundness of the early exits depends on no subtree being empty, an invariant over all histories.", "anchors": ["src/node/mod.rs: left_combine_pred, left_combine_children_pred"]}
{"id": "C20", "title": "retain_prefix_with keeps exactly the keys below a selected key of the other tree", "statement": "After a.retain_prefix_with(b, f), a.get(k) is unchanged if some key q of b with f(b[q]) true is a prefix of k, and None otherwise.", "quantifier": "all pairs of reachable trees, all predicates f, all k", "why_tests_cant": "Only constant predicates are tested; the claim is for all predicates.", "anchors": ["src/node/mod.rs: retain_prefix_with, retain_prefix_children_with"]}
{"id": "C21", "title": "remove_prefix_with removes exactly the keys below a selected key of the other tree", "statement": "After a.remove_prefix_with(b, f), a.get(k) is None if some key q of b with f(b[q]) true is a prefix of k, and unchanged otherwise.", "quantifier": "all pairs of reachable trees, all predicates f, all k", "why_tests_cant": "As above.", "anchors": ["src/node/mod.rs: remove_prefix_with, remove_prefix_children_with"]}
{"id": "C22", "title": "first/last value and entry are the ends of iter", "statement": "first_value/last_value/first_entry(p)/last_entry(p) return the value / (p ++ key, value) of the first / last element of t.iter(), and None iff t.iter() is empty.", "quantifier": "all reachable trees, all starting prefixes p", "why_tests_cant": "Depends on no subtree being empty, an invariant over all histories.", "anchors": ["src/node/mod.rs: first_value, last_value, first_entry, last_entry"]}
{"id": "C23", "title": "group_by partitions the entries in order", "statement": "For every descend predicate, concatenating the iterations of the trees yielded by t.group_by(descend) gives exactly t.iter().", "quantifier": "all reachable trees, all descend predicates", "why_tests_cant": "Exponentially many ways to cut a tree.", "anchors": ["src/node/mod.rs: GroupBy::next0, RadixTree::try_group_by"]}
{"id": "C24", "title": "== on trees means same contents", "statement": "a == b iff a.get(k) = b.get(k) for every k.", "quantifier": "all pairs of reachable trees", "why_tests_cant": "Requires that equal contents built along different histories have equal representations.", "anchors": ["src/node/mod.rs: impl PartialEq for TreeNode<Detached>, impl PartialEq for RadixTree"]}
{"id": "C25", "title": "is_empty and is_leaf are facts about the contents", "statement": "t.is_empty() is true iff no key is present; t.is_leaf() is true iff the tree has at most one entry.", "quantifier": "all reachable trees", "why_tests_cant": "Depends on the node representation after every history.", "anchors": ["src/node/mod.rs: RadixTree::is_empty, RadixTree::is_leaf, TreeNode::canonicalize"]}
{"id": "C26", "title": "Every reachable tree has the documented compact shape", "statement": "In every tree produced by the API, each node below the root has a non-empty prefix, siblings start with different bytes and are in increasing order, each such node has a value or at least two children, and the number of nodes is at most twice the number of entries plus one.", "quantifier": "all histories of API calls", "why_tests_cant": "Invariant over all histories.", "anchors": ["src/node/mod.rs: TreeNode::canonicalize, TreeNode::split, outer_combine_with", "src/lib.rs: format documentation"]}
{"id": "C27", "title": "The compact shape is determined by the contents", "statement": "Two trees in compact shape with the same contents have the same root prefix, root value and recursively the same children.", "quantifier": "all pairs of reachable trees", "why_tests_cant": "Uniqueness of representation over all trees.", "anchors": ["src/node/mod.rs: TreeNode::canonicalize"]}
{"id": "C28", "title": "Attaching to a store and detaching again loses nothing", "statement": "For every tree t and every store whose write returns ids of 1 to 126 bytes that read back, t.try_attached(store) succeeds and try_detached of it has exactly the contents of t.", "quantifier": "all trees (any prefix, value and fan-out sizes), all conforming stores and store states", "why_tests_cant": "Sizes cross several encoding thresholds (inline, 127/128 bytes, id blobs) at any depth.", "anchors": ["src/node/mod.rs: TreeNode::serialize, TreeNode::deserialize, TreeNode::try_attached, TreeNode::detached, BorrowedTreeNode::read_one"]}
{"id": "C29", "title": "A committed root id is a permanent snapshot", "statement": "If try_reattach returned id on a tree with contents m, then RadixTree::try_load(store, id) yields a tree with contents m at any later time, whatever else has been written to the store since.", "quantifier": "all trees, all later histories of store writes", "why_tests_cant": "Ranges over all later histories.", "anchors": ["src/node/mod.rs: RadixTree::try_reattach, RadixTree::try_load", "src/store/blob_store.rs: BlobStore"]}
{"id": "C30", "title": "Node records are self-delimiting and decode to what was encoded", "statement": "Reading one node from (record of n) ++ rest returns the fields of n and exactly rest; hence a concatenation of records decodes to the same sequence of nodes.", "quantifier": "all prefixes, values, ids and trailing bytes", "why_tests_cant": "All lengths around the one-byte header limits, all continuations.", "anchors": ["src/node/mod.rs: OwnedBlobRef::serialize, BorrowedTreeNode::read_one, Header"]}
{"id": "C31", "title": "Small-buffer blob storage is lossless", "statement": "Storing any byte string as a prefix or value and reading it back gives the same bytes, and the header reports correctly whether it is present, inline or on the heap.", "quantifier": "all byte strings", "why_tests_cant": "All lengths including the 8/9 and 126/127/128 boundaries.", "anchors": ["src/node/mod.rs: CompactOwnedBlob::copy_from_slice, CompactOwnedBlob::slice, Header::data, Header::id"]}
{"id": "C32", "title": "Malformed stored bytes are rejected, not a panic", "statement": "RadixTree::try_load on a stored blob with arbitrary bytes returns Ok or Err; it does not panic.", "quantifier": "all byte strings as blob contents", "why_tests_cant": "All byte strings.", "anchors": ["src/node/mod.rs: TreeNode::deserialize, BorrowedTreeNode::read_one, BorrowedTreeNode::to_owned"]}
{"id": "C33", "title": "Reads on an attached tree agree with the detached tree", "statement": "try_get, try_contains_key, try_has_prefix, try_iter, try_values, try_scan_prefix, try_filter_prefix, try_first_value, try_last_value, try_first_entry and try_last_entry on a tree attached to a store give the results of the same calls on the detached tree with the same contents.", "quantifier": "all trees, all conforming stores, all keys", "why_tests_cant": "Every node can be in memory or behind an id, in any mixture.", "anchors": ["src/node/mod.rs: find, TreeNodeRef, BorrowedTreeNodeIter, TreeNodeIter"]}
{"id": "C34", "title": "Updates on an attached tree agree with the detached tree", "statement": "try_insert, try_remove and try_remove_prefix on a tree attached to a store change lookups exactly as insert, remove and remove_prefix do on the detached tree with the same contents.", "quantifier": "all trees (any prefix lengths), all conforming stores, all histories of updates and re-attaches", "why_tests_cant": "Needs every mixture of loaded and unloaded nodes with prefixes on both sides of the 128 byte limit.", "anchors": ["src/node/mod.rs: outer_combine_with, left_combine_with, remove_prefix_with, TreeNode::canonicalize, TreeNode::load_children_mut"]}
{"id": "C35", "title": "An iterator reports a store error once and then ends", "statement": "If the store fails during iteration, the iterator yields the entries before the failure in order, then one Err, then None forever.", "quantifier": "all trees, all points of failure", "why_tests_cant": "All failure points.", "anchors": ["src/node/mod.rs: KeyValueIter::next, ValueIter::next, GroupBy::next"]}
{"id": "C36", "title": "A failing combining function leaves the target tree unchanged", "statement": "If f returns Err during try_outer_combine_with / try_inner_combine_with / try_left_combine_with, the target tree has the contents it had before the call.", "quantifier": "all trees, all f, all points of failure", "why_tests_cant": "All failure points.", "anchors": ["src/node/mod.rs: outer_combine_with, inner_combine_with, left_combine_with, TreeNode::take_value_opt"]}
{"id": "C37", "title": "MemStore reads back every blob under a fresh id", "statement": "For every history of writes by any interleaving of clients, each write returns an id different from all earlier ones, and reading an id returns the bytes written under it, at any later time.", "quantifier": "all histories and interleavings of reads and writes with fewer than 2^64 writes", "why_tests_cant": "All schedules.", "anchors": ["src/store/mem_store.rs: MemStore"]}
{"id": "C38", "title": "PagedFileStore reads back every blob", "statement": "For every page size and every history of successful writes, reading a returned id at any later time returns exactly the bytes written, and different writes return different ids.", "quantifier": "all page sizes that are positive multiples of 8, all histories of writes of all admissible sizes", "why_tests_cant": "Depends on arithmetic at every page boundary.", "anchors": ["src/store/paged_file_store.rs: Inner::append, Inner::bytes, Page::bytes, Inner::close_page, Inner::load_recent"]}
{"id": "C39", "title": "PagedFileStore survives a crash between any two file operations", "statement": "After a crash at any point of any history (also in the middle of a write of data), reopening the file succeeds and every id returned by a write that completed before the crash still reads back its bytes, and new writes work.", "quantifier": "all histories, all crash points, repeated crashes", "why_tests_cant": "All crash points.", "anchors": ["src/store/paged_file_store.rs: Inner::new, Inner::commit, Inner::append, Inner::close_page"]}
{"id": "C40", "title": "last_id names the last completed write", "statement": "On a store with at least one completed write, last_id() after any reopen is the id of a completed write (so a reader can always load the last root).", "quantifier": "all histories, all crash points", "why_tests_cant": "The window between two commits inside one append.", "anchors": ["src/store/paged_file_store.rs: PagedFileStore::last_id, Inner::new, Inner::append, Inner::close_page"]}
{"id": "C41", "title": "PagedFileStore refuses what it cannot store and never misreads a bad id", "statement": "A write of more than page_size - 8 bytes returns Err and changes nothing; reading any 8 byte id returns Ok or Err without panic, and reading an id of another length returns Err.", "quantifier": "all data sizes, all ids", "why_tests_cant": "All 2^64 ids and all sizes.", "anchors": ["src/store/paged_file_store.rs: Inner::append, PagedFileStore::read, Page::bytes"]}
{"id": "C42", "title": "Blob slices denote the right bytes", "statement": "blob.slice(a..b) of an owned or borrowed blob has the bytes a..b of the blob for all range forms, and panics exactly when the range is out of bounds.", "quantifier": "all blobs, all ranges", "why_tests_cant": "All ranges including empty and unbounded forms.", "anchors": ["src/store/blob_store.rs: Blob::slice, Blob::slice_ref"]}
{"id": "C43", "title": "Operations on detached trees never touch a store", "statement": "No operation of the infallible API on trees built through it reads from or writes to the (panicking) Detached store, nor reaches an unimplemented branch.", "quantifier": "all histories of API calls", "why_tests_cant": "Absence of a panic over all histories.", "anchors": ["src/store/blob_store.rs: Detached", "src/node/mod.rs: TreeNode::load_prefix, TreeNode::load_children, ValueRef::detached"]}
{"id": "C44", "title": "A browser file returns what was last written at each offset", "statement": "After any sequence of writes to a file of the browser file system, reading a byte range gives at each offset the last byte written there, and 0 where nothing was written.", "quantifier": "all sequences of writes at all offsets and sizes, all read ranges", "why_tests_cant": "All overlap patterns.", "anchors": ["browser/src/web_cache_fs.rs: add, execute_plan, read, WebCacheFile::write, WebCacheFile::read"]}
{"id": "C45", "title": "The length of a browser file is the end of the furthest write", "statement": "After any sequence of writes, length() is the maximum of offset + size over the writes.", "quantifier": "all sequences of writes", "why_tests_cant": "All overlap patterns.", "anchors": ["browser/src/web_cache_fs.rs: WebCacheFile::prev, WebCacheFile::length, ChunkMeta"]}
{"id": "C46", "title": "A write to a browser file is atomic under crashes", "statement": "If the page is closed between any two cache operations of a write, the bytes of the file are those before or those after the complete write, and later writes still behave correctly.", "quantifier": "all chunk states (also left by earlier crashes), all writes, all crash points", "why_tests_cant": "All crash points and leftovers.", "anchors": ["browser/src/web_cache_fs.rs: add, execute_plan, Op"]}
{"id": "C47", "title": "Truncating a browser file keeps the bytes below the limit", "statement": "After truncate(n), the bytes below n are unchanged and none at or above n remain, also if the page is closed between the operations for the part below n.", "quantifier": "all chunk states, all n", "why_tests_cant": "All chunk layouts.", "anchors": ["browser/src/web_cache_fs.rs: truncate"]}
{"id": "C48", "title": "Copy ranges for overlapping intervals are correct", "statement": "For overlapping source and target intervals, ranges(src, tgt) gives two ranges of equal length, inside the two buffers, that denote exactly the intersection of the intervals.", "quantifier": "all pairs of overlapping intervals of naturals", "why_tests_cant": "All interval pairs.", "anchors": ["browser/src/lib.rs: ranges, overlap, contains"]}
{"id": "C49", "title": "Chunk names round trip", "statement": "Parsing the request string of a chunk gives back the file name, level, offset and length.", "quantifier": "all 64 bit levels, offsets and lengths", "why_tests_cant": "All numbers; widths are minimum widths only.", "anchors": ["browser/src/web_cache_fs.rs: ChunkMeta::to_request_str, ChunkMeta::from_str"]}
{"id": "C50", "title": "PagingFile loads every appended item", "statement": "For every history of appends and syncs, loading a returned offset gives exactly the appended bytes.", "quantifier": "all page sizes (multiples of 8), all histories, all item sizes admitted", "why_tests_cant": "All page boundary situations.", "anchors": ["browser/src/paging_file.rs: PagingFileInner::append, load_length_prefixed, close_page, sync"]}
{"id": "C51", "title": "PagingFile rejects oversized items with an error", "statement": "append_length_prefixed of an item that does not fit a page returns Err without panic and later operations are unaffected.", "quantifier": "all item sizes, all page sizes", "why_tests_cant": "All sizes near the limit.", "anchors": ["browser/src/paging_file.rs: PagingFileInner::append"]}
{"id": "C52", "title": "Clones are independent snapshots", "statement": "After let c = t.clone(), updates of t do not change any lookup in c and vice versa, although they share memory; and no reference count reaches zero while a node still refers to it.", "quantifier": "all histories of clones, updates and drops of any number of trees", "why_tests_cant": "Sharing patterns are unbounded.", "anchors": ["src/node/mod.rs: TreeNode::load_children_mut (Arc::make_mut), ChildrenRef::manual_clone, ChildrenRef::manual_drop, impl Clone/Drop for TreeNode"]}
{"id": "C53", "title": "Keys yielded by an iterator stay valid", "statement": "A key yielded by iter() keeps its bytes while the iterator goes on.", "quantifier": "all trees, all iterator positions", "why_tests_cant": "Copy on write with every pattern of kept keys.", "anchors": ["src/node/mod.rs: IterKey::append, IterKey::pop, KeyValueIter::next0"]}
{"id": "C54", "title": "Lookup among the children is exact at every fan-out", "statement": "With any number of children from 0 to 256, the child lookup used by get returns the child starting with the byte if there is one, and nothing otherwise.", "quantifier": "all child lists in compact shape, all bytes", "why_tests_cant": "Binary search and the 256 special case over all fan-outs.", "anchors": ["src/node/mod.rs: OwnedTreeNodeIter::find, BorrowedTreeNodeIter::find"]}
{"id": "C55", "title": "group_by with a length bound groups entries by the first n key bytes", "statement": "Iterating group_by(descend) with descend = (path shorter than n) yields trees that together hold exactly the entries of the tree; two entries are in the same group exactly if their keys agree on the first n bytes; entries with keys shorter than n are alone; no group is empty.", "quantifier": "all trees, all n", "why_tests_cant": "Ranges over all shapes of tree and all cut positions relative to node boundaries.", "anchors": ["src/node/mod.rs: GroupBy, RadixTree::group_by, RadixTree::try_group_by"]}
{"id": "C56", "title": "Combining attached trees gives what combining detached trees gives", "statement": "try_outer_combine, try_inner_combine, try_left_combine, try_inner_combine_pred and try_left_combine_pred, called on trees attached to stores (or on an attached and a detached one) with a function that loads the two values, return the detached tree, or the truth value, that the same join of the contents of the two trees gives; they fail only if a read fails, and never panic.", "quantifier": "all histories of both attached trees, all stores that keep what was written, all combining functions", "why_tests_cant": "Ranges over all ways in which nodes of the two trees are in memory or in a stored block when they meet.", "anchors": ["src/node/mod.rs: outer_combine, inner_combine, left_combine, inner_combine_pred, left_combine_pred, RadixTree::try_outer_combine, RadixTree::try_inner_combine, RadixTree::try_left_combine"]}
{"id": "C57", "title": "A saved tree survives crashes of the process", "statement": "Once try_reattach on a tree in a PagedFileStore has returned an id, the tree that try_load returns for that id after the file is opened again has the same contents, whatever happened in between: later tree operations that succeed, fail or are interrupted, I/O errors, and crashes at any byte of any file operation.", "quantifier": "all trees and histories of tree operations and store calls, all page sizes that are positive multiples of 8 (below 4 GiB), all crash points", "why_tests_cant": "Ranges over every tree, every layout of its blobs in pages and every crash point of everything that follows.", "anchors": ["src/node/mod.rs: RadixTree::try_reattach, RadixTree::try_load, TreeNode::serialize", "src/store/paged_file_store.rs: PagedFileStore, Inner::new, Inner::append, Inner::bytes"]}
{"id": "C58", "title": "A browser file used as a store returns what was put into it", "statement": "In a file of the browser file system that is written only through the store interface, if writing a blob returned an id, then reading that id returns exactly that blob or fails, after any further calls; and it succeeds if the file is open, the browser does not fail and less than 2 GiB are stored.", "quantifier": "all histories of store writes, reads and reopening of the file, with failures of the browser and the page closed at any point", "why_tests_cant": "Ranges over all histories and crash points, and needs the offsets of all records to stay disjoint.", "anchors": ["browser/src/sync_fs.rs: BlobStore for SyncFile", "browser/src/web_cache_fs.rs: WebCacheFile::append_length_prefixed, WebCacheFile::load_length_prefixed, add, execute_plan"]}
{"id": "C59", "title": "A tree saved in a browser file survives closing the page", "statement": "Once try_reattach on a tree in a file of the browser file system (written only through the store interface) has returned an id, try_load of that id after the file is opened again returns a tree with the same contents, whatever happened in between: later tree operations that succeed, fail or are interrupted, failures of the browser, and closing the page at any cache operation.", "quantifier": "all trees and histories of tree operations and appending calls below 2 GiB, all crash points", "why_tests_cant": "Ranges over every tree, every layout of its blobs in chunks and every crash point of everything that follows.", "anchors": ["src/node/mod.rs: RadixTree::try_reattach, RadixTree::try_load", "browser/src/sync_fs.rs: BlobStore for SyncFile", "browser/src/web_cache_fs.rs: WebCacheFile"]}
{"id": "C60", "title": "A synced PagingFile can be opened again", "statement": "After sync has returned Ok, opening the file again and making a PagingFile with the same page size gives a store in which every id returned before that sync still reads as the blob that was written.", "quantifier": "all page sizes (multiples of 8), all sessions of writes, reads and syncs, all blobs that fit a page", "why_tests_cant": "Ranges over all sessions, page layouts and chunk states of the file below.", "anchors": ["browser/src/paging_file.rs: PagingFileInner::new, sync, close_page, load_length_prefixed", "browser/src/web_cache_fs.rs: WebCacheFile::length, add"]}
{"id": "C61", "title": "An iterator is a snapshot", "statement": "An iterator made by iter() yields exactly the entries that the tree had when the iterator was made, in the order of the keys, and then nothing, whatever the program does between the calls of next: changing or dropping the tree, its clones, other iterators and the keys and values that were yielded.", "quantifier": "all sessions with any number of trees, values, keys and iterators that share memory", "why_tests_cant": "Iterators share the nodes of the tree by reference counts; the interleavings of updates, drops and next, and the sharing patterns, are unbounded.", "anchors": ["src/node/mod.rs: RadixTree::iter, KeyValueIter::next0, TreeNode::load_children_mut (Arc::make_mut), impl Drop for TreeNode"]}
{"id": "C62", "title": "Memory is given back", "statement": "When a program has dropped all trees, values, keys and iterators, none of the memory that they allocated is in use.", "quantifier": "all sessions with any number of trees, values, keys and iterators that share memory", "why_tests_cant": "Ranges over all histories of updates, clones and drops; a leak has no effect that a test of results sees.", "anchors": ["src/node/mod.rs: TreeNode::canonicalize, ChildrenRef::manual_drop, FlexRef::manual_drop, impl Drop for TreeNode, impl Drop for Value"]}
{"id": "C63", "title": "Files of the browser file system do not disturb each other", "statement": "What a program sees of one file (results of opening, reading, writing, truncating, length, appending and loading records) is what it would see if the same calls on that file were made in a browser with no other file, whatever is done to other files and directories in between.", "quantifier": "all histories of calls on any number of directories and files, with failures of the browser and the page closed and loaded again at any point", "why_tests_cant": "All files of a directory share one cache and are told apart by their request URLs only; the interleavings, names and crash points are unbounded.", "anchors": ["browser/src/web_cache_fs.rs: WebCacheFs::open_dir, open_file, delete_file, WebCacheDir, chunks, ChunkMeta::to_request_str, ChunkMeta::parse_and_filter", "browser/src/sync_fs.rs: SyncFs, SyncDir, SyncFile"]}
{"id": "C64", "title": "Deleting a file of the browser file system", "statement": "After delete_file has returned Ok the file is gone: file_exists does not return true, and opening it gives an empty file, now and in later sessions. Other files keep their contents. The result says whether there was something to delete.", "quantifier": "all histories of calls on any number of directories and files, with failures of the browser and the page closed and loaded again at any point", "why_tests_cant": "Deletion matches all cache entries by URL path; it has to hit exactly the entries of the file for every name and every set of entries that a history can leave.", "anchors": ["browser/src/web_cache_fs.rs: WebCacheFs::delete_file, WebCacheDir::delete", "browser/src/sync_fs.rs: SyncDir::delete_file"]}
{"id": "C65", "title": "file_exists of the browser file system", "statement": "file_exists returns true if and only if the file was opened (which creates it) and not deleted since, in this or an earlier session.", "quantifier": "all histories of calls on any number of directories and files, with failures of the browser and the page closed and loaded again at any point", "why_tests_cant": "The result is computed from open files in memory or from the cache entries; agreement of the two over all histories and reload points cannot be sampled.", "anchors": ["browser/src/web_cache_fs.rs: WebCacheFs::file_exists, WebCacheDir::file_exists", "browser/src/sync_fs.rs: SyncDir::file_exists"]}
{"id": "C66", "title": "Deleting a directory of the browser file system", "statement": "After delete_dir has returned Ok all files of the directory are gone, now and in later sessions, and a directory of that name that is opened later keeps what is written to it.", "quantifier": "all histories of calls on any number of directories and files, with failures of the browser and the page closed and loaded again at any point", "why_tests_cant": "Ranges over all histories, with directories open or not when they are deleted.", "anchors": ["browser/src/web_cache_fs.rs: WebCacheFs::delete_dir, open_dir", "browser/src/sync_fs.rs: SyncFs::delete_dir"]}
{"id": "C67", "title": "What SQLite reads from a browser file", "statement": "A read of n bytes at an offset through the SQLite file interface returns Ok with the bytes that were written last at these offsets, as many as there are before the end of the file, and Ok(0) at or after the end. It does not panic.", "quantifier": "all histories of calls on the file, all offsets and buffer sizes, with failures of the browser", "why_tests_cant": "Ranges over all offsets, buffer sizes and chunk layouts that histories of writes and truncations can leave.", "anchors": ["browser/src/vfs.rs: DatabaseFile::read, write, file_size", "browser/src/web_cache_fs.rs: WebCacheFile::read, length"]}
{"id": "C68", "title": "Threads that share trees see independent maps", "statement": "Any number of threads hold trees, values, keys and iterators; they call the API at the same time, hand things (for example clones) to each other, and lend each other trees (references to a tree, which can be used by many threads at the same time). Every answer is one that the call may give if each thing were a map of its own that only its owner can change, and the call did all of its work at the moment it returns; a reference shows the map as it was when it was lent. A thread that nothing is handed or lent to or from sees what it would see alone. If every thread gets its turn again and again, every call returns.", "quantifier": "all numbers of threads, all sequences of calls of each thread, all things handed over, all trees lent, all interleavings of the steps of the calls (reads, allocations, changes of reference counts, taking out what is not shared)", "why_tests_cant": "A test runs a few schedules of a few threads; a reference count read too early, or a vector changed in place while another thread reads it, shows only in particular interleavings.", "anchors": ["src/node/mod.rs: CompactOwnedBlob, ChildrenRef, TreeNode (load_children_mut with Arc::make_mut, clone, drop), outer_combine_with, inner_combine_with, left_combine_with, RadixTree::remove_prefix, IterKey, KeyValueIter, ValueIter, GroupBy", "src/store/blob_store.rs: Blob"]}
{"id": "C69", "title": "No data race and no use of freed memory between threads", "statement": "Whenever a thread is about to use a cell of shared memory (a byte buffer or an array of children), the cell has not been freed, and no step that another thread may make at the same time frees it or changes what is in it, other than its atomic reference count.", "quantifier": "all numbers of threads, all calls, all interleavings, every moment of every execution", "why_tests_cant": "Data races show only in particular interleavings and memory layouts; no number of runs excludes them.", "anchors": ["src/node/mod.rs: CompactOwnedBlob, ChildrenRef, TreeNode (clone, drop, load_children_mut with Arc::make_mut), IterKey::append, IterKey::pop"]}
{"id": "C70", "title": "Whatever fails, a tree holds only entries that somebody put there", "statement": "Take a tree, in memory or in a store, and call any of the operations that change it in place (insert, remove, remove_prefix, filter_prefix, the outer, inner and left combinations, the removal and retention of prefixes), again and again, where each call may return an error (from the store or from the function given by the user) or be abandoned halfway, and the tree is used further afterwards. Then the tree is still a map in key order, all ways of reading it agree, and each entry of it is one that it had, one that was inserted, one of a tree it was combined with, or a result of the user's function for values of both trees at that key.", "quantifier": "all stores, all sequences of in-place calls, all trees and arguments, all user functions, all outcomes of every call including errors at any read", "why_tests_cant": "The state after a failed call depends on where in the recursion the failure happened; a test fails one call at one place and mostly checks only the error.", "anchors": ["src/node/mod.rs: TreeNode::outer_combine_with, inner_combine_with, left_combine_with, remove_prefix, retain_prefix_with, filter_prefix, insert, remove, RadixTree::try_outer_combine_with, RadixTree::try_remove"]}
{"id": "C71", "title": "In-place combination of trees in stores gives what the combination of maps gives", "statement": "If an in-place combination (outer, inner or left combination, removal or retention of prefixes) of a tree in memory or in a store with a tree in memory or in a store returns Ok, the tree holds exactly the entries of the combination of the two maps with the user's function; it returns an error only if a read of one of the stores or the user's function failed, and it panics only if the user's function does. The store of the other tree is not changed.", "quantifier": "all pairs of stores, all trees in them, all user functions (total, failing, or panicking), all outcomes of the reads", "why_tests_cant": "A test combines a few pairs of trees in one kind of store; which children are loaded, shared or converted depends on the shape of both trees.", "anchors": ["src/node/mod.rs: TreeNode::outer_combine_with, inner_combine_with, left_combine_with, remove_prefix_with, retain_prefix_with, NodeConverter, IdentityConverter, DowncastConverter, DetachConverter"]}
{"id": "C72", "title": "A lookup or a change of one key reads few blobs", "statement": "In a tree in a store, looking up a key, testing for it, inserting or removing it, cutting out or removing a prefix depends on at most one blob of the store for each byte of the key and one for the root (two each if keys of 128 bytes or more were used), and one for the value that is returned, however many entries the tree has. If all other blobs are damaged or missing, the call has the same result and leaves the same tree.", "quantifier": "all stores, all trees that a user can get, also by calls that failed, all keys and values, all contents and losses of the other blobs, all outcomes (also errors)", "why_tests_cant": "A test measures the reads of a few lookups in one tree; the claim is that no tree shape, however large or deep, and no damage elsewhere makes a lookup read more.", "anchors": ["src/node/mod.rs: TreeNode::find, RadixTree::try_get, try_contains_key, try_insert, try_remove, try_remove_prefix, try_filter_prefix, TreeNode::load_children_mut, ArcOrId"]}
{"id": "C73", "title": "Saving again writes only what changed", "statement": "After a tree was saved or loaded and then changed by calls (insert, remove, remove_prefix, filter_prefix, in-place combinations, also calls that failed), saving it again writes the root and at most as many other blobs as the keys of these calls have bytes plus a constant for each key, however large the tree is. Without a change it writes one blob.", "quantifier": "all stores, all trees, all sequences of in-place calls with any outcome since the last save or load, combinations being with trees that were made by calls that succeeded", "why_tests_cant": "A test counts the writes after one change of one tree; that no change makes subtrees that are already stored be written again is a claim about all shapes and all places in the recursion.", "anchors": ["src/node/mod.rs: TreeNode::serialize, ArcOrId, RadixTree::try_reattach, TreeNode::outer_combine_with, canonicalize, split"]}
{"id": "C74", "title": "Every tree whose keys and values fit can be saved", "statement": "If each key and each value of a tree is small enough to be a blob of a store (for a paged file: at most the page size minus 8 bytes), and neither the operating system nor the browser reports an error and the file does not reach its maximal length, then the tree can be stored and saved: storing it does not fail because of a blob that the library itself makes.", "quantifier": "all trees of any history, all keys and values up to the size, all states of the store, all page sizes", "why_tests_cant": "The sizes of the blobs that are written depend on the shape of the tree (how many children, how long the prefixes and values are); a test saves a few trees.", "anchors": ["src/node/mod.rs: TreeNode::serialize, OwnedTreeNode serialization of children, RadixTree::try_attached, RadixTree::try_reattach", "src/store/paged_file_store.rs: PagedFileStore::append", "browser/src/web_cache_fs.rs: append_length_prefixed"]}
{"id": "C75", "title": "Saving is deterministic", "statement": "What saving a tree writes depends only on its contents: two trees in memory with the same entries are stored as the same blobs in the same order with the same results, whatever operations made them (so that equal trees saved in equal stores give equal stores); and a tree that was loaded and is saved again without a change is saved as one blob with exactly the bytes that were loaded.", "quantifier": "all pairs of trees of any history with equal contents, all stores, all states of the store including failing ones, all blobs that can be loaded", "why_tests_cant": "The same contents can be reached by unboundedly many histories that leave different structures in memory; a test compares a few.", "anchors": ["src/node/mod.rs: RadixTree::try_attached, RadixTree::try_reattach, RadixTree::try_load, TreeNode::serialize"]}
{"id": "C76", "title": "Bytes read from a paged file stay as they are", "statement": "A blob that a paged file store hands out goes on showing exactly the bytes that were read, as long as anybody holds it, although it is a view of the memory map of a file that the store goes on changing: no later write, failed or interrupted write, or reopening of the file changes these bytes or cuts the file off before them.", "quantifier": "all histories before the read, all ids (also ones that no write returned), all histories after it, with failures and crashes at any point, all page sizes", "why_tests_cant": "What happens to the file after the read is unbounded, and the failing cases (a torn header, a page that is closed, a file that is cut off when opened) occur at single points of long histories.", "anchors": ["src/store/paged_file_store.rs: Page::bytes, Inner::bytes, Inner::append, Inner::close_page, Inner::new"]}
{"id": "C77", "title": "Several clients can use one store at the same time", "statement": "While one client looks up, detaches, changes or saves trees, others may write to the same store, before, between and during its calls. Lookups and try_detached give what they give without the others. If saving a tree returns an id, loading that id gives the contents of the tree, to every client and from then on, whatever the others wrote while it was being saved and afterwards. Two clients saving two trees at the same time both get ids that load their own tree. Saving succeeds if the store has room for everything that is written.", "quantifier": "all conforming stores, all trees, all interleavings of the writes of the clients with the reads and writes of a call, whatever the others write", "why_tests_cant": "There are unboundedly many interleavings of the writes of several clients, and the others may write anything; a test runs a few of them.", "anchors": ["src/store/blob_store.rs: BlobStore", "src/store/mem_store.rs: MemStore::write", "src/node/mod.rs: RadixTree::try_attached, RadixTree::try_reattach, RadixTree::try_load, TreeNode::serialize"]}
{"id": "C78", "title": "How deep calls recurse depends on the length of keys, not on the number of entries", "statement": "A call of the API recurses at most about as many levels deep as keys have bytes, however many entries the trees have and however they came about. Lookups (get, contains_key, has_prefix, filter_prefix, scan_prefix) need at most as many levels as the searched key has bytes, plus one, whatever the tree contains. first and last entry and value, detaching, saving and dropping need at most as many as the longest key of the tree has bytes, plus one; insert, remove and remove_prefix one more; combining two trees at most the sum over both trees. For lookups the bound is reached: there are trees where looking up a key of n bytes is more than n levels deep.", "quantifier": "all conforming stores, all histories of a tree, all keys, all functions of the user", "why_tests_cant": "A test shows that some trees do not exhaust the stack; whether the depth is bounded by the key length needs all trees of unbounded size and all histories.", "anchors": ["src/node/mod.rs: find, first_value, last_value, first_entry, last_entry, TreeNode::detached, TreeNode::serialize, Drop for TreeNode, outer_combine, inner_combine, left_combine, outer_combine_with, inner_combine_with, left_combine_with, retain_prefix_with, remove_prefix_with"]}
{"id": "C79", "title": "Trees attached to a store are independent of their clones, and memory is handled correctly, also when the store fails", "statement": "A program that holds any number of trees attached to a store, detached trees, values, keys and iterators, which share memory, sees what it would see if nothing were shared: a call of the fallible API changes the tree it is called on and nothing else, a clone keeps giving the answers of the time when it was made, whether later calls on the original and on other trees succeed or fail halfway, and an iterator goes on as if the tree it was made from had not been changed or dropped. No freed memory is used, reference counts are right at every moment, and apart from empty arrays of children nothing stays in memory that the program cannot reach.", "quantifier": "all histories of calls of the functions named in the anchors and of clone and drop, which do not panic, on any number of trees, values and iterators, all behaviours of the store (also errors, wrong data and changes from outside at any time), all functions of the user that return or fail", "why_tests_cant": "Sharing patterns, histories and the points at which a store can fail are unbounded; a wrong reference count after an error has no effect that a test of results sees.", "anchors": ["src/node/mod.rs: RadixTree::try_insert, try_remove, try_remove_prefix, try_outer_combine_with, try_inner_combine_with, try_left_combine_with, try_retain_prefix_with, try_remove_prefix_with, try_outer_combine, try_inner_combine, try_left_combine, try_inner_combine_pred, try_left_combine_pred, try_filter_prefix, try_get, try_attached, try_detached, try_reattach, try_load, try_iter, try_scan_prefix, try_values, try_group_by", "src/node/mod.rs: KeyValueIter, ValueIter, GroupBy, IterKey", "src/node/mod.rs: impl Clone/Drop for TreeNode, Drop for Value, TreeNode::load_children_mut, ChildrenRef, FlexRef"]}
{"id": "C80", "title": "Programs with trees in a store see plain maps, across calls, errors, other users of the store and restarts", "statement": "A program holds any number of attached and detached trees, values, keys and iterators, and calls the fallible API on them in any order, while others use the same store without losing anything in it. Every answer it gets is the answer of plain maps, one per tree, or an error; there is an error only if a read of the store fails, the store has no room, or a function of the user fails. What reattach returned as an id gives, loaded then or later, by the same program or by one that starts afterwards, a tree with the contents that the tree had when it was saved. Values and keys that were handed out, clones, and iterators keep what they had. Nothing is claimed about: a tree after a call that was to change it has failed, trees with keys of 128 bytes or more once they are written to the store, trees loaded with ids that do not come from reattach, and what is made of these; retain_prefix_with, has_prefix(\"\"), scan_prefix and filter_prefix(\"\", s) are as far off as C08, C09, C20 and C22 say.", "quantifier": "all conforming stores, all histories of calls that do not panic on any number of trees, values and iterators, all points at which reads, writes or functions of the user fail, all changes by others between calls that keep what is in the store, all functions of the user that depend on the contents of values only", "why_tests_cant": "Histories over several trees that share memory and a store, with errors and restarts at any point, are unbounded, and an answer is wrong only relative to the whole history; a test checks a few histories.", "anchors": ["src/node/mod.rs: RadixTree::try_insert, try_remove, try_remove_prefix, try_outer_combine_with, try_inner_combine_with, try_left_combine_with, try_retain_prefix_with, try_remove_prefix_with, try_outer_combine, try_inner_combine, try_left_combine, try_inner_combine_pred, try_left_combine_pred, try_filter_prefix, try_get, try_contains_key, try_has_prefix, try_first_entry, try_last_entry, try_first_value, try_last_value, is_empty, try_attached, try_detached, try_reattach, try_load, try_iter, try_scan_prefix, try_values, try_group_by", "src/node/mod.rs: KeyValueIter, ValueIter, GroupBy, IterKey, impl Clone/Drop for TreeNode", "src/store/blob_store.rs: BlobStore"]}
{"id": "C81", "title": "Programs with trees in a store do not panic", "statement": "A program holds any number of attached and detached trees, values, keys and iterators, and calls the fallible API on them in any order, while others use the same store without losing anything in it. However it got there, and whichever calls failed before: if its next call is about things it has a right to use (trees that have not been left behind by a failed change, have no keys of 128 bytes or more that went through the store, and were loaded with ids from reattach), the call returns, with an answer or an error, it does not panic; and a program that makes only such calls runs to its end. How deep the stack is does not change what is seen, once it is deep enough.", "quantifier": "all conforming stores, all histories of calls on any number of trees, values and iterators, all points at which reads, writes or functions of the user fail, all changes by others between calls that keep what is in the store", "why_tests_cant": "A panic may need a shape that only some long history over several trees and a store leads to; a test runs a few histories.", "anchors": ["src/node/mod.rs: RadixTree::try_insert, try_remove, try_remove_prefix, try_outer_combine_with, try_inner_combine_with, try_left_combine_with, try_retain_prefix_with, try_remove_prefix_with, try_outer_combine, try_inner_combine, try_left_combine, try_inner_combine_pred, try_left_combine_pred, try_filter_prefix, try_get, try_contains_key, try_has_prefix, try_first_entry, try_last_entry, try_attached, try_detached, try_reattach, try_load, try_iter, try_scan_prefix, try_values, try_group_by", "src/node/mod.rs: TreeNode::child_index, TreePrefixRef, TreeValueRef, ChildrenRef (unwrap, expect, todo)", "src/store/blob_store.rs: BlobStore"]}
{"id": "C82", "title": "Stored bytes are as documented, and whatever is laid out as documented is read", "statement": "Saving an attached tree stores it in the documented data format: the bytes behind the id that the user gets, and the blobs they refer to, are laid out as the documentation says, and describe exactly the entries of the tree. If everything of the tree that is in the store was written by this library, then, whatever was done with the tree and whichever calls have failed, short prefixes and values are inline and record size bytes are as documented. Documented bytes describe one tree only. Conversely, whatever program has put bytes in that format into a store, loading them gives a tree that has the described entries and behaves like every other attached tree; lookups and iteration do not depend on record size bytes, on whether short values are inline, or on whether nodes are compact.", "quantifier": "all trees and histories, all conforming stores, all blobs in the documented format (of any depth, with ids of any permitted length), all programs that load them", "why_tests_cant": "Tests compare a few stored trees with what the same code reads back; a field that writer and reader both get wrong, or a layout only another writer would choose, does not show.", "anchors": ["src/lib.rs: section Data format (lines 104-200)", "src/node/mod.rs: TreeNode::serialize, OwnedBlobRef::serialize, Header, BorrowedTreeNode::read_one, TreeNode::deserialize, RadixTree::try_load, RadixTree::try_reattach, TreeNode::try_attached"]}
{"id": "C83", "title": "Programs that keep trees in a file see plain maps in all their lives, and without failures their calls succeed", "statement": "A program keeps trees in a paged file, or in a file of the browser, and ends, or is killed, and is started again, any number of times; in each life it holds any number of trees, values, keys and iterators. File operations fail at any point, the process dies at any byte that it writes, the page is closed at any time, and others append to the file. What it sees in all its lives is what plain maps would show: an id that reattach gave in one life stands in all later ones for the map of then. Once the file is opened again and nothing fails any more, every call about known things succeeds: loading each id ever given, reading, changing and storing, except that the user's own function may fail, that maps with keys of 128 bytes or more are not stored reliably, and that a map may be too big for the page size or for the file.", "quantifier": "all numbers of lives, all sequences of calls in each of them that do not panic, all failures and crash points, all uses of the file by others that only append, all page sizes from 8 up to 2^32 (for opening: multiples of 8), all contents", "why_tests_cant": "The combinations of crash points, failing operations, ids from earlier lives, and trees that share stored nodes are unbounded; a test runs a few of them, in one process.", "anchors": ["src/store/paged_file_store.rs: Inner::new, Inner::append, Inner::bytes, PagedFileStore::read, PagedFileStore::write", "browser/src/sync_fs.rs: impl BlobStore for SyncFile", "browser/src/web_cache_fs.rs: WebCacheFile", "src/node/mod.rs: impl RadixTree<S> (try_load, try_attached, try_reattach, try_get, try_iter, ...)"]}
{"id": "C84", "title": "SQLite sees ordinary files", "statement": "Through the SQLite file system, each file behaves like an ordinary file, whatever is done to other files, whatever operation of the browser fails and whenever the page is closed and loaded again: a write that returns a number has written all bytes; one that returns an error, or during which the page is closed, has written all or nothing; a read gives the last bytes written, up to the size of the file, and the size is the end of the furthest write that was not cut or deleted; a deleted file has no bytes; a file that is told not to exist has none; no call panics. If no operation of the browser fails, all calls on files that are open succeed.", "quantifier": "all sequences of calls on all files and directories, all failures of operations of the browser, all times at which the page is closed, all offsets and contents", "why_tests_cant": "SQLite makes calls on a database and its journal in an order that depends on the data and on earlier failures; the combinations of files, offsets, failing operations and times of closing the page are unbounded.", "anchors": ["browser/src/vfs.rs: DatabaseFile, impl Vfs for SyncDir", "browser/src/sync_fs.rs: SyncDir, SyncFile", "browser/src/web_cache_fs.rs: WebCacheFs, WebCacheFile"]}
{"id": "C85", "title": "Catching a panic of the store or of a passed function is safe", "statement": "If the store, or a function that was passed to a call, panics in the middle of a call, and the program catches the panic and goes on, then nothing that is still in use was freed, reference counts stay right and no memory is lost; all trees, clones, keys, values and iterators other than the one the call was changing answer as before; an iterator that was interrupted goes on in order with right keys and values, each at most once, and leaves out only what the interrupted step would have read.", "quantifier": "all sequences of calls on any number of trees, keys, values and iterators that share memory, all stores, all functions, all moments at which the store or a function panics", "why_tests_cant": "A panic can come out of any of the unboundedly many places at which a call uses the store or a function, with any sharing of memory at that moment; what is left behind shows only in later calls.", "anchors": ["src/node/mod.rs: KeyValueIter::next, ValueIter::next, GroupBy::next, GroupBy::next0", "src/node/mod.rs: impl Tree (all try_ methods)", "src/node/mod.rs: impl Drop and Clone for OwnedTreeNode, OwnedBlob, NodeSeqBuilder"]}
{"id": "C86", "title": "Threads may use trees in one store, and share memory, at the same time", "statement": "Several threads hold attached and detached trees, values, keys and iterators that share memory and a store, call the fallible API in any order, catch panics of the store and of functions they pass, and hand things to each other. In every interleaving, and whatever the store answers, memory that was freed is never used and each call gives the answer it would give if nothing were shared; a thread that nothing is handed to or from sees what it would see if it were alone and the store gave the same answers. Two steps at the same time never race for a cell, calls return if every thread gets its turn, and when no call is running everything in memory can be reached from what the threads hold, other than empty arrays of children. This holds up to the first call that panics in the code itself.", "quantifier": "any number of threads, all programs they run, all interleavings of the atomic steps of their calls, all stores and all states the store may be in at each call, all functions and all panics of these and of the store", "why_tests_cant": "Interleavings of steps of several calls that share memory are far too many to run, and a wrong one shows only under a rare schedule; a test sees a few.", "anchors": ["src/node/mod.rs: OwnedTreeNode, OwnedBlob, Arc clones and drops in all try_ methods of RadixTree", "src/node/mod.rs: KeyValueIter, ValueIter, GroupBy, IterKey, Value", "src/store/blob_store.rs: BlobStore"]}
{"id": "C87", "title": "Threads that use one store see plain maps", "statement": "Several threads use trees in one store that keeps what is written, and write to it at the same time. In every interleaving each call gives what it gives on a plain map, or an error for which there is a reason, whatever the other threads do in the meantime: trees that a thread holds or was handed keep their contents, a map that one thread has saved can be loaded by every other thread with its id, and calls whose panics are caught leave everything but the iterator as it was. A call about things that are known does not panic.", "quantifier": "any number of threads, all programs, all interleavings of the atomic steps of calls, all orders in which the store makes the writes, all conforming stores, all functions, all failing reads and refused writes", "why_tests_cant": "The order of the writes of several threads and of their steps in memory can be anything, and whether contents stay the same must hold for all of them; tests run a few orders that the machine happens to choose.", "anchors": ["src/node/mod.rs: RadixTree try_attached, try_reattach, try_load and all other try_ methods", "src/node/mod.rs: KeyValueIter, ValueIter, GroupBy", "src/store/blob_store.rs: BlobStore, DynBlobStore", "src/store/mem_store.rs: MemStore"]}
{"id": "C88", "title": "Blobs that are handed out stay as they are, and their memory is neither lost nor freed too early", "statement": "A program gets blobs from a store, makes its own, slices, clones, owns, drops and reads them in any order while it goes on using the store, and may drop the store before the blobs. What it sees of a blob is the same every time until it drops the blob, as if blobs were plain values: no call of the store changes memory that a blob shows or frees memory that a blob needs. Everything in memory is used by the store or by a blob, and when the store and all blobs are dropped nothing is left. A blob that is a view of a paged file shows bytes that never change in the file.", "quantifier": "all programs, all bytes and ranges, MemStore, PagedFileStore on every file and PagingFile on every file, all failures of the file operations and crashes", "why_tests_cant": "Stores keep and reuse pages, change the last page in place and drop entries of their tables; whether a blob still needs them depends on the whole history of the program. Use after free and writes to shared memory are not seen reliably by tests.", "anchors": ["src/store/blob_store.rs: Blob, Blob::slice, Blob::to_owned, Blob::from_arc_vec, Blob::copy_from_slice", "src/store/mem_store.rs: MemStore::read, MemStore::write", "src/store/paged_file_store.rs: Page::bytes, Inner::bytes, Inner::append, Inner::close_page, Inner::load_page, Inner::load_recent", "browser/src/paging_file.rs: PagingFileInner::append, PagingFileInner::close_page, PagingFileInner::load_length_prefixed"]}
{"id": "C89", "title": "Reading the first entries of a stored tree reads few blobs", "statement": "Taking the first n entries from try_iter, the first n values from try_values, or the first n entries from try_scan_prefix of a tree in a store depends on at most one blob (two if keys of 128 or more bytes were stored) for each byte of the keys that are returned and one more for each key (for try_scan_prefix also one for each byte of the prefix and one more), however large the tree is. The same holds for try_first_entry, try_last_entry, try_first_value and try_last_value with the first or last key, and for try_has_prefix with the prefix. If other blobs are damaged or missing the outcome is the same. For the values alone one blob for each byte suffices.", "quantifier": "all stores, all trees a user can get by calls that succeed (for try_has_prefix also after failed calls), all n, all prefixes, all damage to other blobs", "why_tests_cant": "A test sees that an iterator on an intact store returns the right entries; an iterator that loads siblings or subtrees in advance passes too. The bound must hold for trees of every size and shape.", "anchors": ["src/node/mod.rs: RadixTree::try_iter, RadixTree::try_values, RadixTree::try_scan_prefix, RadixTree::try_first_entry, RadixTree::try_last_entry, RadixTree::try_first_value, RadixTree::try_last_value, RadixTree::try_has_prefix", "src/node/mod.rs: KeyValueIter::next0, ValueIter::next0, TreeNode::load_children_owned, TreeNodeIter"]}
{"id": "C90", "title": "When combining trees in stores does not panic", "statement": "Combining trees that are in a store can panic (C56): a node of a stored tree that has to be cut inside its prefix is borrowed and cannot be. Say that a map stops at p if p is one of its keys or two of its keys part right after p. If each of the two trees that is in a store stops wherever the other one stops on the way to one of its keys, then try_inner_combine, try_inner_combine_pred and try_left_combine_pred do not panic: they return the combination of the maps, or an error if a store cannot be read. In particular, if the keys of a tree in memory are among the keys of a tree in a store, these calls with the two trees, on either side, do not panic. try_outer_combine does not panic if each of the two trees that is in a store stops wherever the union of the two stops on the way to one of its keys, each of its keys that is on the way to a key of the other tree (or is the empty key) is a key of the other tree, too, and where it goes on after a key of the other tree (or at the start) the other tree goes on as well. try_left_combine needs this only of its first tree, with the first tree stopping where the second one stops; if the first tree is in memory, it is enough that the second one stops wherever the first one stops on the way to its keys. In particular: the union of a non-empty tree in memory with a tree in a store that has all its keys, and of which no key is a prefix of another one, does not panic; and if two trees have the same keys, none of the five combinations panics, wherever the trees are stored.", "quantifier": "all stores, all trees in memory or in stores, all total user functions, all outcomes of the reads", "why_tests_cant": "Whether a node has to be cut depends on the keys of both trees and on which parts were loaded before; tests of a few pairs show neither that a condition on the keys is enough nor where it ends.", "anchors": ["src/node/mod.rs: TreeNodeRef::clone_shortened, TreeNodeRef::detached, inner_combine, outer_combine, left_combine, inner_combine_pred, left_combine_pred", "src/node/mod.rs: RadixTree::try_inner_combine, try_outer_combine, try_left_combine, try_inner_combine_pred, try_left_combine_pred"]}
{"id": "C91", "title": "When combining in place with a tree in a store does not panic", "statement": "Combining a tree in place with a tree in a store can panic (C71). With the stops of C90: if the other tree stops wherever the target stops on the way to one of the keys of the other tree, then try_inner_combine_with (with or without debug assertions), and try_left_combine_with, try_remove_prefix_with and try_retain_prefix_with (without debug assertions) panic only if the function of the user does; in particular if the keys of the target are among the keys of the other tree. If the other tree stops wherever the union of the two stops on the way to one of its keys (for example, if the keys of the target are among its keys) and both are in the same store, try_outer_combine_with panics only if the function of the user does; for a target in memory and another tree in any store this holds if, besides, each key of the other tree that is on the way to a key of the target (or is the empty key) is a key of the target, too. The calls return Ok with the combination of the maps, or an error if a store cannot be read or the function of the user fails.", "quantifier": "all stores, all trees in memory or in stores, all functions of the user (total, failing, panicking), all outcomes of the reads, with and without debug assertions", "why_tests_cant": "Which nodes of the other tree are cut or taken over depends on the keys of both trees at every depth; a test of a few pairs does not show that a condition on the keys is enough.", "anchors": ["src/node/mod.rs: outer_combine_with, inner_combine_with, left_combine_with, retain_prefix_with, remove_prefix_with, IdentityConverter, DetachConverter, TreeNodeRef::clone_shortened", "src/node/mod.rs: RadixTree::try_outer_combine_with, try_inner_combine_with, try_left_combine_with, try_remove_prefix_with, try_retain_prefix_with"]}
{"id": "C92", "title": "Cleaning up the chunks of a browser file keeps its bytes", "statement": "Carrying out the steps that open() plans for the chunks of a file keeps every byte before the first gap, also if the browser fails or the page is closed at any point in between. If all steps succeed, no two chunks overlap, none is empty, the chunks are exactly what was before the first gap, everything behind it reads as 0, and planning again gives no steps. In a file that was never truncated, the bytes as far as they were written without a gap by writes that returned Ok are kept.", "quantifier": "all histories of calls on a file, with failures and the page closed at any point, all outcomes of the cache operations of the clean-up, all calls after it", "why_tests_cant": "All layouts of overlapping chunks and all crash points; the test has five lists of two chunks and runs no step.", "anchors": ["browser/src/web_cache_fs.rs: open, get_file_range, execute_plan, ChunkMeta"]}
{"id": "C93", "title": "Discarding irrelevant chunks of a browser file loses no data", "statement": "retain_relevant splits the chunks of a file into those to keep and those to delete, such that what is kept has no gaps and every byte that the file shows is in the chunks that are kept.", "quantifier": "all lists of chunks, all histories of calls on a file", "why_tests_cant": "All layouts of chunks; there is no test of it.", "anchors": ["browser/src/web_cache_fs.rs: retain_relevant, ChunkMeta"]}
{"id": "C94", "title": "Blobs put into a browser file after truncating it have places of their own", "statement": "After blobs were put into a browser file and the file was truncated at any place, each blob that is then put gets a place behind all that is in the file, so that no two of them share bytes and each can be read back.", "quantifier": "all sequences of blobs, all places to truncate at, all blobs put afterwards", "why_tests_cant": "All places to truncate at, relative to the blobs, and all sizes.", "anchors": ["browser/src/web_cache_fs.rs: WebCacheFile::truncate, append, append_length_prefixed, prev, truncate (plan)", "browser/src/sync_fs.rs: impl BlobStore for SyncFile"]}
