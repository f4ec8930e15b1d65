{
 "C08": {
  "note": "Proved for proper trees with an entry; exact characterization for all proper trees; the full claim is false on the empty tree with the empty prefix and on degenerate filter_prefix results (witnesses proved)."
 },
 "C09": {
  "note": "Proved when the prefix is empty or ends inside an edge; values always right; keys otherwise have an end piece of the prefix duplicated (bug, proved exactly)."
 },
 "C19": {
  "note": "Proved for left trees not made by filter_prefix(\"\", s) on a tree without entries; false otherwise (witness)."
 },
 "C20": {
  "note": "The full claim is false (witness: bug). Proved for all f: exactly what is kept (C20_retain_prefix_with_exact): a selected key counts only if the keys of the target part at every rejected key on the way to it. When no selected key extends a rejected one, this is the claim."
 },
 "C22": {
  "note": "Proved for trees not made by a degenerate filter_prefix call; false otherwise (witness)."
 },
 "C24": {
  "note": "== is not content equality in either direction (witnesses); proved for results of copying operations without empty values; soundness without empty values for all trees."
 },
 "C25": {
  "note": "is_empty proved for proper trees; is_leaf implies at most one entry; converse false after in-place changes (witness)."
 },
 "C26": {
  "note": "Proved for proper trees; order part for all reachable trees; false for degenerate filter_prefix results (witness)."
 },
 "C27": {
  "note": "C27_shape_unique is for any two trees in compact shape; the reachable form needs proper trees."
 },
 "C32": {
  "note": "Exact characterization of the blobs that make try_load panic (those whose first record has a children field with a data header); the full claim is false: blob 00 80 01 00 (witness)."
 },
 "C33": {
  "note": "For every attached tree reachable by attach, load, reattach, insert, filter_prefix with non-degenerate result, and, where no stored prefix has 128 bytes or more, remove and remove_prefix, in release builds; the removals outside this are covered by the negative results of C34."
 },
 "C55": {
  "note": "Partition proved for all reachable trees. That no group is empty is proved for non-empty proper trees only; missing: the empty tree (C55_group_by_nonempty_false), which yields one empty group when n = 0, and results of degenerate filter_prefix calls."
 },
 "C34": {
  "note": "try_insert proved in full. try_remove and try_remove_prefix proved where no stored prefix has 128 bytes or more, in release builds; with debug assertions the result is right unless the call panics. The full claim is false: entries are lost in release builds with long stored prefixes, and debug builds panic (witnesses proved; bug)."
 },
 "C36": {
  "note": "The call returns an error if f fails on a common key, and succeeds if f never fails. The claim that the target is left unchanged is false: the value at the failing key is lost (witness proved; bug). Whatever the outcome, the target is a map whose entries were in the target, in the other tree (outer), or are results of f at this key (C36_no_invention_partial)."
 },
 "C56": {
  "note": "Whenever the call does not panic its result is right, and it fails only if a read fails. The claim that it never panics is false: unimplemented branches (todo!) are reached (witnesses proved for all five operations)."
 },
 "C43": {
  "note": "Per operation: the exact outcome on the Detached store, without panic and error; C43_history covers every tree the infallible API can produce."
 },
 "C38": {
  "note": "Proved for all histories, page sizes >= 8, I/O errors and crashes, for blobs below 2^32 bytes; false for larger blobs (C38_false: the length is stored in 32 bits)."
 },
 "C39": {
  "note": "Proved for all histories with crashes and I/O errors at any byte of any file operation, for blobs below 2^32 bytes and files below 2^62 bytes. For 2^32 bytes it is false (C39_false)."
 },
 "C40": {
  "note": "Proved when no write was interrupted after the last successful one; false in the window between the two commits of a write that begins a new page (C40_false)."
 },
 "C41": {
  "note": "Refused writes proved in full; reads of 8 byte ids never panic in release builds, and in debug builds but for id 0 and the last 4096 ids; ids of other lengths panic (C41_read_false)."
 },
 "C44": {
  "note": "Every read that returns Ok gives the last byte written at each offset, for all histories, failures and crashes; the full claim (all such reads succeed) is false because the length is wrong after overwrites (C44_false; bug). Exactly which reads succeed after any changes that returned Ok: C44_when_partial, in terms of pieces with levels."
 },
 "C45": {
  "note": "False after an overwrite (C45_false; bug), and from then on writes to other places never change the length (C45_stuck). Proved for writes of which no two overlap, as an upper bound for all histories, exactly for all writes that returned Ok (C45_exact_partial, in terms of pieces with levels; C45_all_exact_partial also with truncations and blobs that are put), and for a write that begins before the length and reaches the furthest end (C45_cover_partial)."
 },
 "C46": {
  "note": "All reads that return Ok see the bytes before or after the complete write; the length can shrink in a crash, so that reads of bytes that were there fail (C46_false; bug). With store reads on such a file, the two ways of reading can disagree after a crash (C46_get_false)."
 },
 "C47": {
  "note": "Bytes below the limit are unchanged and none above remain in reads that return Ok; the length can end up below the limit although bytes were there (C47_false; bug). For writes of which no two overlap the length afterwards is exactly the end of what is left (C47_length_partial), and if the limit is in or at the end of a write, all bytes below it can be read and are unchanged (C47_reads_partial). Truncating to 0 leaves the length 0 after any history (C47_to_zero_partial), and from then on lengths and ids of blobs are those of a new file, also if the length was wrong before (C47_reset_partial). Reads after that give only what was written since (C47_reset_reads_partial)."
 },
 "C48": {
  "note": "Exact whenever it returns Ok, and it does for offsets below 4 GiB; false in general: offsets from 2^63 on are refused (C48_false)."
 },
 "C49": {
  "note": "Proved for names of letters, digits and -_. ; the query part in full; false for names with a question mark (C49_false; bug)."
 },
 "C50": {
  "note": "Proved for blobs shorter than the page size minus 8, for all sessions, also with browser failures and on any file contents; a blob of exactly the page size minus 8 is accepted but lost (C50_false; bug)."
 },
 "C51": {
  "note": "Proved for blobs that with their length field exceed a page; blobs longer than the page size minus 8 are never accepted; those up to the page size minus 4 panic (C51_false; bug)."
 },
 "C60": {
  "note": "Proved for one session on a new file with one sync at its end, and with any number of syncs as long as no page is finished after the first of them (C60_same_page_partial). In every session in which the synced page is finished afterwards and one more sync follows, exactly the blobs up to that page can be read after opening again and all later ones are lost (C60_lost; bug); so are those of every second session that finishes the page on which the first one ended (C60_next_session_lost); C60_false shows that they are overwritten."
 },
 "C52": {
  "note": "In memory with reference counts: every session of API calls on detached trees runs without using freed memory, sees what separate maps would show, and clones are unaffected by anything done to other slots. One program; threads are C68 and C69. User functions choose among the values they are given. Reference counts are exact except for empty arrays of children."
 },
 "C53": {
  "note": "For the keys and values that any iterator in any session yielded, whatever happens afterwards to other slots."
 },
 "C61": {
  "note": "For iter() on trees made by calls other than filter_prefix(\"\", s)."
 },
 "C62": {
  "note": "At every moment everything in memory other than empty arrays of children can be reached from what the program holds (C62_partial). The full claim is false: remove of the last child of a node leaks the empty array of children (C62_false; bug). The same holds for threads whenever no call is in progress (C62_threads_partial)."
 },
 "C63": {
  "note": "For file names made of letters, digits, '-', '_' and '.'; for all histories, interleavings and crash points. False for other names: deleting the file \"a?b\" deletes the file \"a\" (C63_false). One WebCacheFs at a time."
 },
 "C64": {
  "note": "For file names as in C63 (C63_false otherwise). That other files keep their contents is C63_alone_partial, whose histories can delete other files. That the result says whether there was something to delete is proved for files that are not open, and for open files with a length above 0; for an opened file of length 0 it is false (C64_false)."
 },
 "C65": {
  "note": "Proved: Ok(false) means that the file is as if it never existed; a file with a length above 0 exists, also in later sessions; a file that was never opened does not. The full claim is false: an opened file without bytes is forgotten when the page is loaded again (C65_false)."
 },
 "C66": {
  "note": "Proved from the next session on, and at once if the directory was not open. The full claim is false: an open directory stays usable after delete_dir, shows the old bytes, and what is written to it is lost when the page is loaded again (C66_false; bug)."
 },
 "C67": {
  "note": "Reads that return Ok give the right bytes up to the length of the file, never panic, and succeed if the browser does not fail and all writes end below 2 GiB. False in full because of the length (C45): overwriting the first bytes of a file can shorten what is read (C67_false; bug)."
 },
 "C68": {
  "note": "Steps of threads are atomic and happen in one order (sequential consistency); trees are shared by clones that are handed over and by references (&RadixTree); the rules of Rust for references are part of what a schedule can do. Calls other than filter_prefix(\"\", s); C68_alone and C69 also with these."
 },
 "C69": {
  "note": "For the steps of the model: reading a cell, allocating, incrementing and decrementing counts, taking out the contents of a cell that is not shared. The memory orderings of Arc are taken to be right."
 },
 "C70": {
  "note": "Proved for trees all of whose stored prefixes have fewer than 128 bytes at any time (Lawful store with short prefixes); for long prefixes it is false: an entry appears whose key holds bytes of a store id (C70_false; finding F7). The vector that an abandoned InPlaceVecBuilder leaves is assumed to be a sublist of the elements that were in it (Keeps)."
 },
 "C71": {
  "note": "Outer and inner combination with an other tree in memory: proved in full. With an other tree in a store: partial, as unimplemented branches and a debug assertion are reached (C71_false, C71_debug_false; finding F8). Left combination and prefix removal and retention: what is missing is said at each theorem."
 },
 "C72": {
  "note": "After calls with any outcome for keys of less than 128 bytes; with longer keys after calls that succeeded. The count is of the blobs that the outcome depends on (ReadsAtMost): every other blob may be anything."
 },
 "C73": {
  "note": "All in-place calls with any outcome, keys and values of any length (C73_writes), under the assumption Keeps about inplace-vec-builder. Functions of the user do not make up ids (NoNewIds, implied by Computes). The other tree of a combination is one made by calls that succeeded (Att); of a tree left by a failed call no bound of its size by its keys is claimed. C73_counter_faithful: the counter changes nothing."
 },
 "C74": {
  "note": "Proved for paged files with pages of at least 68104 bytes and for browser files with blobs up to 68096 bytes or more, and for any store with ids of bounded length; false for small pages (C74_false: ten entries, pages of 1024 bytes)."
 },
 "C75": {
  "note": "Saving again is proved in full. Equal contents give equal blobs for every tree that is not a degenerate result of filter_prefix (C75_false: a tree without entries that is stored with other bytes than the empty tree)."
 },
 "C76": {
  "note": "For one store at a time on the file (opening it again closes the store). That the Arc of the page keeps the map alive, and that a shared map shows the bytes of the file, is assumed."
 },
 "C77": {
  "note": "Single calls of read and write of the store are atomic (each store has a mutex or a queue). Two reads of the same blob between two writes of the client see the same writes of others."
 },
 "C78": {
  "note": "One level of the model is one call of the code that calls itself; calls of helpers, stores and functions of the user are not counted. For serialize and drop the levels of nodes in memory are counted, as the two functions recurse over just these. outer_combine_with into a detached tree from an attached one: the bound holds for the combination and for the detaching on top of it separately, so the sum is at most twice the bound."
 },
 "C79": {
  "note": "Release builds. The specification is the same session on plain values (`prun`), where every slot has a tree of its own. Calls that panic and unwinding are left out. The function of `try_group_by` sees the path, and comes with each step of the iterator. User functions choose among the values they are given, or fail; those of combinations that make new trees can also make a value of their own. What an abandoned InPlaceVecBuilder leaves in the vector is any subsequence (`mask`); the rest is dropped."
 },
 "C80": {
  "note": "Calls that panic are left out (`Fine`), as in C79. The specification is a relation: an error is allowed only with its reason, and the item of a failed in-place call becomes unknown (what can be said about it is C36 and C70). A save may fail only if the store refuses one of the next 6 n + 4 writes, n being the number of entries, and this even of blobs whose size is bounded by the largest key or value and by 256 * (258 + N), N being the length of ids; whatever its outcome, the store only gets further writes. Functions of the user have to depend on the contents of the values only; otherwise the result is unknown. Of group_by: the groups are consecutive pieces of the entries, not empty unless the tree is, each below a path at which the function said no, or one entry at a path at which it said yes."
 },
 "C81": {
  "note": "False in full (C81_false): combining a tree in place with one in the store reaches an unimplemented branch and panics, for two small trees about which everything is known. What is proved: whatever happened before, every call on known things returns. A call that combines trees and reads an attached one has to meet conditions on the keys of the two maps (those of C90 and C91, for example that the keys of the other tree are among those of the attached one), and a function that makes values must not return the value of an attached tree as it is if that is the id of a blob; a tree that is only changed in place may be attached without condition. Functions of the user depend on the contents of the values only, that of group_by does not fail, and the store does not panic in the writes of attached and reattach."
 },
 "C82": {
  "note": "Proved: what is saved follows the documented format for every history (C82_save_any), with the exact rules for writers (short values inline, record size bytes) if everything in the store was written by this library (C82_always: whatever the outcomes of calls, also for stores with blobs that follow only the rules for readers; C82_save: with the map). What follows the format is loaded and read. Assumed for C82_save: no id is the id of two different blobs; functions of the user do not make up ids of short blobs."
 },
 "C83": {
  "note": "Calls that panic are left out as in C79 and C80 (`Fine`); C81 says which do not, and writes to these stores never panic (C83_paged_writes, C83_browser_writes). A life that ends in the middle of a call is the life without that call, whose writes are then part of what happens between two lives. `TooBig` is a bound, not exact: with pages below 68104 bytes nothing is claimed about success of saves. Files of the browser: smaller than 2 GiB at the end, not overwritten or truncated. Assumptions about the operating system and the browser as in C38, C39, C44."
 },
 "C84": {
  "note": "Answers of all calls fit contents that change as asked (C84_contents_partial), reads stop at the size that is told (C84_size_partial), nothing panics if start + n < 2^64 (C84_no_panic_partial; else it does, C84_panic_false), and if the browser does not fail all calls succeed below 2 GiB (C84_served_partial) and read what was last written (C84_last_written_partial). False in full because of the size (C45): writing the first page of a database again hides the later pages (C84_false; bug). File names are plain, as in C63; the directory is not deleted (C66)."
 },
 "C85": {
  "note": "A panic of the store or of a passed function is modelled as a failure; unwinding drops the locals that `?` drops, and only the three `Iterator::next` treat errors otherwise, so only these have steps of their own. Memory (C85_memory_partial), like plain values (C85_like_values_partial), untouched slots (C85_frame_partial), iterators over entries and values (C85_iter_partial, C85_values_partial). An interrupted step leaves out exactly those of the rest whose keys begin with some prefix. Missing: panics of the code itself. False for groups: after a caught panic of the function later groups have wrong keys (C85_group_false; bug)."
 },
 "C86": {
  "note": "Threads with a store. Schedules are lists of events; the state of the store during a call is any state, given by the schedule. TRuns: the schedule runs to its end or to a call that has no result even on plain values (a panic of the code itself, or more than n steps). C86_like_values: as if nothing were shared; C86_alone, C86_returns, C86_no_race, C86_memory. Simplified: one state of the store for a whole call; references are not lent; sequentially consistent steps."
 },
 "C87": {
  "note": "C87_like_maps: any lawful store, if at the start of each call it has everything that it had at earlier returns. C87_one_store: all threads write to one store in one order, each call sees the writes of others while it runs. C87_next_call_partial: known calls do not panic; missing: calls that combine trees and read an attached one whose keys do not fit as in C90 and C91 (they can panic, C81_false). Steps of iterators with caught panics are included."
 },
 "C88": {
  "note": "Programs are lists of operations on a store and on blobs; `run` is none for a use of freed memory or a write to shared memory. C88_mem, C88_paged, C88_browser: as if blobs were values, nothing lost, nothing left in the end. C88_*_stays: the same without the specification. C88_paged_bytes: views of the file. After a panic of PagingFile the program ends, as in C50; addresses are never used again."
 },
 "C89": {
  "note": "The count is of the blobs that the outcome depends on, as in C72. Values that are blobs of their own are not loaded by these calls. Not in the statement: try_group_by."
 },
 "C90": {
  "note": "The user's function is total, as in C56; functions that fail or panic are in C91 for the calls in place. try_outer_combine and try_left_combine take over nodes and values of the trees, and taking over a borrowed node with children, or a value that is a blob, panics in the code: hence their additional conditions."
 },
 "C91": {
  "note": "Keys of the target have fewer than 128 bytes, as in C71. With debug assertions try_left_combine_with, try_remove_prefix_with and try_retain_prefix_with can panic under any condition on the keys (C71_debug_false); the theorems say so with dbg = true as a possible cause."
 },
 "C92": {
  "note": "open is called by a unit test only; the theorems run its plan with execute_plan as write and truncate do. C92_length_stays, C92_gap_lost and C92_stale show what is not repaired or is lost: the length, bytes behind a gap, and older bytes behind a gap after an interrupted clean-up. The set of ranges comes from a crate that is not in /repo."
 },
 "C93": {
  "note": "False as it stands (C93_false): a file that was overwritten twice loses everything. Proved: it sorts out, what is kept has no gaps, and in files that are only appended to nothing is discarded. The only call of retain_relevant is commented out."
 },
 "C94": {
  "note": "False whenever the truncation goes through a blob (C94_same_place, C94_false; bug): what is left of that blob goes to a higher level, its end remains the length, and the next two blobs that are put get the same place, so that reading the first gives the second (C94_lost). Proved, for any history of changes that returned Ok, that a blob is read back as long as no later call touches its place (C94_read_back_partial), and the whole claim for a truncation between two blobs (C94_between_partial, C94_new_read_partial, C94_old_read_partial); for any history of changes that returned Ok the place is given exactly by C94_place_partial, in terms of pieces with levels."
 }
}