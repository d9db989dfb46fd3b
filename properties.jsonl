{"id": "C01", "title": "Sequential map semantics (PML)", "statement": "Starting from an empty BTreePML, every finite sequence of Read/Write/Insert/Update/Delete calls by one thread returns exactly the codes and payloads that a finite map from keys to payloads would return for the same sequence, in both node layouts.", "quantifier": "all key orders, all payloads, all finite call sequences, both layouts, every page configuration satisfying the stated size inequality", "why_tests_cant": "the tree shape depends on the whole history; splits, merges, clean-ups and root changes interact at sizes no finite test set enumerates", "anchors": ["include/b_tree/component/pml/b_tree.hpp:Read,Write,Insert,Update,Delete,SearchLeafNodeForWrite,GetRootForWrite,Split,Merge,RootSplit,ShrinkTreeIfNeeded", "include/b_tree/component/pml/node_varlen.hpp", "include/b_tree/component/pml/node_fixlen.hpp"]}
{"id": "C02", "title": "Sequential map semantics (OML)", "statement": "The same as C01 for BTreeOML.", "quantifier": "all key orders, payloads, finite call sequences, both layouts, admissible page configurations", "why_tests_cant": "as C01; in addition the retry loops must be shown to terminate for every history", "anchors": ["include/b_tree/component/oml/b_tree.hpp:Read,Write,Insert,Update,Delete,SearchLeafNodeForWrite,GetRootForWrite,TrySplit,TryMerge,TryRootSplit,TryShrinkTree", "include/b_tree/component/oml/node_varlen.hpp", "include/b_tree/component/oml/node_fixlen.hpp"]}
{"id": "C03", "title": "Sequential map semantics (PSL)", "statement": "The same as C01 for BTreePSL.", "quantifier": "all key orders, payloads, finite call sequences, both layouts, admissible page configurations", "why_tests_cant": "as C01; in addition the ancestor stack and the half-split/complete-split protocol must be right for every tree height", "anchors": ["include/b_tree/component/psl/b_tree.hpp:Read,Write,Insert,Update,Delete,HalfSplit,CompleteSplit,TryRootSplit,Merge,TryShrinkTree", "include/b_tree/component/psl/node_varlen.hpp", "include/b_tree/component/psl/node_fixlen.hpp"]}
{"id": "C04", "title": "Sequential map semantics (OSL, the default BTree)", "statement": "The same as C01 for BTreeOSL, which is what the name BTree denotes.", "quantifier": "all key orders, payloads, finite call sequences, both layouts, admissible page configurations", "why_tests_cant": "as C03", "anchors": ["include/b_tree/component/osl/b_tree.hpp:Read,Write,Insert,Update,Delete,HalfSplit,CompleteSplit,TryRootSplit,Merge,TryShrinkTree", "include/b_tree/component/osl/node_varlen.hpp", "include/b_tree/component/osl/node_fixlen.hpp"]}
{"id": "C05", "title": "Range scan returns exactly the live records of the range, in ascending order", "statement": "In a quiescent tree, iterating Scan(begin,end) to its end yields every stored (key,payload) pair whose key lies between begin and end, respecting the open/closed flag of each bound and treating an absent bound as unbounded, each exactly once, in strictly ascending key order, and nothing else.", "quantifier": "all reachable tree states, all begin/end bounds including begin > end, absent bounds and bounds equal to stored, deleted or never stored keys", "why_tests_cant": "off-by-one errors at leaf borders appear only for particular alignments of bound, separator and deleted slots", "anchors": ["include/b_tree/component/record_iterator.hpp:RecordIterator::HasRecord", "include/b_tree/component/optimistic_record_iterator.hpp:HasRecord,ResetIterator", "include/b_tree/component/pml/node_varlen.hpp:SearchEndPositionFor,IsRightmostOf", "include/b_tree/component/pml/b_tree.hpp:Scan"]}
{"id": "C06", "title": "Operations on one key never disturb another key", "statement": "Write, Insert, Update and Delete of key k leave the result of a later Read of any other key unchanged, whatever structure modifications (split, merge, clean-up, root growth or shrinkage) the call triggers.", "quantifier": "all reachable states, all pairs of distinct keys, all four write calls, all variants and layouts", "why_tests_cant": "a structure modification moves many records at once; a test sees only the neighbours it reads", "anchors": ["include/b_tree/component/pml/b_tree.hpp:SearchLeafNodeForWrite", "include/b_tree/component/psl/b_tree.hpp:CompleteSplit,Merge"]}
{"id": "C07", "title": "Return codes tell the truth about presence", "statement": "Insert returns kSuccess iff the key was absent and kKeyExist iff it was present (then nothing changes); Update and Delete return kSuccess iff the key was present and kKeyNotExist iff it was absent (then nothing changes); Write always returns kSuccess.", "quantifier": "all reachable states, keys and payloads, all variants and layouts", "why_tests_cant": "presence depends on the complete history including deleted-slot reuse", "anchors": ["include/b_tree/b_tree.hpp:Insert,Update,Delete,Write", "include/b_tree/utility.hpp:ReturnCode"]}
{"id": "C08", "title": "Every sequential call terminates", "statement": "Without concurrent callers, every Read, Write, Insert, Update, Delete and every full iteration of a Scan finishes after finitely many loop iterations.", "quantifier": "all reachable states and arguments, all variants and layouts, admissible configurations", "why_tests_cant": "non-termination of retry loops cannot be observed by a finite run", "anchors": ["include/b_tree/component/oml/b_tree.hpp:Write,Insert,GetRootForWrite", "include/b_tree/component/psl/b_tree.hpp:CompleteSplit,Merge", "include/b_tree/component/osl/b_tree.hpp:CompleteSplit,Merge"]}
{"id": "C09", "title": "A page never overflows", "statement": "No call ever makes the record area of a node page collide with its key/metadata area or writes outside the page, i.e. whenever a record or separator is placed the page has room for it.", "quantifier": "all call sequences and all key lengths up to the declared maximum, for every configuration accepted by the code's static_assert", "why_tests_cant": "depends on byte-exact combinations of key lengths, border keys, deleted space and merge history", "anchors": ["include/b_tree/component/pml/node_varlen.hpp:NeedSplit,InsertRecord,InsertChild,Merge", "include/b_tree/component/pml/node_fixlen.hpp:NeedSplit,InsertRecord,InsertChild,Split", "include/b_tree/component/pml/b_tree.hpp:static_assert(2 * kMaxRecLen <= kMinBlockSize)"]}
{"id": "C10", "title": "A node split loses, duplicates and misplaces nothing", "statement": "Splitting a node leaves every live record in exactly one of the two halves with its payload unchanged, all keys of the left half strictly below the separator and all keys of the right half at or above it, and both halves keep the outer key bounds and the sibling order.", "quantifier": "all well-formed nodes of any size, both layouts, leaves and inner nodes", "why_tests_cant": "the split point depends on byte sizes of live and dead records", "anchors": ["include/b_tree/component/pml/node_varlen.hpp:Split", "include/b_tree/component/pml/node_fixlen.hpp:Split", "include/b_tree/component/psl/node_varlen.hpp:Split", "include/b_tree/component/oml/node_varlen.hpp:Split", "include/b_tree/component/osl/node_varlen.hpp:Split"]}
{"id": "C11", "title": "A node merge loses, duplicates and misplaces nothing", "statement": "Merging a node with its right sibling yields one node holding exactly the live records of both, in order, with the left lower bound, the right upper bound and the right sibling link.", "quantifier": "all pairs of adjacent well-formed nodes, both layouts, leaves and inner nodes", "why_tests_cant": "as C10", "anchors": ["include/b_tree/component/pml/node_varlen.hpp:Merge", "include/b_tree/component/pml/node_fixlen.hpp:Merge", "include/b_tree/component/psl/node_varlen.hpp:Merge", "include/b_tree/component/osl/node_varlen.hpp:Merge"]}
{"id": "C12", "title": "Deleted-record clean-up is invisible", "statement": "Compacting a page with dead records changes neither the set of live records, their order, the key bounds nor the sibling link, and leaves no dead space accounted.", "quantifier": "all well-formed variable-length nodes", "why_tests_cant": "depends on arbitrary patterns of deleted slots", "anchors": ["include/b_tree/component/pml/node_varlen.hpp:CleanUp", "include/b_tree/component/psl/node_varlen.hpp:CleanUpIfNeeded", "include/b_tree/component/osl/node_varlen.hpp:CleanUp", "include/b_tree/component/oml/node_varlen.hpp:NeedSplit,NeedMerge"]}
{"id": "C13", "title": "A deleted key can be written again and behaves as new", "statement": "After Delete(k), k is absent for Read, Update, Delete and Scan; a following Insert(k,v) or Write(k,v) succeeds and Read(k) returns v, whether or not the dead slot was physically reused.", "quantifier": "all reachable states, keys and payloads, both layouts, all variants", "why_tests_cant": "slot reuse depends on whether a clean-up, split or merge happened in between", "anchors": ["include/b_tree/component/pml/node_varlen.hpp:Delete,ReuseRecord,Write,Insert"]}
{"id": "C14", "title": "In-node search is exact", "statement": "Looking a key up inside a node finds its slot iff a slot with that key exists, and otherwise yields the unique insertion position that keeps the slots sorted; in an inner node it yields the child whose key interval contains the key.", "quantifier": "nodes with any number of slots, any key", "why_tests_cant": "binary search must be right for every length and position", "anchors": ["include/b_tree/component/pml/node_varlen.hpp:SearchRecord", "include/b_tree/component/pml/node_fixlen.hpp:SearchRecord"]}
{"id": "C15", "title": "No page is leaked or freed while in use by sequential histories", "statement": "At every quiescent point of a single-threaded history each allocated page is reachable from the root exactly once through child links, no child or sibling link refers to a released page, and no page is released twice; destroying the tree releases every page exactly once.", "quantifier": "all call sequences, all variants", "why_tests_cant": "needs the whole history of allocations and releases", "anchors": ["include/b_tree/component/pml/b_tree.hpp:Merge,ShrinkTreeIfNeeded,DeleteChildren", "include/b_tree/component/psl/b_tree.hpp:Merge,TryShrinkTree"]}
{"id": "C16", "title": "All leaves have the same depth and key intervals partition the key space", "statement": "At every quiescent point every root-to-leaf path has the same length and, on each level, the intervals served by the nodes are pairwise disjoint and cover all keys, so each key has exactly one home leaf and a search for it ends there.", "quantifier": "all call sequences, all variants and layouts", "why_tests_cant": "a structural invariant over all reachable trees", "anchors": ["include/b_tree/component/pml/b_tree.hpp:SearchLeafNodeForRead", "include/b_tree/component/psl/b_tree.hpp:SearchLeafNode"]}
{"id": "C17", "title": "Bulkload builds exactly the given records", "statement": "Bulkload of a list of entries with strictly ascending keys returns kSuccess and leaves a tree whose contents are exactly the given entries; all later operations and scans then behave as on a map with these contents.", "quantifier": "all sorted duplicate-free entry lists that take at least two leaves (more bytes than one page, or two or more workers; the small inputs are the subject of C19), all histories mixing bulkloads and other calls, all variants and layouts", "why_tests_cant": "node borders fall on different entries for each list length and key-length pattern", "anchors": ["include/b_tree/component/pml/b_tree.hpp:Bulkload,BulkloadWithSingleThread,ConstructSingleLayer", "include/b_tree/component/pml/node_varlen.hpp:Bulkload,LinkNext,RemoveLeftmostKeys", "include/b_tree/component/pml/node_fixlen.hpp:Bulkload"]}
{"id": "C18", "title": "Parallel bulkload partitions the input exactly", "statement": "With thread_num > 1 the per-thread chunks are consecutive, disjoint and together cover every entry exactly once, whatever the entry count and thread count, so the resulting contents do not depend on thread_num.", "quantifier": "all entry counts n and thread counts t with 1 < t <= n", "why_tests_cant": "an arithmetic identity over all pairs (n,t)", "anchors": ["include/b_tree/component/pml/b_tree.hpp:Bulkload (n = (rec_num + i) / thread_num)"]}
{"id": "C19", "title": "Bulkload works for any entry count", "statement": "Bulkload of a non-empty entry list never corrupts memory, also when the entries fit into a single page.", "quantifier": "all non-empty entry lists, all variants and layouts", "why_tests_cant": "only inputs small enough to produce a one-leaf tree reach the faulty path; the shipped fixtures load large inputs only", "anchors": ["include/b_tree/component/pml/node_varlen.hpp:RemoveLeftmostKeys", "include/b_tree/component/pml/node_fixlen.hpp:RemoveLeftmostKeys"]}
{"id": "C20", "title": "Statistics count every node once per level", "statement": "CollectStatisticalData reports for each level the number of nodes of that level, the sum of their used bytes and page size times that number.", "quantifier": "all reachable trees", "why_tests_cant": "needs all tree shapes", "anchors": ["include/b_tree/component/pml/b_tree.hpp:CollectStatisticalData"]}
{"id": "C21", "title": "Optimistic reads return a consistent snapshot", "statement": "If an optimistic reader sees the same even/unlocked version of a node before and after reading its fields, all values it read are values the node held simultaneously at one instant inside that interval.", "quantifier": "all interleavings of any number of readers and writers, all field contents", "why_tests_cant": "a torn read needs a preemption at one particular instruction", "anchors": ["include/b_tree/component/osl/node_varlen.hpp:Read,CheckKeyRange,SearchChild", "include/b_tree/component/oml/node_varlen.hpp:Read,SearchChild,CheckNodeStatus"]}
{"id": "C22", "title": "Linearizability of point operations (PSL)", "statement": "In every concurrent execution of Read/Write/Insert/Update/Delete on BTreePSL, each completed call appears to take effect atomically on a map at some instant between its invocation and its response.", "quantifier": "all numbers of threads, all interleavings, all keys and payloads, any sequence of concurrent splits and merges", "why_tests_cant": "the number of schedules is unbounded", "anchors": ["include/b_tree/component/psl/b_tree.hpp", "include/b_tree/component/psl/node_varlen.hpp", "include/b_tree/component/psl/node_fixlen.hpp"]}
{"id": "C23", "title": "Linearizability of point operations (OSL)", "statement": "As C22 for BTreeOSL.", "quantifier": "all numbers of threads and interleavings", "why_tests_cant": "the number of schedules is unbounded", "anchors": ["include/b_tree/component/osl/b_tree.hpp", "include/b_tree/component/osl/node_varlen.hpp", "include/b_tree/component/osl/node_fixlen.hpp"]}
{"id": "C24", "title": "Linearizability of point operations (PML)", "statement": "As C22 for BTreePML.", "quantifier": "all numbers of threads and interleavings", "why_tests_cant": "the number of schedules is unbounded", "anchors": ["include/b_tree/component/pml/b_tree.hpp", "include/b_tree/component/pml/node_varlen.hpp", "include/b_tree/component/pml/node_fixlen.hpp"]}
{"id": "C25", "title": "Linearizability of point operations (OML)", "statement": "As C22 for BTreeOML.", "quantifier": "all numbers of threads and interleavings", "why_tests_cant": "the number of schedules is unbounded", "anchors": ["include/b_tree/component/oml/b_tree.hpp", "include/b_tree/component/oml/node_varlen.hpp", "include/b_tree/component/oml/node_fixlen.hpp"]}
{"id": "C26", "title": "A completed write is never lost", "statement": "Once Write(k,v) or a successful Insert(k,v) has returned and no other call on k is made, every later Read(k) returns v, no matter which concurrent calls on other keys split or merge nodes meanwhile.", "quantifier": "all interleavings of calls on other keys, all variants with side links (PSL, OSL)", "why_tests_cant": "needs a second split of the same node between two instructions of the first splitter", "anchors": ["include/b_tree/component/psl/b_tree.hpp:Write,CompleteSplit", "include/b_tree/component/psl/node_varlen.hpp:GetSeparatorKey", "include/b_tree/component/osl/b_tree.hpp:Write,CompleteSplit", "include/b_tree/component/osl/node_varlen.hpp:GetSeparatorKey"]}
{"id": "C27", "title": "A split's separator reaches its parent", "statement": "After a concurrent split has been completed, its separator/child pair is present in the parent level, and the thread that performed the split returns.", "quantifier": "all interleavings of concurrent splits in PSL/OSL", "why_tests_cant": "needs overlapping splits of the same node or of the root", "anchors": ["include/b_tree/component/psl/b_tree.hpp:CompleteSplit,TryRootSplit", "include/b_tree/component/osl/b_tree.hpp:CompleteSplit,TryRootSplit"]}
{"id": "C28", "title": "Merging never blocks the merging thread on itself", "statement": "A thread that merges a node with its right sibling never waits for a lock it already holds.", "quantifier": "all schedules of PSL/OSL merges with concurrent structure modifications", "why_tests_cant": "the retry path of the merge loop is taken only if the parent's entry is missing at that moment", "anchors": ["include/b_tree/component/psl/b_tree.hpp:Merge", "include/b_tree/component/psl/node_varlen.hpp:GetMergeableSiblingNode,DeleteChild", "include/b_tree/component/osl/b_tree.hpp:Merge"]}
{"id": "C29", "title": "Lock-coupling descents do not deadlock (PML)", "statement": "Threads that execute only point operations on BTreePML never reach a state in which some of them wait for each other in a cycle.", "quantifier": "all numbers of threads, all interleavings, all tree shapes", "why_tests_cant": "deadlocks need particular simultaneous lock requests", "anchors": ["include/b_tree/component/pml/b_tree.hpp:SearchLeafNodeForRead,SearchLeafNodeForWrite,GetRootForWrite,Split,Merge", "include/b_tree/component/pml/node_varlen.hpp:GetChildForRead,GetChildForWrite,GetMergeableRightChild"]}
{"id": "C30", "title": "No page is accessed after it has been released (PML)", "statement": "While a thread reads or holds a lock on a node of a BTreePML, no other thread releases the memory of that node.", "quantifier": "all interleavings of readers and writers", "why_tests_cant": "needs a reader to stand on the old root while a writer shrinks the tree", "anchors": ["include/b_tree/component/pml/b_tree.hpp:ShrinkTreeIfNeeded,GetRootForRead,Merge"]}
{"id": "C31", "title": "Retired pages are unreachable for new operations (PSL, OSL, OML)", "statement": "When a page is handed to the garbage collector, no operation that starts afterwards can reach it, so epoch-based reclamation after all earlier operations ended is safe.", "quantifier": "all interleavings", "why_tests_cant": "needs particular overlaps between merging and searching threads", "anchors": ["include/b_tree/component/psl/b_tree.hpp:Merge,TryShrinkTree", "include/b_tree/component/osl/b_tree.hpp:Merge,TryShrinkTree", "include/b_tree/component/oml/b_tree.hpp:TryMerge,TryShrinkTree"]}
{"id": "C32", "title": "A read never returns a value that was overwritten before the read began (OML)", "statement": "If Write(k,v2) has returned before Read(k) starts and no other call on k runs, Read(k) does not return an older value, also while the leaf of k is being merged.", "quantifier": "all interleavings of one merge with readers and writers", "why_tests_cant": "needs a writer parked on the left node across a split and a following merge", "anchors": ["include/b_tree/component/oml/node_varlen.hpp:Merge", "include/b_tree/component/oml/node_fixlen.hpp:Merge", "include/b_tree/component/oml/b_tree.hpp:TryMerge"]}
{"id": "C33", "title": "A present key is found while its neighbour is merged (OML, variable-length layout)", "statement": "If k is present during the whole execution of Read(k), Read(k) returns its payload, also if the node holding k is concurrently merged with its right sibling.", "quantifier": "all interleavings of readers with one merge, all key bytes", "why_tests_cant": "the high key is published before the exclusive lock is taken; only a reader inside that window sees it", "anchors": ["include/b_tree/component/oml/node_varlen.hpp:Merge (lines 1036-1043)"]}
{"id": "C34", "title": "Concurrent scans do not skip stable records", "statement": "A record that is present during the whole lifetime of a scan over a range containing its key is reported by that scan, and no key is reported twice.", "quantifier": "all interleavings of one scan with writers, all variants", "why_tests_cant": "needs a writer between the position computation and the end-position computation of the iterator", "anchors": ["include/b_tree/component/optimistic_record_iterator.hpp:HasRecord,ResetIterator", "include/b_tree/component/record_iterator.hpp"]}
{"id": "C35", "title": "Two iterators of one thread are independent", "statement": "A thread that advances two scan iterators in any alternation gets from each the same records as if the other did not exist.", "quantifier": "all reachable states, all ranges, all alternations of HasRecord/GetKey/++", "why_tests_cant": "the shipped tests never keep two iterators alive at once", "anchors": ["include/b_tree/component/optimistic_record_iterator.hpp:key_"]}
{"id": "C36", "title": "Physical page layout stores what was put (fixed-length layout)", "statement": "At byte level, after any sequence of insertions, deletions, splits and merges in a page, the i-th key and the i-th payload read from the page bytes are the i-th key and payload of the logical record list; nothing is read from bytes of another record.", "quantifier": "all page contents, positions, key and payload sizes for which the room check passed", "why_tests_cant": "memmove ranges and overlapping regions must be right for every position and count", "anchors": ["include/b_tree/component/pml/node_fixlen.hpp:InsertRecord,Delete,InsertChild,DeleteChild,CopyRecordsFrom,GetPayloadAddr,SetPayload"]}
{"id": "C37", "title": "Physical page layout stores what was put (variable-length layout)", "statement": "At byte level, after any sequence of insertions, reuses, clean-ups, splits and merges, the key and payload addressed by the i-th metadata slot are those of the i-th logical record, and metadata slots never overlap record bytes.", "quantifier": "all page contents, positions, key and payload lengths for which the room check passed", "why_tests_cant": "as C36", "anchors": ["include/b_tree/component/pml/node_varlen.hpp:InsertRecord,ReuseRecord,CleanUp,CopyRecordFrom,SetKey,SetPayload", "include/b_tree/component/metadata.hpp"]}
{"id": "C38", "title": "Slot metadata survives packing", "statement": "Packing offset, key length and record length into a slot and reading them back returns the same numbers, marking a slot deleted changes none of them, and slot equality ignores the deletion mark.", "quantifier": "all offsets below 2^31 and all lengths below 2^16", "why_tests_cant": "all bit patterns", "anchors": ["include/b_tree/component/metadata.hpp:Metadata"]}
{"id": "C39", "title": "Border keys steer scans and side steps correctly", "statement": "A scan stops at a node only if no record of a later node can belong to the range, it does stop there as soon as the end key is below the node's upper bound, and a search leaves a node for its right sibling iff the key is not below the node's upper bound.", "quantifier": "all nodes and keys", "why_tests_cant": "equality of bound and border key is one point of the key space", "anchors": ["include/b_tree/component/pml/node_varlen.hpp:IsRightmostOf,CompHighKey", "include/b_tree/component/psl/node_varlen.hpp:CheckKeyRangeAndLockForRead"]}
{"id": "C40", "title": "The compile-time size check is sufficient", "statement": "Every configuration accepted by static_assert(2 * kMaxRecLen <= kMinBlockSize) gives a tree whose pages never overflow and whose splits always put records on both sides.", "quantifier": "all page sizes, header sizes, key and payload sizes", "why_tests_cant": "the shipped tests instantiate a handful of configurations far away from the bound", "anchors": ["include/b_tree/component/pml/b_tree.hpp:755 static_assert", "include/b_tree/component/psl/b_tree.hpp:936", "include/b_tree/component/oml/b_tree.hpp:835", "include/b_tree/component/osl/b_tree.hpp:909"]}
{"id": "C41", "title": "Bulkload replaces, it does not merge", "statement": "After a Bulkload on an index that already holds records, exactly the loaded entries are stored: a key that is not among them is absent, even if it was stored before.", "quantifier": "all prior states, entry lists and keys, all variants and layouts", "why_tests_cant": "a statement about all prior states", "anchors": ["include/b_tree/component/pml/b_tree.hpp:Bulkload (root_ = ...)"]}
{"id": "C42", "title": "Bulkload releases what it replaces", "statement": "When an index that has been bulkloaded is destroyed, all memory it allocated has been released.", "quantifier": "all prior states and entry lists, all variants and layouts", "why_tests_cant": "no functional test observes unreachable pages; the statement ranges over all histories", "anchors": ["include/b_tree/component/pml/b_tree.hpp:Bulkload (root_ = ...),~BTree", "include/b_tree/component/osl/b_tree.hpp:Bulkload,~BTree"]}
{"id": "C43", "title": "Iterators do not touch released pages (PML, PSL)", "statement": "An iterator of the pessimistic variants holds no epoch guard; while the caller loops over it, it never uses a page that has been handed to the garbage collector or freed.", "quantifier": "all interleavings of scans with writers", "why_tests_cant": "needs two overlapping merges next to the page of the iterator; a use of freed memory rarely shows", "anchors": ["include/b_tree/component/record_iterator.hpp:HasRecord", "include/b_tree/component/psl/b_tree.hpp:Scan (guard),Merge", "include/b_tree/component/psl/node_varlen.hpp:GetNextNodeForRead", "include/b_tree/component/pml/b_tree.hpp:Scan,Merge"]}
{"id": "C44", "title": "One writer at a time is enough (PSL, OSL)", "statement": "If the caller sees to it that no two calls of Write, Insert, Update and Delete overlap, while any number of Reads run at the same time, then on the single-layer variants every history is linearizable, no write is lost and nothing is undefined: no separator is read too late, no root pointer is overwritten.", "quantifier": "all executions of any number of threads from the empty tree in which calls that can change the map do not overlap, all configurations with room for two maximal records, both layouts", "why_tests_cant": "a statement about all interleavings of readers with splits, merges, root splits and root removals", "anchors": ["include/b_tree/component/psl/b_tree.hpp:Write,Insert,Update,Delete,Read", "include/b_tree/component/osl/b_tree.hpp:Write,Insert,Update,Delete,Read"]}
{"id": "C45", "title": "Scans next to one writer report every stable record exactly once", "statement": "If no two calls of Write, Insert, Update and Delete overlap, a scan that runs next to them (loop over the iterator included) reports every record in its range that stays unchanged during the scan, reports keys in ascending order and none twice, and everything it reports was stored at some instant of the scan.", "quantifier": "all executions of any number of scanning and reading threads with writing calls that do not overlap, from the empty tree, all ranges", "why_tests_cant": "a scan crosses pages that are split and merged meanwhile; all interleavings have to be considered", "anchors": ["include/b_tree/component/psl/b_tree.hpp:Scan,Merge", "include/b_tree/component/psl/node_varlen.hpp:GetNextNodeForRead", "include/b_tree/component/record_iterator.hpp:HasRecord", "include/b_tree/component/osl/b_tree.hpp:Scan", "include/b_tree/component/oml/b_tree.hpp:Scan"]}
{"id": "C46", "title": "A scan reports the contents of the index at one instant", "statement": "The records that a scan reports (loop over the iterator included) are the records of its range at one instant between the call and the end of the loop: scans are linearizable, like the other calls.", "quantifier": "all executions of any number of threads from the empty tree, all ranges; the second reading: all executions in which no call that can change the index overlaps a scan", "why_tests_cant": "a torn scan needs writers that get in between two pages of one scan; no single run shows that it cannot happen", "anchors": ["include/b_tree/component/record_iterator.hpp:HasRecord", "include/b_tree/component/optimistic_record_iterator.hpp:HasRecord", "include/b_tree/component/pml/b_tree.hpp:Scan", "include/b_tree/component/psl/b_tree.hpp:Scan", "include/b_tree/component/oml/b_tree.hpp:Scan", "include/b_tree/component/osl/b_tree.hpp:Scan"]}
{"id": "C47", "title": "A call gives up all its locks before it returns", "statement": "No call ever waits for a thread that is between two calls: whoever makes another call wait is itself in the middle of a call that has not returned (for Scan, the loop over the iterator included).", "quantifier": "all interleavings of any number of threads and calls of all kinds, from the empty tree", "why_tests_cant": "a lock that is kept on a rare path (retry, lost race, return code of a failed write) shows only later, as a hang of another thread", "anchors": ["include/b_tree/component/pml/b_tree.hpp:Write,Insert,Update,Delete,Scan", "include/b_tree/component/psl/b_tree.hpp:Write,Insert,Update,Delete,Split,Merge,CompleteSplit", "include/b_tree/component/osl/b_tree.hpp:Write,Insert,Update,Delete,Split,Merge", "include/b_tree/component/oml/b_tree.hpp:Write,Insert,Update,Delete,Split,Merge", "include/b_tree/component/oml/node_varlen.hpp:CheckForWrite..."]}
{"id": "C48", "title": "Readers of the optimistic variants make nobody wait", "statement": "On the optimistic variants (OSL, OML) a Read or a Scan, loop over the iterator included, never makes another call wait.", "quantifier": "all interleavings of any number of threads and calls of all kinds, from the empty tree", "why_tests_cant": "a statement about all moments of all executions; tests do not observe who waits for whom", "anchors": ["include/b_tree/component/osl/b_tree.hpp:Read,Scan", "include/b_tree/component/oml/b_tree.hpp:Read,Scan", "include/b_tree/component/optimistic_record_iterator.hpp:HasRecord"]}
{"id": "C49", "title": "Threads do not deadlock (PSL, OSL)", "statement": "On the single-layer variants threads never wait for each other in a cycle, and whenever a call has to wait there is a call in progress, which it waits for directly or through others, that can go on.", "quantifier": "all interleavings of any number of threads and calls, from the empty tree", "why_tests_cant": "deadlocks need particular simultaneous lock requests in splits and merges of neighbouring pages and their parents", "anchors": ["include/b_tree/component/psl/b_tree.hpp:CompleteSplit,SearchParentNode,Split,Merge,TryShrinkTree", "include/b_tree/component/osl/b_tree.hpp:Split,Merge,TryShrinkTree", "include/b_tree/component/psl/node_varlen.hpp:GetNodeForWrite..."]}
{"id": "C50", "title": "One writer at a time does not deadlock (PSL, OSL)", "statement": "If no two calls of Write, Insert, Update and Delete overlap, while any number of Reads and Scans run at the same time, then on the single-layer variants threads never wait for each other in a cycle (in particular no call waits for itself), and whenever a call has to wait there is a call in progress, which it waits for directly or through others, that can go on.", "quantifier": "all interleavings of any number of threads and calls, deletes included, in which calls that can change the map do not overlap, from the empty tree", "why_tests_cant": "whether the retry of a merge meets its own locks depends on what readers and earlier splits have left in the parent; tests see single schedules", "anchors": ["include/b_tree/component/psl/b_tree.hpp:Merge,TryShrinkTree,Split,SearchParentNode", "include/b_tree/component/osl/b_tree.hpp:Merge,TryShrinkTree,Split,SearchParentNode"]}
{"id": "C51", "title": "Loading first and working concurrently afterwards keeps all records", "statement": "After any calls made by one thread (bulkloads of any number of entries among them) any number of threads may start: the histories of what they do are linearizable, beginning with the contents that were loaded; no call runs into undefined behaviour, a record that was loaded and that no call changes is found by every Read and reported by every Scan of a range with it, and without Delete there is no deadlock.", "quantifier": "all sequences of calls before the threads start, all sorted entry lists and worker counts (trees of any height), all interleavings of any number of threads afterwards", "why_tests_cant": "the states a bulkload leaves (fill rates, ragged right edges, leaked pages) are not those that single writes leave; schedules and states multiply", "anchors": ["include/b_tree/component/psl/b_tree.hpp:Bulkload,Read,Write,Insert,Update,Delete,Scan", "include/b_tree/component/osl/b_tree.hpp:Bulkload,Read,Write,Insert,Update,Delete,Scan", "include/b_tree/component/oml/b_tree.hpp:Bulkload,Read,Write,Insert,Update,Delete,Scan", "include/b_tree/component/pml/b_tree.hpp:Bulkload"]}
{"id": "C52", "title": "One writer at a time is enough on a loaded index (PSL, OSL)", "statement": "After any calls made by one thread, bulkloads among them, any number of threads may read and scan while calls of Write, Insert, Update and Delete do not overlap each other: on the single-layer variants Reads and writes are linearizable beginning with the loaded contents, nothing that was loaded is lost, nothing but a Scan of OSL is undefined, and there is no deadlock; scans of PSL report every stable record.", "quantifier": "all sequences of calls before the threads start, all interleavings afterwards in which calls that can change the map do not overlap", "why_tests_cant": "a statement about all interleavings from all loaded trees", "anchors": ["include/b_tree/component/psl/b_tree.hpp:Bulkload,Read,Write,Insert,Update,Delete,Scan", "include/b_tree/component/osl/b_tree.hpp:Bulkload,Read,Write,Insert,Update,Delete,Scan"]}
{"id": "C53", "title": "Any number of threads may update a loaded index (PSL, OSL)", "statement": "After any calls made by one thread, bulkloads among them, any number of threads may Read, Update and Scan at the same time: on the single-layer variants Reads and Updates are linearizable beginning with the loaded contents, no record that was loaded is lost, nothing but a Scan of OSL is undefined, and there is no deadlock; scans of PSL report every stable record and no key twice.", "quantifier": "all sequences of calls before the threads start (trees of any height), all interleavings of any number of Reads, Updates and Scans afterwards", "why_tests_cant": "a statement about all interleavings from all loaded trees; the exclusive locks of several updates meet in arbitrary orders", "anchors": ["include/b_tree/component/psl/b_tree.hpp:Read,Update,Scan", "include/b_tree/component/osl/b_tree.hpp:Read,Update,Scan", "include/b_tree/component/osl/node_varlen.hpp:Update"]}
{"id": "C54", "title": "A loaded index that is only read gives the loaded contents and nobody waits", "statement": "After any calls made by one thread, bulkloads among them, threads that only Read and Scan get exactly the loaded contents (a Scan reports its whole range), no call is undefined, and no call ever waits.", "quantifier": "all sequences of calls before the threads start (trees of any height), all interleavings of any number of Reads and Scans afterwards", "why_tests_cant": "a statement about all loaded trees, ranges and interleavings", "anchors": ["include/b_tree/component/pml/b_tree.hpp:Read,Scan", "include/b_tree/component/psl/b_tree.hpp:Read,Scan", "include/b_tree/component/oml/b_tree.hpp:Read,Scan", "include/b_tree/component/osl/b_tree.hpp:Read,Scan", "include/b_tree/component/record_iterator.hpp:HasRecord", "include/b_tree/component/optimistic_record_iterator.hpp:HasRecord"]}
{"id": "C55", "title": "Threads of OML do not deadlock", "statement": "On the optimistic multi-layer variant threads never wait for each other in a cycle (in particular no call waits for itself), and whenever a call has to wait there is a call in progress, which it waits for directly or through others, that can go on; also on trees that earlier calls and bulkloads have built.", "quantifier": "all interleavings of any number of threads and calls, scans and deletes included, from the empty tree and from all loaded trees", "why_tests_cant": "deadlocks need particular simultaneous lock requests on parents, children and siblings; tests see single schedules", "anchors": ["include/b_tree/component/oml/b_tree.hpp:SearchLeafNodeForWrite,TrySplit,TryMerge,TryRootSplit,TryShrinkTree", "include/b_tree/component/oml/node_varlen.hpp:CheckKeyRangeAndLockForWrite,CheckSMOs,GetMergeableRightChild"]}
{"id": "C56", "title": "Phases of single-threaded and of concurrent use may alternate", "statement": "An index may be used by one thread (Bulkload included), then by any number of threads at the same time, and when all of these have returned by one thread again, and so on any number of times: one map explains all answers of all phases (each call of a concurrent phase takes effect at one instant, scans part by part), every call made by a thread on its own returns, and no phase leaves anything behind that blocks or breaks a later one.", "quantifier": "all numbers and lengths of phases, all calls in them, all interleavings in the concurrent phases", "why_tests_cant": "what a concurrent phase leaves in memory depends on its schedule; tests try few schedules and do not look at the pages left behind", "anchors": ["include/b_tree/component/pml/b_tree.hpp:Read,Scan,Write,Insert,Update,Delete,Bulkload", "include/b_tree/component/psl/b_tree.hpp:Read,Scan,Write,Insert,Update,Delete,Bulkload", "include/b_tree/component/osl/b_tree.hpp:Read,Scan,Write,Insert,Update,Delete,Bulkload", "include/b_tree/component/oml/b_tree.hpp:Read,Scan,Write,Insert,Update,Delete,Bulkload"]}
{"id": "C57", "title": "After concurrent use the index is a balanced tree, its statistics are exact and it can be destroyed", "statement": "When an index has been used in any sequence of single-threaded and concurrent phases and no call is running, all leaves have the same depth, on every level every key is served by exactly one page, every page is sorted, within its size and its interval and linked to its right neighbour, CollectStatisticalData returns one entry per level that counts every page of the level once and adds up the usage of these pages, and the destructor ends, touches no released page, releases every page of the tree and no page outside of it.", "quantifier": "all numbers and lengths of phases, all calls in them, all interleavings in the concurrent phases, all quiescent moments", "why_tests_cant": "a concurrent phase can leave splits and merges half done, or pages that belong to two parents, under a rare schedule only; later reads may still succeed", "anchors": ["include/b_tree/component/pml/b_tree.hpp:CollectStatisticalData,~BTree,DeleteChildren", "include/b_tree/component/psl/b_tree.hpp:CollectStatisticalData,~BTree,DeleteChildren", "include/b_tree/component/osl/b_tree.hpp:CollectStatisticalData,~BTree,DeleteChildren", "include/b_tree/component/oml/b_tree.hpp:CollectStatisticalData,~BTree,DeleteChildren"]}
