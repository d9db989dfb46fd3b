#!/usr/bin/env python3
"""Writes /verif/properties.jsonl.  One dict per property."""
import json, os
V = {v: f"include/b_tree/component/{v}/b_tree.hpp" for v in ("pml", "psl", "oml", "osl")}
NV = {v: f"include/b_tree/component/{v}/node_varlen.hpp" for v in V}
NF = {v: f"include/b_tree/component/{v}/node_fixlen.hpp" for v in V}
P = []
def prop(title, statement, quantifier, why, anchors):
    P.append(dict(id="C%02d" % (len(P) + 1), title=title, statement=statement,
                  quantifier=quantifier, why_tests_cant=why, anchors=anchors))

prop("Sequential map semantics (PML)",
     "Starting from an empty BTreePML, every finite sequence of Read/Write/Insert/Update/Delete calls by one thread returns exactly the codes and payloads that a finite map from keys to payloads would return for the same sequence, in both node layouts.",
     "all key orders, all payloads, all finite call sequences, both layouts, every page configuration satisfying the stated size inequality",
     "the tree shape depends on the whole history; splits, merges, clean-ups and root changes interact at sizes no finite test set enumerates",
     [V["pml"] + ":Read,Write,Insert,Update,Delete,SearchLeafNodeForWrite,GetRootForWrite,Split,Merge,RootSplit,ShrinkTreeIfNeeded", NV["pml"], NF["pml"]])
prop("Sequential map semantics (OML)",
     "The same as C01 for BTreeOML.",
     "all key orders, payloads, finite call sequences, both layouts, admissible page configurations",
     "as C01; in addition the retry loops must be shown to terminate for every history",
     [V["oml"] + ":Read,Write,Insert,Update,Delete,SearchLeafNodeForWrite,GetRootForWrite,TrySplit,TryMerge,TryRootSplit,TryShrinkTree", NV["oml"], NF["oml"]])
prop("Sequential map semantics (PSL)",
     "The same as C01 for BTreePSL.",
     "all key orders, payloads, finite call sequences, both layouts, admissible page configurations",
     "as C01; in addition the ancestor stack and the half-split/complete-split protocol must be right for every tree height",
     [V["psl"] + ":Read,Write,Insert,Update,Delete,HalfSplit,CompleteSplit,TryRootSplit,Merge,TryShrinkTree", NV["psl"], NF["psl"]])
prop("Sequential map semantics (OSL, the default BTree)",
     "The same as C01 for BTreeOSL, which is what the name BTree denotes.",
     "all key orders, payloads, finite call sequences, both layouts, admissible page configurations",
     "as C03",
     [V["osl"] + ":Read,Write,Insert,Update,Delete,HalfSplit,CompleteSplit,TryRootSplit,Merge,TryShrinkTree", NV["osl"], NF["osl"]])
prop("Range scan returns exactly the live records of the range, in ascending order",
     "In a quiescent tree, iterating Scan(begin,end) to its end yields every stored (key,payload) pair whose key lies between begin and end, respecting the open/closed flag of each bound and treating an absent bound as unbounded, each exactly once, in strictly ascending key order, and nothing else.",
     "all reachable tree states, all begin/end bounds including begin > end, absent bounds and bounds equal to stored, deleted or never stored keys",
     "off-by-one errors at leaf borders appear only for particular alignments of bound, separator and deleted slots",
     ["include/b_tree/component/record_iterator.hpp:RecordIterator::HasRecord", "include/b_tree/component/optimistic_record_iterator.hpp:HasRecord,ResetIterator", NV["pml"] + ":SearchEndPositionFor,IsRightmostOf", V["pml"] + ":Scan"])
prop("Operations on one key never disturb another key",
     "Write, Insert, Update and Delete of key k leave the result of a later Read of any other key unchanged, whatever structure modifications (split, merge, clean-up, root growth or shrinkage) the call triggers.",
     "all reachable states, all pairs of distinct keys, all four write calls, all variants and layouts",
     "a structure modification moves many records at once; a test sees only the neighbours it reads",
     [V["pml"] + ":SearchLeafNodeForWrite", V["psl"] + ":CompleteSplit,Merge"])
prop("Return codes tell the truth about presence",
     "Insert returns kSuccess iff the key was absent and kKeyExist iff it was present (then nothing changes); Update and Delete return kSuccess iff the key was present and kKeyNotExist iff it was absent (then nothing changes); Write always returns kSuccess.",
     "all reachable states, keys and payloads, all variants and layouts",
     "presence depends on the complete history including deleted-slot reuse",
     ["include/b_tree/b_tree.hpp:Insert,Update,Delete,Write", "include/b_tree/utility.hpp:ReturnCode"])
prop("Every sequential call terminates",
     "Without concurrent callers, every Read, Write, Insert, Update, Delete and every full iteration of a Scan finishes after finitely many loop iterations.",
     "all reachable states and arguments, all variants and layouts, admissible configurations",
     "non-termination of retry loops cannot be observed by a finite run",
     [V["oml"] + ":Write,Insert,GetRootForWrite", V["psl"] + ":CompleteSplit,Merge", V["osl"] + ":CompleteSplit,Merge"])
prop("A page never overflows",
     "No call ever makes the record area of a node page collide with its key/metadata area or writes outside the page, i.e. whenever a record or separator is placed the page has room for it.",
     "all call sequences and all key lengths up to the declared maximum, for every configuration accepted by the code's static_assert",
     "depends on byte-exact combinations of key lengths, border keys, deleted space and merge history",
     [NV["pml"] + ":NeedSplit,InsertRecord,InsertChild,Merge", NF["pml"] + ":NeedSplit,InsertRecord,InsertChild,Split", V["pml"] + ":static_assert(2 * kMaxRecLen <= kMinBlockSize)"])
prop("A node split loses, duplicates and misplaces nothing",
     "Splitting a node leaves every live record in exactly one of the two halves with its payload unchanged, all keys of the left half strictly below the separator and all keys of the right half at or above it, and both halves keep the outer key bounds and the sibling order.",
     "all well-formed nodes of any size, both layouts, leaves and inner nodes",
     "the split point depends on byte sizes of live and dead records",
     [NV["pml"] + ":Split", NF["pml"] + ":Split", NV["psl"] + ":Split", NV["oml"] + ":Split", NV["osl"] + ":Split"])
prop("A node merge loses, duplicates and misplaces nothing",
     "Merging a node with its right sibling yields one node holding exactly the live records of both, in order, with the left lower bound, the right upper bound and the right sibling link.",
     "all pairs of adjacent well-formed nodes, both layouts, leaves and inner nodes",
     "as C10",
     [NV["pml"] + ":Merge", NF["pml"] + ":Merge", NV["psl"] + ":Merge", NV["osl"] + ":Merge"])
prop("Deleted-record clean-up is invisible",
     "Compacting a page with dead records changes neither the set of live records, their order, the key bounds nor the sibling link, and leaves no dead space accounted.",
     "all well-formed variable-length nodes",
     "depends on arbitrary patterns of deleted slots",
     [NV["pml"] + ":CleanUp", NV["psl"] + ":CleanUpIfNeeded", NV["osl"] + ":CleanUp", NV["oml"] + ":NeedSplit,NeedMerge"])
prop("A deleted key can be written again and behaves as new",
     "After Delete(k), k is absent for Read, Update, Delete and Scan; a following Insert(k,v) or Write(k,v) succeeds and Read(k) returns v, whether or not the dead slot was physically reused.",
     "all reachable states, keys and payloads, both layouts, all variants",
     "slot reuse depends on whether a clean-up, split or merge happened in between",
     [NV["pml"] + ":Delete,ReuseRecord,Write,Insert"])
prop("In-node search is exact",
     "Looking a key up inside a node finds its slot iff a slot with that key exists, and otherwise yields the unique insertion position that keeps the slots sorted; in an inner node it yields the child whose key interval contains the key.",
     "nodes with any number of slots, any key",
     "binary search must be right for every length and position",
     [NV["pml"] + ":SearchRecord", NF["pml"] + ":SearchRecord"])
prop("No page is leaked or freed while in use by sequential histories",
     "At every quiescent point of a single-threaded history each allocated page is reachable from the root exactly once through child links, no child or sibling link refers to a released page, and no page is released twice; destroying the tree releases every page exactly once.",
     "all call sequences, all variants",
     "needs the whole history of allocations and releases",
     [V["pml"] + ":Merge,ShrinkTreeIfNeeded,DeleteChildren", V["psl"] + ":Merge,TryShrinkTree"])
prop("All leaves have the same depth and key intervals partition the key space",
     "At every quiescent point every root-to-leaf path has the same length and, on each level, the intervals served by the nodes are pairwise disjoint and cover all keys, so each key has exactly one home leaf and a search for it ends there.",
     "all call sequences, all variants and layouts",
     "a structural invariant over all reachable trees",
     [V["pml"] + ":SearchLeafNodeForRead", V["psl"] + ":SearchLeafNode"])
prop("Bulkload builds exactly the given records",
     "Bulkload of a list of entries with strictly ascending keys returns kSuccess and leaves a tree whose contents are exactly the given entries; all later operations and scans then behave as on a map with these contents.",
     "all sorted duplicate-free entry lists that take at least two leaves (more bytes than one page, or two or more workers; the small inputs are the subject of C19), all histories mixing bulkloads and other calls, all variants and layouts",
     "node borders fall on different entries for each list length and key-length pattern",
     [V["pml"] + ":Bulkload,BulkloadWithSingleThread,ConstructSingleLayer", NV["pml"] + ":Bulkload,LinkNext,RemoveLeftmostKeys", NF["pml"] + ":Bulkload"])
prop("Parallel bulkload partitions the input exactly",
     "With thread_num > 1 the per-thread chunks are consecutive, disjoint and together cover every entry exactly once, whatever the entry count and thread count, so the resulting contents do not depend on thread_num.",
     "all entry counts n and thread counts t with 1 < t <= n",
     "an arithmetic identity over all pairs (n,t)",
     [V["pml"] + ":Bulkload (n = (rec_num + i) / thread_num)"])
prop("Bulkload works for any entry count",
     "Bulkload of a non-empty entry list never corrupts memory, also when the entries fit into a single page.",
     "all non-empty entry lists, all variants and layouts",
     "only inputs small enough to produce a one-leaf tree reach the faulty path; the shipped fixtures load large inputs only",
     [NV["pml"] + ":RemoveLeftmostKeys", NF["pml"] + ":RemoveLeftmostKeys"])
prop("Statistics count every node once per level",
     "CollectStatisticalData reports for each level the number of nodes of that level, the sum of their used bytes and page size times that number.",
     "all reachable trees",
     "needs all tree shapes",
     [V["pml"] + ":CollectStatisticalData"])
prop("Optimistic reads return a consistent snapshot",
     "If an optimistic reader sees the same even/unlocked version of a node before and after reading its fields, all values it read are values the node held simultaneously at one instant inside that interval.",
     "all interleavings of any number of readers and writers, all field contents",
     "a torn read needs a preemption at one particular instruction",
     [NV["osl"] + ":Read,CheckKeyRange,SearchChild", NV["oml"] + ":Read,SearchChild,CheckNodeStatus"])
prop("Linearizability of point operations (PSL)",
     "In every concurrent execution of Read/Write/Insert/Update/Delete on BTreePSL, each completed call appears to take effect atomically on a map at some instant between its invocation and its response.",
     "all numbers of threads, all interleavings, all keys and payloads, any sequence of concurrent splits and merges",
     "the number of schedules is unbounded",
     [V["psl"], NV["psl"], NF["psl"]])
prop("Linearizability of point operations (OSL)",
     "As C22 for BTreeOSL.",
     "all numbers of threads and interleavings",
     "the number of schedules is unbounded",
     [V["osl"], NV["osl"], NF["osl"]])
prop("Linearizability of point operations (PML)",
     "As C22 for BTreePML.",
     "all numbers of threads and interleavings",
     "the number of schedules is unbounded",
     [V["pml"], NV["pml"], NF["pml"]])
prop("Linearizability of point operations (OML)",
     "As C22 for BTreeOML.",
     "all numbers of threads and interleavings",
     "the number of schedules is unbounded",
     [V["oml"], NV["oml"], NF["oml"]])
prop("A completed write is never lost",
     "Once Write(k,v) or a successful Insert(k,v) has returned and no other call on k is made, every later Read(k) returns v, no matter which concurrent calls on other keys split or merge nodes meanwhile.",
     "all interleavings of calls on other keys, all variants with side links (PSL, OSL)",
     "needs a second split of the same node between two instructions of the first splitter",
     [V["psl"] + ":Write,CompleteSplit", NV["psl"] + ":GetSeparatorKey", V["osl"] + ":Write,CompleteSplit", NV["osl"] + ":GetSeparatorKey"])
prop("A split's separator reaches its parent",
     "After a concurrent split has been completed, its separator/child pair is present in the parent level, and the thread that performed the split returns.",
     "all interleavings of concurrent splits in PSL/OSL",
     "needs overlapping splits of the same node or of the root",
     [V["psl"] + ":CompleteSplit,TryRootSplit", V["osl"] + ":CompleteSplit,TryRootSplit"])
prop("Merging never blocks the merging thread on itself",
     "A thread that merges a node with its right sibling never waits for a lock it already holds.",
     "all schedules of PSL/OSL merges with concurrent structure modifications",
     "the retry path of the merge loop is taken only if the parent's entry is missing at that moment",
     [V["psl"] + ":Merge", NV["psl"] + ":GetMergeableSiblingNode,DeleteChild", V["osl"] + ":Merge"])
prop("Lock-coupling descents do not deadlock (PML)",
     "Threads that execute only point operations on BTreePML never reach a state in which some of them wait for each other in a cycle.",
     "all numbers of threads, all interleavings, all tree shapes",
     "deadlocks need particular simultaneous lock requests",
     [V["pml"] + ":SearchLeafNodeForRead,SearchLeafNodeForWrite,GetRootForWrite,Split,Merge", NV["pml"] + ":GetChildForRead,GetChildForWrite,GetMergeableRightChild"])
prop("No page is accessed after it has been released (PML)",
     "While a thread reads or holds a lock on a node of a BTreePML, no other thread releases the memory of that node.",
     "all interleavings of readers and writers",
     "needs a reader to stand on the old root while a writer shrinks the tree",
     [V["pml"] + ":ShrinkTreeIfNeeded,GetRootForRead,Merge"])
prop("Retired pages are unreachable for new operations (PSL, OSL, OML)",
     "When a page is handed to the garbage collector, no operation that starts afterwards can reach it, so epoch-based reclamation after all earlier operations ended is safe.",
     "all interleavings",
     "needs particular overlaps between merging and searching threads",
     [V["psl"] + ":Merge,TryShrinkTree", V["osl"] + ":Merge,TryShrinkTree", V["oml"] + ":TryMerge,TryShrinkTree"])
prop("A read never returns a value that was overwritten before the read began (OML)",
     "If Write(k,v2) has returned before Read(k) starts and no other call on k runs, Read(k) does not return an older value, also while the leaf of k is being merged.",
     "all interleavings of one merge with readers and writers",
     "needs a writer parked on the left node across a split and a following merge",
     [NV["oml"] + ":Merge", NF["oml"] + ":Merge", V["oml"] + ":TryMerge"])
prop("A present key is found while its neighbour is merged (OML, variable-length layout)",
     "If k is present during the whole execution of Read(k), Read(k) returns its payload, also if the node holding k is concurrently merged with its right sibling.",
     "all interleavings of readers with one merge, all key bytes",
     "the high key is published before the exclusive lock is taken; only a reader inside that window sees it",
     [NV["oml"] + ":Merge (lines 1036-1043)"])
prop("Concurrent scans do not skip stable records",
     "A record that is present during the whole lifetime of a scan over a range containing its key is reported by that scan, and no key is reported twice.",
     "all interleavings of one scan with writers, all variants",
     "needs a writer between the position computation and the end-position computation of the iterator",
     ["include/b_tree/component/optimistic_record_iterator.hpp:HasRecord,ResetIterator", "include/b_tree/component/record_iterator.hpp"])
prop("Two iterators of one thread are independent",
     "A thread that advances two scan iterators in any alternation gets from each the same records as if the other did not exist.",
     "all reachable states, all ranges, all alternations of HasRecord/GetKey/++",
     "the shipped tests never keep two iterators alive at once",
     ["include/b_tree/component/optimistic_record_iterator.hpp:key_"])
prop("Physical page layout stores what was put (fixed-length layout)",
     "At byte level, after any sequence of insertions, deletions, splits and merges in a page, the i-th key and the i-th payload read from the page bytes are the i-th key and payload of the logical record list; nothing is read from bytes of another record.",
     "all page contents, positions, key and payload sizes for which the room check passed",
     "memmove ranges and overlapping regions must be right for every position and count",
     [NF["pml"] + ":InsertRecord,Delete,InsertChild,DeleteChild,CopyRecordsFrom,GetPayloadAddr,SetPayload"])
prop("Physical page layout stores what was put (variable-length layout)",
     "At byte level, after any sequence of insertions, reuses, clean-ups, splits and merges, the key and payload addressed by the i-th metadata slot are those of the i-th logical record, and metadata slots never overlap record bytes.",
     "all page contents, positions, key and payload lengths for which the room check passed",
     "as C36",
     [NV["pml"] + ":InsertRecord,ReuseRecord,CleanUp,CopyRecordFrom,SetKey,SetPayload", "include/b_tree/component/metadata.hpp"])
prop("Slot metadata survives packing",
     "Packing offset, key length and record length into a slot and reading them back returns the same numbers, marking a slot deleted changes none of them, and slot equality ignores the deletion mark.",
     "all offsets below 2^31 and all lengths below 2^16",
     "all bit patterns",
     ["include/b_tree/component/metadata.hpp:Metadata"])
prop("Border keys steer scans and side steps correctly",
     "A scan stops at a node only if no record of a later node can belong to the range, it does stop there as soon as the end key is below the node's upper bound, and a search leaves a node for its right sibling iff the key is not below the node's upper bound.",
     "all nodes and keys",
     "equality of bound and border key is one point of the key space",
     [NV["pml"] + ":IsRightmostOf,CompHighKey", NV["psl"] + ":CheckKeyRangeAndLockForRead"])
prop("The compile-time size check is sufficient",
     "Every configuration accepted by static_assert(2 * kMaxRecLen <= kMinBlockSize) gives a tree whose pages never overflow and whose splits always put records on both sides.",
     "all page sizes, header sizes, key and payload sizes",
     "the shipped tests instantiate a handful of configurations far away from the bound",
     [V["pml"] + ":755 static_assert", V["psl"] + ":936", V["oml"] + ":835", V["osl"] + ":909"])
prop("Bulkload replaces, it does not merge",
     "After a Bulkload on an index that already holds records, exactly the loaded entries are stored: a key that is not among them is absent, even if it was stored before.",
     "all prior states, entry lists and keys, all variants and layouts",
     "a statement about all prior states",
     [V["pml"] + ":Bulkload (root_ = ...)"])
prop("Bulkload releases what it replaces",
     "When an index that has been bulkloaded is destroyed, all memory it allocated has been released.",
     "all prior states and entry lists, all variants and layouts",
     "no functional test observes unreachable pages; the statement ranges over all histories",
     [V["pml"] + ":Bulkload (root_ = ...),~BTree", V["osl"] + ":Bulkload,~BTree"])

prop("Iterators do not touch released pages (PML, PSL)",
     "An iterator of the pessimistic variants holds no epoch guard; while the caller loops over it, it never uses a page that has been handed to the garbage collector or freed.",
     "all interleavings of scans with writers",
     "needs two overlapping merges next to the page of the iterator; a use of freed memory rarely shows",
     ["include/b_tree/component/record_iterator.hpp:HasRecord", V["psl"] + ":Scan (guard),Merge", NV["psl"] + ":GetNextNodeForRead", V["pml"] + ":Scan,Merge"])

prop("One writer at a time is enough (PSL, OSL)",
     "If the caller sees to it that no two calls of Write, Insert, Update and Delete overlap, while any number of Reads run at the same time, then on the single-layer variants every history is linearizable, no write is lost and nothing is undefined: no separator is read too late, no root pointer is overwritten.",
     "all executions of any number of threads from the empty tree in which calls that can change the map do not overlap, all configurations with room for two maximal records, both layouts",
     "a statement about all interleavings of readers with splits, merges, root splits and root removals",
     [V["psl"] + ":Write,Insert,Update,Delete,Read", V["osl"] + ":Write,Insert,Update,Delete,Read"])

prop("Scans next to one writer report every stable record exactly once",
     "If no two calls of Write, Insert, Update and Delete overlap, a scan that runs next to them (loop over the iterator included) reports every record in its range that stays unchanged during the scan, reports keys in ascending order and none twice, and everything it reports was stored at some instant of the scan.",
     "all executions of any number of scanning and reading threads with writing calls that do not overlap, from the empty tree, all ranges",
     "a scan crosses pages that are split and merged meanwhile; all interleavings have to be considered",
     [V["psl"] + ":Scan,Merge", NV["psl"] + ":GetNextNodeForRead", "include/b_tree/component/record_iterator.hpp:HasRecord", V["osl"] + ":Scan", V["oml"] + ":Scan"])

prop("A scan reports the contents of the index at one instant",
     "The records that a scan reports (loop over the iterator included) are the records of its range at one instant between the call and the end of the loop: scans are linearizable, like the other calls.",
     "all executions of any number of threads from the empty tree, all ranges; the second reading: all executions in which no call that can change the index overlaps a scan",
     "a torn scan needs writers that get in between two pages of one scan; no single run shows that it cannot happen",
     ["include/b_tree/component/record_iterator.hpp:HasRecord", "include/b_tree/component/optimistic_record_iterator.hpp:HasRecord", V["pml"] + ":Scan", V["psl"] + ":Scan", V["oml"] + ":Scan", V["osl"] + ":Scan"])

prop("A call gives up all its locks before it returns",
     "No call ever waits for a thread that is between two calls: whoever makes another call wait is itself in the middle of a call that has not returned (for Scan, the loop over the iterator included).",
     "all interleavings of any number of threads and calls of all kinds, from the empty tree",
     "a lock that is kept on a rare path (retry, lost race, return code of a failed write) shows only later, as a hang of another thread",
     [V["pml"] + ":Write,Insert,Update,Delete,Scan", V["psl"] + ":Write,Insert,Update,Delete,Split,Merge,CompleteSplit", V["osl"] + ":Write,Insert,Update,Delete,Split,Merge", V["oml"] + ":Write,Insert,Update,Delete,Split,Merge", NV["oml"] + ":CheckForWrite..."])

prop("Readers of the optimistic variants make nobody wait",
     "On the optimistic variants (OSL, OML) a Read or a Scan, loop over the iterator included, never makes another call wait.",
     "all interleavings of any number of threads and calls of all kinds, from the empty tree",
     "a statement about all moments of all executions; tests do not observe who waits for whom",
     [V["osl"] + ":Read,Scan", V["oml"] + ":Read,Scan", "include/b_tree/component/optimistic_record_iterator.hpp:HasRecord"])

prop("Threads do not deadlock (PSL, OSL)",
     "On the single-layer variants threads never wait for each other in a cycle, and whenever a call has to wait there is a call in progress, which it waits for directly or through others, that can go on.",
     "all interleavings of any number of threads and calls, from the empty tree",
     "deadlocks need particular simultaneous lock requests in splits and merges of neighbouring pages and their parents",
     [V["psl"] + ":CompleteSplit,SearchParentNode,Split,Merge,TryShrinkTree", V["osl"] + ":Split,Merge,TryShrinkTree", NV["psl"] + ":GetNodeForWrite..."])

prop("One writer at a time does not deadlock (PSL, OSL)",
     "If no two calls of Write, Insert, Update and Delete overlap, while any number of Reads and Scans run at the same time, then on the single-layer variants threads never wait for each other in a cycle (in particular no call waits for itself), and whenever a call has to wait there is a call in progress, which it waits for directly or through others, that can go on.",
     "all interleavings of any number of threads and calls, deletes included, in which calls that can change the map do not overlap, from the empty tree",
     "whether the retry of a merge meets its own locks depends on what readers and earlier splits have left in the parent; tests see single schedules",
     [V["psl"] + ":Merge,TryShrinkTree,Split,SearchParentNode", V["osl"] + ":Merge,TryShrinkTree,Split,SearchParentNode"])

prop("Loading first and working concurrently afterwards keeps all records",
     "After any calls made by one thread (bulkloads of any number of entries among them) any number of threads may start: the histories of what they do are linearizable, beginning with the contents that were loaded; no call runs into undefined behaviour, a record that was loaded and that no call changes is found by every Read and reported by every Scan of a range with it, and without Delete there is no deadlock.",
     "all sequences of calls before the threads start, all sorted entry lists and worker counts (trees of any height), all interleavings of any number of threads afterwards",
     "the states a bulkload leaves (fill rates, ragged right edges, leaked pages) are not those that single writes leave; schedules and states multiply",
     [V["psl"] + ":Bulkload,Read,Write,Insert,Update,Delete,Scan", V["osl"] + ":Bulkload,Read,Write,Insert,Update,Delete,Scan", V["oml"] + ":Bulkload,Read,Write,Insert,Update,Delete,Scan", V["pml"] + ":Bulkload"])

prop("One writer at a time is enough on a loaded index (PSL, OSL)",
     "After any calls made by one thread, bulkloads among them, any number of threads may read and scan while calls of Write, Insert, Update and Delete do not overlap each other: on the single-layer variants Reads and writes are linearizable beginning with the loaded contents, nothing that was loaded is lost, nothing but a Scan of OSL is undefined, and there is no deadlock; scans of PSL report every stable record.",
     "all sequences of calls before the threads start, all interleavings afterwards in which calls that can change the map do not overlap",
     "a statement about all interleavings from all loaded trees",
     [V["psl"] + ":Bulkload,Read,Write,Insert,Update,Delete,Scan", V["osl"] + ":Bulkload,Read,Write,Insert,Update,Delete,Scan"])

prop("Any number of threads may update a loaded index (PSL, OSL)",
     "After any calls made by one thread, bulkloads among them, any number of threads may Read, Update and Scan at the same time: on the single-layer variants Reads and Updates are linearizable beginning with the loaded contents, no record that was loaded is lost, nothing but a Scan of OSL is undefined, and there is no deadlock; scans of PSL report every stable record and no key twice.",
     "all sequences of calls before the threads start (trees of any height), all interleavings of any number of Reads, Updates and Scans afterwards",
     "a statement about all interleavings from all loaded trees; the exclusive locks of several updates meet in arbitrary orders",
     [V["psl"] + ":Read,Update,Scan", V["osl"] + ":Read,Update,Scan", NV["osl"] + ":Update"])

prop("A loaded index that is only read gives the loaded contents and nobody waits",
     "After any calls made by one thread, bulkloads among them, threads that only Read and Scan get exactly the loaded contents (a Scan reports its whole range), no call is undefined, and no call ever waits.",
     "all sequences of calls before the threads start (trees of any height), all interleavings of any number of Reads and Scans afterwards",
     "a statement about all loaded trees, ranges and interleavings",
     [V["pml"] + ":Read,Scan", V["psl"] + ":Read,Scan", V["oml"] + ":Read,Scan", V["osl"] + ":Read,Scan", "include/b_tree/component/record_iterator.hpp:HasRecord", "include/b_tree/component/optimistic_record_iterator.hpp:HasRecord"])

prop("Threads of OML do not deadlock",
     "On the optimistic multi-layer variant threads never wait for each other in a cycle (in particular no call waits for itself), and whenever a call has to wait there is a call in progress, which it waits for directly or through others, that can go on; also on trees that earlier calls and bulkloads have built.",
     "all interleavings of any number of threads and calls, scans and deletes included, from the empty tree and from all loaded trees",
     "deadlocks need particular simultaneous lock requests on parents, children and siblings; tests see single schedules",
     [V["oml"] + ":SearchLeafNodeForWrite,TrySplit,TryMerge,TryRootSplit,TryShrinkTree", NV["oml"] + ":CheckKeyRangeAndLockForWrite,CheckSMOs,GetMergeableRightChild"])

prop("Phases of single-threaded and of concurrent use may alternate",
     "An index may be used by one thread (Bulkload included), then by any number of threads at the same time, and when all of these have returned by one thread again, and so on any number of times: one map explains all answers of all phases (each call of a concurrent phase takes effect at one instant, scans part by part), every call made by a thread on its own returns, and no phase leaves anything behind that blocks or breaks a later one.",
     "all numbers and lengths of phases, all calls in them, all interleavings in the concurrent phases",
     "what a concurrent phase leaves in memory depends on its schedule; tests try few schedules and do not look at the pages left behind",
     [V[x] + ":Read,Scan,Write,Insert,Update,Delete,Bulkload" for x in ("pml", "psl", "osl", "oml")])

prop("After concurrent use the index is a balanced tree, its statistics are exact and it can be destroyed",
     "When an index has been used in any sequence of single-threaded and concurrent phases and no call is running, all leaves have the same depth, on every level every key is served by exactly one page, every page is sorted, within its size and its interval and linked to its right neighbour, CollectStatisticalData returns one entry per level that counts every page of the level once and adds up the usage of these pages, and the destructor ends, touches no released page, releases every page of the tree and no page outside of it.",
     "all numbers and lengths of phases, all calls in them, all interleavings in the concurrent phases, all quiescent moments",
     "a concurrent phase can leave splits and merges half done, or pages that belong to two parents, under a rare schedule only; later reads may still succeed",
     [V[x] + ":CollectStatisticalData,~BTree,DeleteChildren" for x in ("pml", "psl", "osl", "oml")])

out = os.path.join(os.path.dirname(os.path.abspath(__file__)), "..", "properties.jsonl")
with open(out, "w") as f:
    for p in P:
        f.write(json.dumps(p) + "\n")
print(len(P))
