# Formal model of dbgroup-nagoya-u/b-tree in Lean 4

## What is modelled

The library is a header-only C++17 B+-tree with four concurrency variants
(PML lock coupling, PSL pessimistic B-link, OML optimistic lock coupling,
OSL optimistic B-link), each over a variable-length (`node_varlen.hpp`) and a
fixed-length (`node_fixlen.hpp`) page layout.

Layers (modules under `lean/Verif/`):

| layer | content |
|---|---|
| Spec | a map `K → Option V`, the meaning of each API call and of a scan; return codes. No model helper is used here |
| Basic | outcome monad `Res` (`ok`, `ub` = undefined behaviour, `fuel` = loop not finished yet), configuration constants |
| Node | list-level pages: slots with key, payload and deletion mark, border keys, sibling link, byte counters; one Lean function per C++ member function, for both layouts |
| Tree/PML, OML, PSL, OSL | heap of pages + root pointer; one Lean function per C++ member function of the four `b_tree.hpp` files, executed by one thread |
| Scan | iterators |
| Bulkload | single- and multi-threaded construction |
| Bytes | page bytes: `memcpy`/`memmove` level model of both layouts refining the list-level node |
| Conc | interleaving machines: B-link trees with locks, seqlock validation, lock order, races |

### Simplifications (repeated at the definitions)

* Keys are an arbitrary type with a decidable linear order; the C++ comparator is assumed to be a strict weak
  order whose equivalence is equality.  The length of a key is a function of the key.
* A page is first modelled as a list of slots plus byte counters; the byte-level model is a separate refinement layer.
* Pointers are natural numbers handed out by a counter; the allocator never fails and never reuses an address
  (for use-after-free statements a released address is marked).
* Dereferencing a null, unallocated or released pointer, reading an uninitialised key, using a payload as a pointer
  or overflowing a page gives `ub`.
* Loops take a fuel argument.  Theorems say: for all sufficiently large fuel the result is `ok …`; so termination
  is part of the claim.
* Locks and the epoch-based garbage collector are external libraries (not in /repo): locks are modelled by their
  documented compatibility (S/S, S/SIX compatible; SIX/SIX and X exclusive), version locks by a counter
  bumped on each exclusive release.  The memory model is sequential consistency at the granularity described at each machine.

## Trusted base

* Lean 4.33.0 kernel; axioms `propext`, `Classical.choice`, `Quot.sound` only (`#print axioms`), no axioms of our own,
  no `sorry`, `native_decide`, `bv_decide`.
* The reading of the C++ text: correspondence between each definition and the cited lines is by inspection.
* Not modelled: external lock implementation, external GC implementation, `std::thread`, hardware memory
  order weaker than sequential consistency, allocation failure, exceptions, key comparators that are not total orders.

## Plan per property

* C01-C04: sequential refinement. Invariant: ghost list of pages per level; every level is an ordered chain
  of pages with matching borders; children of a level concatenate to the next level. One lemma per tree action
  (leaf update, split, merge, root growth, root shrinkage); induction on the call list.
* C05: chain walk lemma on the leaf level; iterator loop by induction on remaining leaves and slots.
* C06, C07, C08, C13: corollaries of the refinement theorem, stated on API results only.
* C09, C40: the room invariant is part of the page invariant, `ub` on overflow; negation theorems with concrete configurations
  accepted by the static_assert; positive theorem under an explicit inequality (`_partial` where the code's own check is too weak).
* C10, C11, C12, C14, C39: node-level theorems for pages of any size.
* C15, C16: invariant consequences; the destructor model.
* C17, C18, C19, C41, C42: bulkload model (`Bulk`, proofs `BulkOk`, `BulkTree`, `BulkDone`, `BulkRun`, `Frame`). The pages of the replaced tree stay
  in memory, so the invariant is "tree + unrelated pages" and `Frame` shows that no call sees or changes unrelated pages. The worker
  threads of the parallel load are run one after the other: each allocates and fills its own pages and reads only the (constant) input.
  C19 and C42 are false, with general negation theorems.
* C20: recursion over the level lists.
* C21: `Seqlock`: one page made of words with a version, one exclusive writer at a time that changes single words, any number of readers
  that read word by word and choose the next word by what they have read. The reading procedures of OSL (`searchRecordF`, `nodeReadF`,
  `searchChildF`, …) are written as such readers and shown to compute the list-level functions on the snapshot; this is what
  justifies that the interleaving machine reads a page by one action.
* C22-C28: B-link interleaving machine; the code as written violates C26/C27 (separator key read after unlocking) and C28 (retry path);
  negations by concrete traces, positives as `_partial` under the hypothesis that the separator handed to the parent is the right one.
* C24, C29, C30: lock-coupling machine; C24 and C30 are false (root shrink), negation by trace; positives by invariant with a ghost tree and a
  rank of the locks.
* C25, C32, C33: OML machine; false, negations by trace (`Props/OmlBad.lean`). Positives (`Props/OmlGood.lean`) for executions without merges and
  removals of the root, by the invariant of the B-link machine, in which inner pages need not know their right sibling (`Linked`).
* C31: invariant of the B-link machine; once every thread has been idle since the hand-over, the page is unreachable.
* C34, C43: `ConcScan` adds scans to the concurrent models; the specification is `PartwiseLinearizable` (`SpecConc`): a scan reads its range from left to
  right in parts, each at one instant. `LinFacts` derives that such a scan reports every stable record and no key twice. Negations for PSL, OSL, OML;
  for PML (`CPml.scan`, `PartOk`, `PmlScanOk`) every leaf is one part, read while it is S-locked. For PSL (`LeafScan`, `PslScanOk`) a leaf may be
  out of date when it is read: its part takes effect at the last instant at which the leaf was part of the tree (`LinPast.Walk`: the instants of
  the parts of a scan do not decrease). For OSL and OML (`OscanPart`, `OslScanOk`) every record that an iterator reports is one part and takes
  effect when its version check succeeds; after a failed check the iterator may go on in a page that begins further left (`Cov`).
* C46: the strict specification of scans (`Linearizable`: all calls, scans included, take effect at one instant). Negations by concrete executions; the
  positive theorems follow from those of C34 and C45 by an argument about histories alone (`SpecTorn`).
* C47, C48, C49: who waits for whom (`WaitsFor`), for all executions. A program logic for lock ownership (`Prog.vwp`, `LockVis.lean`): it tracks the
  modes in which the running thread holds each page and what it knows of the pages it holds, and follows every path of every function of PSL, OSL
  and OML (`LockBlink`, `LockPsl`, `LockOsl`, `LockOml`); `LockRun.lean` lifts it to executions of any number of threads. For C49 the logic
  also checks the order in which locks are requested: SIX only by a thread that holds nothing, X only by one that holds nothing but SIX locks of
  older pages, an upgrade only by one without S and X locks, S and version reads only by one without SIX and X locks.
* C50 (and C28 with one writer): the rely-guarantee proof also tracks which pages the writer owns (`World.Bare`, `World.Only`, `World.Off`) and
  shows that it asks for no page that it owns already (`Act.Asks`): with one writer the retry of `Merge` that meets its own locks is never
  taken. `Read` and `Scan` own no page (`LockSolo.lean`), so the writer waits for readers only, and holds no X lock then. Scans of OSL take no
  lock and change no page, so every execution has a counterpart without them (`DropScans.lean`).
* C55: the rely-guarantee proof of OML (C25) also shows that a thread asks for the SIX lock of a page only if all pages it owns come before it
  (`World.Before`: nearer to the root, or in the same level and further left), and for the X lock only of a page that no other thread knows
  (`Act.Ordered`). The logic for lock ownership shows that OML takes no S lock and waits for versions only while it holds nothing
  (`omlP.z`, `LockOml.lean`); `OmlFree.lean` carries what it knows over to the rely-guarantee proof, `OmlLive.lean` puts the two together.
* C51, C52: the invariant of the concurrent proof holds of every memory that satisfies the sequential invariant (`ConcFrom.sim_load`), and every
  sequence of calls of one thread leaves such a memory (`LoadRun.Built.inv`), plus leaked pages that no page refers to. All theorems about
  executions are stated for any start configuration with the invariant; C22 to C50 use them from the empty tree.
* C56: in the invariant of PML, pages of the tree that no thread is changing are the pages in memory (`PInv.clean`). When all threads have returned, no
  thread is changing any (`PL.stopped`), so the memory is one from which single calls and further threads may start. For PSL, OSL and OML the tree is rebuilt
  from the B-link invariant (`ConcRest.CInv.good`): a call returns only when the parents know all pages it has made, so when all have returned following the borders
  on each level yields the lists of pages that the invariant of the sequential proof asks for.
* C57: the sequential theorems on shape, statistics and destruction hold of the tree inside that memory; pages outside of it are framed out
  (`InvB.tidy`).
* C53, C54: the actions of `Read`, `Update` and `Scan` note nothing, allocate nothing and remove no page (`Mild.lean`), so the hypothesis of C22, C23,
  C25 and C34 on `Mem.raced` holds by itself; without `Update` no version and no exclusive lock ever changes, so nobody waits.
* C44: the world of the B-link proof also records whether there is one writer at a time (`solo`) and which thread it is (`wr`). Only that thread
  changes public pages and `root_`, and when its call ends every page it made is linked (`Clean`). With this the code itself shows that
  no noted situation occurs; `ConcSolo.solo_ok` is the counterpart of `Lg.adequate` without the hypothesis on `Mem.raced`.
* C35: iterator machine; C35 false for optimistic iterators, true for the pessimistic ones.
* C36, C37: byte layer. C38: bit-field packing (`Meta`): a 64-bit word, fields allocated from the low bits as the x86-64 ABI does; `C38_metadata_truncates` shows what
  happens outside the domain of the property.

## Disagreements between code and property (found while proving)

* C19: `RemoveLeftmostKeys` loops `while (!node->IsInner())`; a bulkload into a single leaf treats the first payload as a child pointer.
* C20: `GetNodeUsage` of the fixed-length node does not count the two border keys.
* C40: `static_assert(2 * kMaxRecLen <= kMinBlockSize)` is weaker than what splits and merges need; the theorems use `Roomy`
  (and, for the lock-coupling variants, record length <= `kMinFreeSpaceSize`) instead. Three ways to fail are proved: `Split` of the
  variable-length page takes half of `block_size_`, which contains the border keys, so with short records and long border keys the loop
  runs past the last slot (default sizes, keys of 8 and 128 bytes, all four classes); with 8-byte keys and 322-byte payloads the
  fixed-length split leaves no room in either half: PML and OSL overflow the page, PSL ignores the return code of the second attempt and
  reports success for a write it did not make.
* C42: `Bulkload` overwrites `root_` without releasing the pages reachable from the old root.

## Defects of PSL/OSL under concurrency

The machine (`Conc.lean`) interleaves atomic actions of arbitrarily many threads: lock calls, page reads and writes, accesses to `root_`,
allocation and retirement. `BlinkConc.lean` is what PSL and OSL have in common, with its locks; `PslConc.lean` and `OslConc.lean` are the searches
and entry points of the two. `Props/PslBad.lean` and `Props/OslBad.lean` contain executions, found with a simulator and checked by the
kernel, that contradict the properties:

* C26, C22 (a): `Write`/`Insert`/`CompleteSplit` read the separator with `GetSeparatorKey` from the page they have just unlocked. If another
  thread splits that page in between, a wrong separator/child pair is put into the parent; later calls are led to the wrong page and
  a completed write is not found.
* C27 (b): `TryRootSplit` loads `root_`, compares, and stores the new root in separate steps. Two splits of the same root can both
  succeed; the second store discards the first root with its separator.
* C27: after (a) the next splitter looks for its parent below a leaf: PSL's `SearchParentNode` has no test for leaves and treats a payload as
  a child; OSL's goes on with a stale child (for ever) or, if the root is a leaf, with a null pointer.
* C28: on `kNeedRetry` (and when the parent is not found) the loop of `Merge` calls `GetMergeableSiblingNode` again, which locks the right
  sibling that is still locked by the same thread.
* C34: the iterators of PSL go from page to page by S locks, but a merge gives up the left page before it marks the right one as removed. While it
  waits there for the S lock of an iterator, another merge can take the next page away; the iterator then enters a removed page and follows its
  link back to the left. It reports keys twice. None of (a), (b), (c) is needed. The positive theorem (`C34_psl_scans_partial`) excludes exactly
  that a scan reads a page marked as removed (`CPsl.iterate` notes it).
* C43: in the same execution the removed page has been handed to the garbage collector. The epoch guard of `Scan` ends when `Scan`
  returns, so nothing protects the iterator.
* C34: the optimistic iterators of OSL and OML compute the end position after the version check (`ResetIterator`, lines 269-283). If the page is the last
  one of the range, the version is never checked again; a deletion in between makes the iterator end too early. (In variable-length pages
  `HasRecord` also copies a key with a length that it has not validated; the byte-level effect of that is not modelled.)
  The positive theorems (`C34_osl_scans_partial`, `C34_oml_scans_partial`) exclude exactly this: `COsl.noteEnd` notes that an iterator is at its end
  right after `ResetIterator` and the page has been changed since its version was read.
* C31: `TryShrinkTree` calls `AddGarbage(root)` before `root_` is changed, so calls that start later still find the page.
* (c) `TryShrinkTree` tests the record count but not whether the root has a right sibling.

The positive theorems exclude exactly these situations: `Mem.raced` is a ghost flag that is set when (a) a separator read by
`GetSeparatorKey` differs from the one of the split, (b) `root_` is overwritten although it is not the page it was compared with, or (c) a root with a
right sibling is removed. The proof is a rely-guarantee argument (`ConcLogic`): `ConcInv` states the
invariant of the shared memory with ghost state (level, low border, status of every page, the map at every past instant) and what other
threads may do; `ConcStep*` show that every step keeps it; `ConcRule` turns this into proof rules for the actions; `ConcNav`, `PslNavOk`
(searches), `ConcOps` (page operations), `ConcSplit`, `ConcMerge`, `ConcTail` and `PslConcOk` verify the code call by call. A read takes
effect at the instant at which the leaf it reads was last part of the tree, all other calls when they store into the leaf.

`ConcOpt` adds the rules of the version lock: `GetVersion` waits for the end of an X lock, a page has not changed between two instants with the
same version and no X lock. `OslNavOk` and `OslConcOk` verify OSL. Pages read before their version has been validated are only known to be
well formed, which is enough for the code not to leave them; the result of such a read is used after validation only. In OSL the calls
that change nothing (reads, failed inserts, updates and deletes) take effect at the instant at which the page they validated was last part of the
tree. Not covered: the torn reads of a page that is being written (a `peek` reads the whole page at one instant; C21 treats the reads word by
word).

The three situations need two writers: `C44_one_writer_never_raced`. So a user of PSL or OSL who serialises the calls that change the map, but
not the reads, has a linearizable tree (`Props/Solo.lean`). On PML this is not so (`C44_pml_one_writer_not_linearizable`).
On PSL the scans are correct then, too (C45, `Props/PslScan.lean`): the page that a scan goes to next is part of the tree as long as the scan
has the S lock of its left neighbour, because only the one writer could take it away, and that writer is waiting for this lock (`CInv.solo`). On OSL
and OML scans may miss a stable record even with one writer (`C45_osl_one_writer_scan_misses`).

C46 (`Props/Torn.lean`): a scan is not a snapshot. It reads page after page, so a write behind it and then a write before it, both finished
before the scan ends, leave a history in which the scan reports the second write and not the first (`SpecTorn.TornScan`, which no linearizable history
has). This holds in all four variants, in executions with one writer that meet every condition of the positive theorems. The positive side:
if no call that can change the map overlaps a scan (`QuietScans`), a history that is linearizable part by part is linearizable in the
strict sense (`PartwiseLinearizable.quiet`), which strengthens the theorems of C34 and C45 for such histories.

C47, C48, C49 (`Props/Locks.lean`): every path of every function of PSL, OSL and OML releases what it locks (C47), `Read` and `Scan` of OSL and OML
lock nothing (C48), and without `Delete` PSL and OSL request locks in a fixed order, so there is no deadlock (C49). With `Delete` the claim of
C49 is false: the retry of `Merge` waits for a page it holds (C28). Of PML and PSL the claim of C48 is false: iterators hold a shared lock.

C50 (`Props/SoloLocks.lean`): with one writer at a time, `Delete` included, there is no deadlock on PSL and OSL; defect C28 needs a second writer,
which changes the parent between the two looks of a merge.

C51, C52 (`Props/Loaded.lean`): what holds of threads that start on the empty tree also holds of threads that start on a tree that has been built
by calls of one thread, `Bulkload` among them. The contents at the start are those of the map after these calls; `Forgets` and `ScanForgets`
(`SpecLoad.lean`) are the violations that a user would see of a record that was loaded. The pages that a bulkload leaks are part of the start
memory. For PML (`PmlLoad.lean`, `Props/PmlLoaded.lean`) the tree object is a page of the concurrent model, so the calls of the first thread start on a
memory in which page 0 is taken by it (`initSt1`); with writers only, nothing is excluded.

C53, C54 (`Props/Steady.lean`, for PML `Props/PmlLoaded.lean`): as long as the calls are `Read`, `Update` and `Scan` (C53, PSL and OSL) or `Read` and `Scan` (C54), nothing has to be
excluded: none of the defects below is reachable. `Update` of OML is not in C53: it splits and merges pages on its way to the leaf.

C56 (`SpecPhases.lean`, `Props/PmlPhases.lean`, `Props/BlinkPhases.lean`, `Props/OmlPhases.lean`): phases of single-threaded and of concurrent use alternate. For a phase of many threads the memory
is that of the phase before, with all locks free; page locks of released pages are forgotten. PSL and OSL are covered with one writer at a
time (OSL: the answers of scans that overlap with other calls are not covered, see C45), and with overlapping writers in executions without the
situations of C34 (`Mem.raced`), scans included; OML (`Props/OmlPhases.lean`) in the latter way. Not covered: phases with such a situation
(false, C26, C32).

C57 (`Props/PhaseShape.lean`): shape (C16), statistics (C20) and destruction (C15) in the quiescent states that the phases of C56 lead to. The memory is
a well-formed tree and pages outside of it (released or abandoned ones); the walks of `Walk.lean` neither see nor change the latter (`Framed`). Who
releases abandoned pages is not modelled. Not covered: as for C56.

C55 (`Props/OmlLocks.lean`): OML requests page locks from the root towards the leaves and from left to right, so there is no deadlock, from the
empty tree and from loaded trees. Deletes and scans are included, but not executions that have merged pages: after a merge the invariant of C25 is lost
(C32, C33).

## Defects of PML under concurrency

`PmlConc.lean` is the pessimistic lock coupling of PML on the same machine. The tree object itself is page 0: it holds `root_`, and its lock
is `mutex_`. `Release<Page>` is the action `free`: it records the page in `Mem.gc` and sets `Mem.raced` if another thread holds the lock of the
page; the contents stay in place, so that one can ask what happens to a thread that goes on using the page. `Props/PmlBad.lean`:

* C30: `ShrinkTreeIfNeeded` releases the old root at once. Readers give up the tree latch as soon as they have a shared lock on the root, so
  the exclusive lock of the tree does not exclude them: the page is released while a reader holds its lock and is about to read it.
* C24: the same reader follows the old root to the only leaf. If that leaf was split meanwhile (as the new root), the reader does not
  find a record of the right half although it was present during the whole call.

The positive theorems (`Props/PmlGood.lean`) exclude exactly the release of a page another thread has locked; executions without readers are
covered without any condition. `LockLogic` extends the logic of `ConcLogic` by what holds whenever a thread waits and by the rule that no
released page is used. `PmlInv` has the invariant: next to the memory there is a ghost heap, a well-formed tree in the sense of the
sequential proofs, which differs from the memory only in pages some thread holds exclusively (or whose parent it holds exclusively); a
structure modification takes effect in the ghost heap in one step, when the page that is split or that takes up its sibling is written (at
the root: when the tree object is written). A scan that stands on a leaf below can come from the left neighbour without a lock on the parent, so the
change has to be complete for it as soon as it gets the lock of the leaf. `PmlRule`, `PmlAct`, `PmlStore`,
`PmlCommit` are the rules for the actions; `PmlReadOk`, `PmlScanOk`, `PmlWriteOk`, `PmlSmoOk`, `PmlConcOk` verify the code; `PmlLive` draws the conclusions.
C29: every waiting thread has a rank, computed from the level of the page it waits for (and among leaves from right to left, for the scans), and all locks it holds have higher ranks, except
SIX locks on pages whose parent it holds as well, for which nobody can be waiting.

## Two iterators of one thread

`Iters.lean` cuts `Scan` after the construction of the iterator, so that a thread can hold two and advance them in any order.
`Props/Iters.lean` proves for PML and PSL that each gives what its own scan gives (`C35_pml_independent`, `C35_psl_independent`), and exhibits for
OSL and OML, whose `key_` is `static thread_local` (optimistic_record_iterator.hpp:320), an iterator that ends in the middle of its range
(`C35_*_iterators_interfere`) and one that pairs the key of one record with the payload of another (`C35_*_wrong_pair`).

## The bytes of fixed-length pages

`Bytes.lean` models memory as bytes with `memcpy`/`memmove`, `FixBytes.lean` every modifying and reading function of `node_fixlen.hpp` on it
(a read, write or move outside the data block of the page and a wrapped subtraction are undefined behaviour; header fields are kept as
numbers, so their bit widths are not modelled). `FixRep C g n` says that the bytes of `g` hold the record list `n`; each function is proved to
preserve it. `PageRun.lean` runs arbitrary sequences of page functions on record lists and on bytes; `Props/Bytes.lean` states the result in
terms of what the reading functions return. A `Codec` says how keys and payloads are turned into bytes and back.

Defect found: `Split` copies `keys_[record_count_]` and (PSL/OSL) reads `keys_[record_count_ + has_high_key_]`, `Merge` of PSL/OSL reads
`keys_[record_count_ + 1]`, even when no border key is stored there. For large keys that entry is beyond the page: with 128-byte keys and
8-byte payloads the 7 records of the first leaf leave `keys_[7]` at offset 928..1056 of a 1024-byte page (`C36_fix_split_over_reads`; the
`static_assert` of the index holds). `KeysReadable` is the condition on the sizes that excludes this.

## The bytes of variable-length pages

`VarBytes.lean` models every modifying and reading function of `node_varlen.hpp` on bytes: the metadata array grows upwards from the header,
records and border keys grow downwards from the end of the page; a metadata word is the 64-bit word of `Meta.lean`, written and read as
eight bytes. Clean-up, split and merge build their result in `temp_node_`, whose previous contents are arbitrary (only its record count is
known to be zero), and copy it back. `Lay C m inner recs low high blk hoff top` (`VarLayOk.lean`) says that memory `m` holds these records and
border keys in the upper `blk` bytes without overlap; `VarRep C g n` adds the header. `VarBytesOk`, `VarSmoOk` and `VarReadOk` prove that
each function follows the one on record lists, `VarRun` runs sequences of calls, `Props/VarBytes.lean` states C37 in terms of what readers find.

Hypotheses: a page is smaller than 64 KiB (otherwise lengths are cut, `C38_metadata_truncates`), metadata has 8 bytes, no key has length zero
(a border key of length zero counts as absent), and the size of deleted records never exceeds the size of the page's contents.

## Defects of OML under concurrency

`OmlConc.lean` is the optimistic lock coupling of OML on the same machine, both layouts, all point operations. The action `poke` writes to a page
under a SIX lock, which optimistic readers do not notice. `Props/OmlBad.lean`:

* C32: node `Merge` unlocks the left page before it marks the right page as removed, and the parent is updated later still. A writer that
  reached the left page before an earlier split writes there; a later read is led to the right page and misses the write.
* C33: the variable-length `Merge` sets `h_key_offset_`/`h_key_len_` before it takes the X lock. Readers compare with whatever bytes are at the new place; a
  reader that takes its key for too big goes to the right sibling and misses a record that was there all the time. The
  bytes themselves are a parameter `junk` of the model; the theorem uses the bytes that are there after a split without clean-up.
* C25 is false by either of them.
* C31: `TryShrinkTree` hands the root to the garbage collector before it takes it out of the tree. Proved for PSL and OSL (`Props/Retired.lean`): a page
  that the garbage collector has is out of reach (`SpecReach.Mem.Reaches`) as soon as every thread has been idle once since it got the page. `Retired.lean`
  shows that calls have marked a page as removed by the time they return, whatever the other threads do; `RetiredOk.lean` shows with the
  ghost state of the logic that a removed page is never a child or a right neighbour, and the root only while the thread that removed it is
  about to replace it. Leaves (and only they: `TryShrinkTree` removes inner pages) are out of reach when they are handed over. Missing: executions
  with the noted situations, and OML (executions of OML in which a page is removed are noted).

What remains true (`OmlNavOk`, `OmlSmoOk`, `OmlConcOk`, `Props/OmlGood.lean`): the flag `Mem.raced` is set right before two pages are merged, right before
the root is removed, and when the store to `root_` finds a root other than the one that was compared before. As long as it is not set,
all histories are linearizable and no thread runs into undefined behaviour. Splits, root splits and clean-ups are covered. The
proof follows what a thread knows about a page by its version: `Was w p n v` says that page `p` holds `n` whenever its version is `v` and nobody
holds its X lock.
