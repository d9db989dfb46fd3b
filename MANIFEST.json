{
 "claims": [
  {
   "property": "C01",
   "status": "proved",
   "theorems": [
    "BT.C01_pml_sequential"
   ],
   "note": "both layouts, under the page-room inequalities Roomy and record length <= kMinFreeSpaceSize; the code's own static_assert is weaker (C40)"
  },
  {
   "property": "C02",
   "status": "proved",
   "theorems": [
    "BT.C02_oml_sequential"
   ],
   "note": "both layouts, under the page-room inequalities Roomy and record length <= kMinFreeSpaceSize; the code's own static_assert is weaker (C40); single thread, so every version check succeeds"
  },
  {
   "property": "C03",
   "status": "proved",
   "theorems": [
    "BT.C03_psl_sequential"
   ],
   "note": "both layouts, under the page-room inequalities Roomy"
  },
  {
   "property": "C04",
   "status": "proved",
   "theorems": [
    "BT.C04_osl_sequential"
   ],
   "note": "both layouts, under the page-room inequalities Roomy; single thread, so every version check succeeds"
  },
  {
   "property": "C05",
   "status": "proved",
   "theorems": [
    "BT.C05_scan"
   ],
   "note": "all four variants, both layouts, every reachable state, admissible configurations"
  },
  {
   "property": "C06",
   "status": "proved",
   "theorems": [
    "BT.C06_other_keys",
    "BT.C06_readers"
   ],
   "note": "all four variants, both layouts, every reachable state, admissible configurations"
  },
  {
   "property": "C07",
   "status": "proved",
   "theorems": [
    "BT.C07_write",
    "BT.C07_insert",
    "BT.C07_update",
    "BT.C07_delete"
   ],
   "note": "all four variants, both layouts, every reachable state, admissible configurations"
  },
  {
   "property": "C08",
   "status": "proved",
   "theorems": [
    "BT.C08_terminates"
   ],
   "note": "all four variants, both layouts, every reachable state, admissible configurations"
  },
  {
   "property": "C09",
   "status": "partial",
   "theorems": [
    "BT.C09_page_bounds_partial",
    "BT.C08_terminates"
   ],
   "note": "all four variants, both layouts, every reachable state, admissible configurations; an overflow is undefined behaviour in the model, excluded by C08_terminates; false for other configurations the static_assert accepts (C40)"
  },
  {
   "property": "C10",
   "status": "proved",
   "theorems": [
    "BT.C10_split_leaf",
    "BT.C10_split_inner",
    "BT.C10_split_total"
   ],
   "note": "any page meeting the page invariant LeafPage/InnerPage, which every page of a reachable tree meets (C16_pages); both layouts"
  },
  {
   "property": "C11",
   "status": "proved",
   "theorems": [
    "BT.C11_merge_leaf",
    "BT.C11_merge_inner",
    "BT.C11_merge_total"
   ],
   "note": "any page meeting the page invariant LeafPage/InnerPage, which every page of a reachable tree meets (C16_pages); both layouts"
  },
  {
   "property": "C12",
   "status": "proved",
   "theorems": [
    "BT.C12_cleanUp",
    "BT.C12_cleanUp_total"
   ],
   "note": "any page meeting the page invariant LeafPage/InnerPage, which every page of a reachable tree meets (C16_pages); both layouts"
  },
  {
   "property": "C13",
   "status": "proved",
   "theorems": [
    "BT.C13_delete_reinsert"
   ],
   "note": "all four variants, both layouts, every reachable state, admissible configurations"
  },
  {
   "property": "C14",
   "status": "proved",
   "theorems": [
    "BT.C14_search_leaf",
    "BT.C14_search_inner"
   ],
   "note": "any page meeting the page invariant LeafPage/InnerPage, which every page of a reachable tree meets (C16_pages); both layouts"
  },
  {
   "property": "C15",
   "status": "proved",
   "theorems": [
    "BT.C15_no_leak",
    "BT.C15_destroy"
   ],
   "note": "all four variants, both layouts, every reachable state, admissible configurations"
  },
  {
   "property": "C16",
   "status": "proved",
   "theorems": [
    "BT.C16_shape",
    "BT.C16_pages"
   ],
   "note": "all four variants, both layouts, every reachable state, admissible configurations"
  },
  {
   "property": "C17",
   "status": "proved",
   "theorems": [
    "BT.C17_bulkload"
   ],
   "note": "all variants, both layouts, admissible configurations with BulkRoomy (one record per leaf, two children per inner page); workers run one after the other in the model, they share no page"
  },
  {
   "property": "C18",
   "status": "proved",
   "theorems": [
    "BT.C18_partition",
    "BT.C18_same_contents"
   ],
   "note": "all variants, both layouts, admissible configurations with BulkRoomy (one record per leaf, two children per inner page)"
  },
  {
   "property": "C19",
   "status": "partial",
   "theorems": [
    "BT.C19_bulkload_partial",
    "BT.C19_small_bulkload_undefined"
   ],
   "note": "the claim is false: every non-empty input that fits into one leaf and is loaded by one worker is undefined behaviour (C19_small_bulkload_undefined); the remaining inputs are proved safe"
  },
  {
   "property": "C20",
   "status": "partial",
   "theorems": [
    "BT.C20_statistics",
    "BT.C20_usage_var_partial",
    "BT.C20_usage_fix_partial",
    "BT.C20_usage_fix_undercounts"
   ],
   "note": "all four variants, both layouts, every reachable state, admissible configurations; node counts and page bytes exact; used bytes exact in the variable-length layout; in the fixed-length layout the code omits the border keys, so the used-bytes part of the claim is false there (C20_usage_fix_undercounts)"
  },
  {
   "property": "C22",
   "status": "partial",
   "theorems": [
    "BT.C22_psl_not_linearizable",
    "BT.C22_psl_linearizable_partial"
   ],
   "note": "arbitrary interleavings of any number of threads, sequentially consistent memory, pages read and written by single actions; the claim is false: an execution of PSL that is not linearizable (C22_psl_not_linearizable); proved (C22_psl_linearizable_partial) for every execution in which none of the three situations occurs that the ghost flag Mem.raced records (a separator read from an unlocked page that was split again, a store to root_ that overwrites another one, the removal of a root that has a right sibling); Scan is not part of these executions"
  },
  {
   "property": "C23",
   "status": "partial",
   "theorems": [
    "BT.C23_osl_not_linearizable",
    "BT.C23_osl_linearizable_partial"
   ],
   "note": "arbitrary interleavings of any number of threads, sequentially consistent memory, pages read and written by single actions; the claim is false: an execution of OSL that is not linearizable (C23_osl_not_linearizable); proved (C23_osl_linearizable_partial) for every execution in which none of the three situations occurs that the ghost flag Mem.raced records (a separator read from an unlocked page that was split again, a store to root_ that overwrites another one, the removal of a root that has a right sibling); Scan is not part of these executions"
  },
  {
   "property": "C24",
   "status": "partial",
   "theorems": [
    "BT.C24_pml_not_linearizable",
    "BT.C24_pml_linearizable_partial",
    "BT.C24_pml_no_crash_partial",
    "BT.C24_C29_C30_pml_writers"
   ],
   "note": "arbitrary interleavings of any number of threads, sequentially consistent memory, pages read and written by single actions; the claim is false: a reader that still works with a root another thread has removed misses a record that is present during its whole call, even if released memory keeps its contents (C24_pml_not_linearizable); proved (C24_pml_linearizable_partial) for every execution in which no page is released that another thread has locked (ghost flag Mem.raced, set by Act.free), and without that condition for executions without Read and Scan (C24_C29_C30_pml_writers); both layouts, under the page-room inequalities Roomy and record length <= kMinFreeSpaceSize; the code's own static_assert is weaker (C40); a scan with the loop over its iterator is one call"
  },
  {
   "property": "C29",
   "status": "partial",
   "theorems": [
    "BT.C29_pml_no_deadlock_partial",
    "BT.C29_pml_progress_partial",
    "BT.C24_C29_C30_pml_writers"
   ],
   "note": "arbitrary interleavings of any number of threads, sequentially consistent memory, pages read and written by single actions; no cycle of waiting threads, and every waiting thread waits for one that runs, for every execution in which no page is released that another thread has locked (ghost flag Mem.raced, set by Act.free), and without that condition for executions without Read and Scan (C24_C29_C30_pml_writers); both layouts, under the page-room inequalities Roomy and record length <= kMinFreeSpaceSize; the code's own static_assert is weaker (C40); a scan with the loop over its iterator is one call"
  },
  {
   "property": "C30",
   "status": "partial",
   "theorems": [
    "BT.C30_pml_root_released_under_reader",
    "BT.C30_pml_no_use_after_release_partial",
    "BT.C24_C29_C30_pml_writers"
   ],
   "note": "arbitrary interleavings of any number of threads, sequentially consistent memory, pages read and written by single actions; the claim is false: the removal of a root with one child releases it while a reader holds its shared lock and goes on to read it (C30_pml_root_released_under_reader); proved (C30_pml_no_use_after_release_partial) for every execution in which no page is released that another thread has locked (ghost flag Mem.raced, set by Act.free), and without that condition for executions without Read and Scan (C24_C29_C30_pml_writers); both layouts, under the page-room inequalities Roomy and record length <= kMinFreeSpaceSize; the code's own static_assert is weaker (C40); a scan with the loop over its iterator is one call"
  },
  {
   "property": "C26",
   "status": "partial",
   "theorems": [
    "BT.C26_psl_write_lost",
    "BT.C26_psl_no_write_lost_partial",
    "BT.C26_osl_write_lost",
    "BT.C26_osl_no_write_lost_partial",
    "BT.C26_C32_C33_oml_no_write_lost_partial"
   ],
   "note": "arbitrary interleavings of any number of threads, sequentially consistent memory, pages read and written by single actions; the claim is false for PSL and OSL: a completed write is not found by a later read (C26_psl_write_lost, C26_osl_write_lost); proved for both (C26_psl_no_write_lost_partial, C26_osl_no_write_lost_partial) for every execution in which none of the three situations occurs that the ghost flag Mem.raced records (a separator read from an unlocked page that was split again, a store to root_ that overwrites another one, the removal of a root that has a right sibling); Scan is not part of these executions"
  },
  {
   "property": "C27",
   "status": "partial",
   "theorems": [
    "BT.C27_psl_splitter_crashes",
    "BT.C27_psl_separator_lost",
    "BT.C27_psl_no_crash_partial",
    "BT.C27_osl_splitter_crashes",
    "BT.C27_osl_separator_lost",
    "BT.C27_osl_no_crash_partial"
   ],
   "note": "arbitrary interleavings of any number of threads, sequentially consistent memory, pages read and written by single actions; the claim is false for PSL and OSL: the splitting thread can run into undefined behaviour (C27_*_splitter_crashes) and a separator can be overwritten by a second root split (C27_*_separator_lost); absence of undefined behaviour proved for both (C27_*_no_crash_partial) for every execution in which none of the three situations occurs that the ghost flag Mem.raced records (a separator read from an unlocked page that was split again, a store to root_ that overwrites another one, the removal of a root that has a right sibling); Scan is not part of these executions"
  },
  {
   "property": "C28",
   "status": "partial",
   "theorems": [
    "BT.C28_psl_merge_blocks_itself",
    "BT.C28_osl_merge_blocks_itself",
    "BT.C28_psl_no_self_wait_partial",
    "BT.C28_osl_no_self_wait_partial"
   ],
   "note": "arbitrary interleavings of any number of threads, sequentially consistent memory, pages read and written by single actions; the claim is false for PSL and OSL: a merging thread can wait for ever for a lock it holds; proved for executions with one writer at a time"
  },
  {
   "property": "C31",
   "status": "partial",
   "theorems": [
    "BT.C31_psl_retired_page_reached",
    "BT.C31_osl_retired_page_reached",
    "BT.C31_oml_retired_page_reached",
    "BT.C31_psl_retired_unreachable_partial",
    "BT.C31_osl_retired_unreachable_partial",
    "BT.C31_psl_one_writer_retired_unreachable_partial",
    "BT.C31_osl_one_writer_retired_unreachable_partial",
    "BT.C31_psl_retired_leaf_unreachable_partial",
    "BT.C31_osl_retired_leaf_unreachable_partial",
    "BT.C31_psl_one_writer_retired_leaf_unreachable_partial",
    "BT.C31_osl_one_writer_retired_leaf_unreachable_partial"
   ],
   "note": "arbitrary interleavings of any number of threads, sequentially consistent memory, pages read and written by single actions; the claim is false for PSL, OSL and OML: a call that starts after the page was handed to the garbage collector locks it (C31_psl_retired_page_reached) or reads it (C31_osl_retired_page_reached, C31_oml_retired_page_reached); proved for PSL and OSL, with loaded trees, scans and one writer at a time or no noted situation: when every thread has been idle once after the hand-over, no search can come to the page any more; leaves are out of reach when they are handed over"
  },
  {
   "property": "C25",
   "status": "partial",
   "theorems": [
    "BT.C25_oml_not_linearizable",
    "BT.C25_oml_var_not_linearizable",
    "BT.C25_oml_linearizable_partial",
    "BT.C25_oml_no_crash_partial"
   ],
   "note": "arbitrary interleavings of any number of threads, sequentially consistent memory, pages read and written by single actions; the claim is false: see C32 for the fixed-length and C33 for the variable-length layout; proved, together with the absence of undefined behaviour, for every execution in which no pages are merged, the root is not removed and no store to root_ overwrites another one (ghost flag Mem.raced; splits, clean-ups and all point operations are unrestricted)"
  },
  {
   "property": "C32",
   "status": "partial",
   "theorems": [
    "BT.C32_oml_stale_read",
    "BT.C26_C32_C33_oml_no_write_lost_partial"
   ],
   "note": "arbitrary interleavings of any number of threads, sequentially consistent memory, pages read and written by single actions; the claim is false: between the release of the left page and the removal of the right page a merge leaves two pages with the same keys; proved for every execution in which no pages are merged, the root is not removed and no store to root_ overwrites another one (ghost flag Mem.raced; splits, clean-ups and all point operations are unrestricted)"
  },
  {
   "property": "C33",
   "status": "partial",
   "theorems": [
    "BT.C33_oml_present_key_missed",
    "BT.C26_C32_C33_oml_no_write_lost_partial"
   ],
   "note": "arbitrary interleavings of any number of threads, sequentially consistent memory, pages read and written by single actions; the claim is false in the variable-length layout: the position of the highest key is changed before the exclusive lock is taken; the bytes at the new position are computed in firstPayload for 8-byte keys and 32-byte payloads; proved for every execution in which no pages are merged, the root is not removed and no store to root_ overwrites another one (ghost flag Mem.raced; splits, clean-ups and all point operations are unrestricted)"
  },
  {
   "property": "C34",
   "status": "partial",
   "theorems": [
    "BT.C34_pml_scans_partial",
    "BT.C34_psl_scans_partial",
    "BT.C34_osl_scans_partial",
    "BT.C34_oml_scans_partial",
    "BT.C34_psl_scan_repeats",
    "BT.C34_osl_scan_misses",
    "BT.C34_oml_scan_misses",
    "BT.C34_not_partwise"
   ],
   "note": "arbitrary interleavings of any number of threads, sequentially consistent memory, pages read and written by single actions; the claim is false for PSL (a key is reported twice), OSL and OML (a stable record is missed); for PML it is proved (C34_pml_scans_partial: every history is linearizable with scans that read their range part by part) for every execution in which no page is released that another thread has locked (ghost flag Mem.raced, set by Act.free), and without that condition for executions without Read and Scan (C24_C29_C30_pml_writers); both layouts, under the page-room inequalities Roomy and record length <= kMinFreeSpaceSize; the code's own static_assert is weaker (C40); a scan with the loop over its iterator is one call; for PSL it is proved (C34_psl_scans_partial, same statement) for every execution in which none of the three situations occurs that the ghost flag Mem.raced records (a separator read from an unlocked page that was split again, a store to root_ that overwrites another one, the removal of a root that has a right sibling), and no scan reads a page marked as removed (also recorded by Mem.raced); for OSL and OML it is proved (C34_osl_scans_partial, C34_oml_scans_partial, same statement) for executions in which none of the situations of C23 / C25 is recorded and no iterator is at its end right after a reset during which the page was changed (also recorded by Mem.raced)"
  },
  {
   "property": "C35",
   "status": "partial",
   "theorems": [
    "BT.C35_pml_independent",
    "BT.C35_psl_independent",
    "BT.C35_osl_iterators_interfere",
    "BT.C35_oml_iterators_interfere",
    "BT.C35_osl_wrong_pair",
    "BT.C35_oml_wrong_pair"
   ],
   "note": "proved for PML and PSL for every alternation and every pair of ranges; false for OSL and OML, whose iterators share the static thread-local key: an iterator ends early, or gives a key with the payload of another key. No write happens between the turns"
  },
  {
   "property": "C36",
   "status": "partial",
   "theorems": [
    "BT.C36_fix_bytes_hold_records_partial",
    "BT.C36_fix_split_over_reads"
   ],
   "note": "any sequence of page constructions, insertions, updates, removals, splits, merges, bulk loads and links, any previous contents of the memory, any key and payload type stored as bytes of fixed length; missing: key sizes for which the entry behind the last key of a page is not inside the page, where the claim is false (C36_fix_split_over_reads: the split of a full leaf with 128-byte keys reads beyond the page)"
  },
  {
   "property": "C37",
   "status": "partial",
   "theorems": [
    "BT.C37_var_bytes_hold_records_partial"
   ],
   "note": "any sequence of page constructions, insertions, updates, removals, reuses, clean-ups, child insertions and removals, splits, merges, bulk loads and links, any previous contents of the memory and of the temporary page, keys of any lengths; also: no two records and no record and metadata share a byte; missing: pages of 64 KiB and more (lengths are cut there, C38_metadata_truncates) and keys of length zero"
  },
  {
   "property": "C21",
   "status": "proved",
   "theorems": [
    "BT.C21_validated_read_is_snapshot",
    "BT.C21_osl_read",
    "BT.C21_osl_search_child"
   ],
   "note": "any number of writers and readers, word-by-word reads that may tear, any reading procedure that chooses its next word by the words read so far"
  },
  {
   "property": "C38",
   "status": "proved",
   "theorems": [
    "BT.C38_metadata_roundtrip",
    "BT.C38_mark_keeps_numbers",
    "BT.C38_equality",
    "BT.C38_equality_exact",
    "BT.C38_metadata_truncates"
   ],
   "note": "all 64-bit words; bit fields laid out from the low bit as on x86-64; C38_metadata_truncates: lengths of 2^16 and more are cut"
  },
  {
   "property": "C39",
   "status": "proved",
   "theorems": [
    "BT.C39_scan_stop",
    "BT.C39_scan_stop_last",
    "BT.C39_side_step"
   ],
   "note": "any page meeting the page invariant LeafPage/InnerPage, which every page of a reachable tree meets (C16_pages); both layouts"
  },
  {
   "property": "C40",
   "status": "partial",
   "theorems": [
    "BT.C40_static_assert_insufficient",
    "BT.C40_fix_pml_overflow",
    "BT.C40_fix_osl_overflow",
    "BT.C40_fix_psl_lost",
    "BT.C09_page_bounds_partial",
    "BT.C08_terminates"
   ],
   "note": "the claim is false: with the default sizes and 8/128-byte keys a split runs past the last record in all four classes (C40_static_assert_insufficient); with 322-byte payloads the fixed-length layout overflows (PML, OSL) or loses a write (PSL); under the stronger inequality Admissible the calls are safe (C08_terminates, C09_page_bounds_partial)"
  },
  {
   "property": "C41",
   "status": "proved",
   "theorems": [
    "BT.C41_replaces"
   ],
   "note": "all variants, both layouts, admissible configurations with BulkRoomy (one record per leaf, two children per inner page)"
  },
  {
   "property": "C42",
   "status": "partial",
   "theorems": [
    "BT.C42_bulkload_leaks",
    "BT.C42_new_pages_released_partial"
   ],
   "note": "the claim is false: the pages present before a bulkload, at least the initial root, stay allocated after destruction (C42_bulkload_leaks); nothing else does: after a bulkload and any calls, destroying leaves exactly the pages present before the bulkload (C42_new_pages_released_partial); without bulkload it holds (C15_destroy)"
  },
  {
   "property": "C43",
   "status": "partial",
   "theorems": [
    "BT.C43_psl_iterator_uses_released_page",
    "BT.C43_pml_iterator_pages_partial"
   ],
   "note": "arbitrary interleavings of any number of threads, sequentially consistent memory, pages read and written by single actions; the claim is false for PSL; proved for PML (C43_pml_iterator_pages_partial) for every execution in which no page is released that another thread has locked (ghost flag Mem.raced, set by Act.free), and without that condition for executions without Read and Scan (C24_C29_C30_pml_writers); both layouts, under the page-room inequalities Roomy and record length <= kMinFreeSpaceSize; the code's own static_assert is weaker (C40); a scan with the loop over its iterator is one call"
  },
  {
   "property": "C44",
   "status": "proved",
   "theorems": [
    "BT.C44_psl_one_writer_linearizable",
    "BT.C44_psl_one_writer_no_crash",
    "BT.C44_psl_one_writer_no_write_lost",
    "BT.C44_osl_one_writer_linearizable",
    "BT.C44_osl_one_writer_no_crash",
    "BT.C44_osl_one_writer_no_write_lost",
    "BT.C44_osl_one_writer_next_to_scans",
    "BT.C44_one_writer_never_raced",
    "BT.C44_pml_one_writer_not_linearizable"
   ],
   "note": "arbitrary interleavings of any number of threads, sequentially consistent memory, pages read and written by single actions; no situation is excluded; point operations (scans are C34 and C45; on OSL they may run at the same time without disturbing the others, C44_osl_one_writer_next_to_scans); for comparison, on PML one writer is not enough (C44_pml_one_writer_not_linearizable)"
  },
  {
   "property": "C45",
   "status": "partial",
   "theorems": [
    "BT.C45_psl_one_writer_scans",
    "BT.C45_osl_one_writer_scan_misses",
    "BT.C45_oml_one_writer_scan_misses"
   ],
   "note": "arbitrary interleavings of any number of threads, sequentially consistent memory, pages read and written by single actions; proved for PSL without any excluded situation (every history is linearizable with scans that read their range part by part); false for OSL and OML (a stable record is missed); open for PML, where one writer is not enough for reads (C44)"
  },
  {
   "property": "C46",
   "status": "partial",
   "theorems": [
    "BT.C46_pml_scan_torn",
    "BT.C46_psl_scan_torn",
    "BT.C46_osl_scan_torn",
    "BT.C46_oml_scan_torn",
    "BT.C46_pml_quiet_scans_partial",
    "BT.C46_psl_quiet_scans_partial",
    "BT.C46_psl_one_writer_quiet_scans",
    "BT.C46_osl_quiet_scans_partial",
    "BT.C46_oml_quiet_scans_partial"
   ],
   "note": "arbitrary interleavings of any number of threads, sequentially consistent memory, pages read and written by single actions; false in all four variants, even with one writer and none of the noted situations: a scan reports a later write and misses an earlier one; proved: if no call that can change the map overlaps a scan, every history is linearizable in the strict sense (scans at one instant), under the conditions of C34, for PSL with one writer without any condition"
  },
  {
   "property": "C47",
   "status": "partial",
   "theorems": [
    "BT.C47_psl_locks_released",
    "BT.C47_osl_locks_released",
    "BT.C47_oml_locks_released",
    "BT.C47_pml_locks_released_partial",
    "BT.C47_pml_writers_locks_released"
   ],
   "note": "arbitrary interleavings of any number of threads, sequentially consistent memory, pages read and written by single actions; proved for PSL, OSL and OML for all executions (OML in all configurations); for PML for every execution in which no page is released that another thread has locked (ghost flag Mem.raced, set by Act.free), and without that condition for executions without Read and Scan (C24_C29_C30_pml_writers); both layouts, under the page-room inequalities Roomy and record length <= kMinFreeSpaceSize; the code's own static_assert is weaker (C40); a scan with the loop over its iterator is one call"
  },
  {
   "property": "C48",
   "status": "proved",
   "theorems": [
    "BT.C48_osl_readers_block_nobody",
    "BT.C48_oml_readers_block_nobody",
    "BT.C48_psl_scan_blocks_writer",
    "BT.C48_pml_scan_blocks_writer"
   ],
   "note": "arbitrary interleavings of any number of threads, sequentially consistent memory, pages read and written by single actions; no situation is excluded; for comparison, scans of PML and PSL make writers wait"
  },
  {
   "property": "C49",
   "status": "partial",
   "theorems": [
    "BT.C49_psl_no_deadlock_partial",
    "BT.C49_osl_no_deadlock_partial",
    "BT.C49_psl_delete_waits_for_itself",
    "BT.C49_osl_delete_waits_for_itself"
   ],
   "note": "arbitrary interleavings of any number of threads, sequentially consistent memory, pages read and written by single actions; proved for all executions without Delete; with Delete the claim is false (a merge waits for itself, see also C28)"
  },
  {
   "property": "C50",
   "status": "proved",
   "theorems": [
    "BT.C50_psl_one_writer_no_deadlock",
    "BT.C50_osl_one_writer_no_deadlock"
   ],
   "note": "arbitrary interleavings of any number of threads, sequentially consistent memory, pages read and written by single actions; no situation is excluded; Delete and Scan included"
  },
  {
   "property": "C51",
   "status": "partial",
   "theorems": [
    "BT.C51_psl_loaded_partial",
    "BT.C51_osl_loaded_partial",
    "BT.C51_oml_loaded_partial",
    "BT.C51_psl_loaded_scans_partial",
    "BT.C51_osl_loaded_scans_partial",
    "BT.C51_oml_loaded_scans_partial",
    "BT.C51_psl_loaded_no_deadlock_partial",
    "BT.C51_osl_loaded_no_deadlock_partial",
    "BT.C51_pml_loaded_partial",
    "BT.C51_pml_loaded_scans_partial",
    "BT.C51_pml_loaded_no_deadlock_partial",
    "BT.C51_pml_loaded_writers"
   ],
   "note": "arbitrary interleavings of any number of threads, sequentially consistent memory, pages read and written by single actions; the threads start from the memory that any calls of one thread, bulkloads among them, have left; proved under the conditions of C22, C23, C24, C25 and C34 (executions in which none of the noted situations occurs); no deadlock for PSL and OSL without Delete, for PML under the condition of C30, for OML see C55; for PML with writers only, nothing is excluded"
  },
  {
   "property": "C52",
   "status": "proved",
   "theorems": [
    "BT.C52_psl_loaded_one_writer",
    "BT.C52_psl_loaded_one_writer_linearizable",
    "BT.C52_osl_loaded_one_writer",
    "BT.C52_psl_loaded_one_writer_no_deadlock",
    "BT.C52_osl_loaded_one_writer_no_deadlock"
   ],
   "note": "arbitrary interleavings of any number of threads, sequentially consistent memory, pages read and written by single actions; the threads start from the memory that any calls of one thread have left; no situation is excluded"
  },
  {
   "property": "C53",
   "status": "proved",
   "theorems": [
    "BT.C53_psl_updates",
    "BT.C53_osl_updates",
    "BT.C53_psl_updates_no_deadlock",
    "BT.C53_osl_updates_no_deadlock"
   ],
   "note": "arbitrary interleavings of any number of threads, sequentially consistent memory, pages read and written by single actions; the threads start from the memory that any calls of one thread have left; no situation is excluded"
  },
  {
   "property": "C54",
   "status": "proved",
   "theorems": [
    "BT.C54_psl_readers",
    "BT.C54_osl_readers",
    "BT.C54_oml_readers",
    "BT.C54_pml_readers"
   ],
   "note": "arbitrary interleavings of any number of threads, sequentially consistent memory, pages read and written by single actions; the threads start from the memory that any calls of one thread have left; no situation is excluded"
  },
  {
   "property": "C55",
   "status": "partial",
   "theorems": [
    "BT.C55_oml_no_deadlock_partial",
    "BT.C55_oml_loaded_no_deadlock_partial"
   ],
   "note": "arbitrary interleavings of any number of threads, sequentially consistent memory, pages read and written by single actions; proved for executions (from the empty tree and from loaded trees) that merge no pages, do not remove the root and do not overwrite the root pointer; attempts to merge are covered up to the merge"
  },
  {
   "property": "C56",
   "status": "partial",
   "theorems": [
    "BT.C56_pml_phases_partial",
    "BT.C56_pml_next_phase_partial",
    "BT.C56_psl_phases_partial",
    "BT.C56_psl_next_phase_partial",
    "BT.C56_osl_phases_partial",
    "BT.C56_osl_next_phase_partial",
    "BT.C56_oml_phases_partial",
    "BT.C56_oml_next_phase_partial"
   ],
   "note": "arbitrary interleavings of any number of threads, sequentially consistent memory, pages read and written by single actions; proved for PML, phases of many threads under the condition of C24 and C30 (no page is released that another thread has locked) or without readers; for PSL and OSL with one writer at a time (OSL without the answers of concurrent scans), or with many writers in executions without the situations of C34; for OML in executions without the situations of C34"
  },
  {
   "property": "C57",
   "status": "partial",
   "theorems": [
    "BT.C57_pml_tidy_partial",
    "BT.C57_psl_tidy_partial",
    "BT.C57_osl_tidy_partial",
    "BT.C57_oml_tidy_partial"
   ],
   "note": "arbitrary interleavings of any number of threads, sequentially consistent memory, pages read and written by single actions; proved for all quiescent states that phases as in C56 lead to: concurrent phases under the conditions named there"
  }
 ]
}