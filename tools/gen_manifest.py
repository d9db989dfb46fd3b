"""Writes MANIFEST.json (status of every property and the theorems that settle it)."""
import json

PAGE = "both layouts, under the page-room inequalities Roomy"
C = []


def claim(pid, status, theorems, note):
    C.append({"property": pid, "status": status,
              "theorems": ["BT." + t for t in theorems], "note": note})


LC = PAGE + " and record length <= kMinFreeSpaceSize; the code's own static_assert is weaker (C40)"
claim("C01", "proved", ["C01_pml_sequential"], LC)
claim("C02", "proved", ["C02_oml_sequential"], LC + "; single thread, so every version check succeeds")
claim("C03", "proved", ["C03_psl_sequential"], PAGE)
claim("C04", "proved", ["C04_osl_sequential"], PAGE + "; single thread, so every version check succeeds")
ALL = "all four variants, both layouts, every reachable state, admissible configurations"
claim("C05", "proved", ["C05_scan"], ALL)
claim("C06", "proved", ["C06_other_keys", "C06_readers"], ALL)
claim("C07", "proved", ["C07_write", "C07_insert", "C07_update", "C07_delete"], ALL)
claim("C08", "proved", ["C08_terminates"], ALL)
claim("C09", "partial", ["C09_page_bounds_partial", "C08_terminates"],
      ALL + "; an overflow is undefined behaviour in the model, excluded by C08_terminates; false for other configurations the "
      "static_assert accepts (C40)")
NODE = "any page meeting the page invariant LeafPage/InnerPage, which every page of a reachable tree meets (C16_pages); both layouts"
claim("C10", "proved", ["C10_split_leaf", "C10_split_inner", "C10_split_total"], NODE)
claim("C11", "proved", ["C11_merge_leaf", "C11_merge_inner", "C11_merge_total"], NODE)
claim("C12", "proved", ["C12_cleanUp", "C12_cleanUp_total"], NODE)
claim("C13", "proved", ["C13_delete_reinsert"], ALL)
claim("C14", "proved", ["C14_search_leaf", "C14_search_inner"], NODE)
claim("C15", "proved", ["C15_no_leak", "C15_destroy"], ALL)
claim("C16", "proved", ["C16_shape", "C16_pages"], ALL)
BULK = "all variants, both layouts, admissible configurations with BulkRoomy (one record per leaf, two children per inner page)"
claim("C17", "proved", ["C17_bulkload"], BULK + "; workers run one after the other in the model, they share no page")
claim("C18", "proved", ["C18_partition", "C18_same_contents"], BULK)
claim("C19", "partial", ["C19_bulkload_partial", "C19_small_bulkload_undefined"],
      "the claim is false: every non-empty input that fits into one leaf and is loaded by one worker is undefined behaviour "
      "(C19_small_bulkload_undefined); the remaining inputs are proved safe")
claim("C20", "partial", ["C20_statistics", "C20_usage_var_partial", "C20_usage_fix_partial", "C20_usage_fix_undercounts"],
      ALL + "; node counts and page bytes exact; used bytes exact in the variable-length layout; in the fixed-length layout the "
      "code omits the border keys, so the used-bytes part of the claim is false there (C20_usage_fix_undercounts)")
CONC = "arbitrary interleavings of any number of threads, sequentially consistent memory, pages read and written by single actions"
COND = ("for every execution in which none of the three situations occurs that the ghost flag Mem.raced records (a separator read from "
        "an unlocked page that was split again, a store to root_ that overwrites another one, the removal of a root that has a right "
        "sibling); Scan is not part of these executions")
claim("C22", "partial", ["C22_psl_not_linearizable", "C22_psl_linearizable_partial"],
      CONC + "; the claim is false: an execution of PSL that is not linearizable (C22_psl_not_linearizable); proved "
      "(C22_psl_linearizable_partial) " + COND)
claim("C23", "partial", ["C23_osl_not_linearizable", "C23_osl_linearizable_partial"],
      CONC + "; the claim is false: an execution of OSL that is not linearizable (C23_osl_not_linearizable); proved "
      "(C23_osl_linearizable_partial) " + COND)
PCOND = ("for every execution in which no page is released that another thread has locked (ghost flag Mem.raced, set by Act.free), and "
         "without that condition for executions without Read and Scan (C24_C29_C30_pml_writers); " + LC + "; a scan with the loop over its "
         "iterator is one call")
claim("C24", "partial", ["C24_pml_not_linearizable", "C24_pml_linearizable_partial", "C24_pml_no_crash_partial", "C24_C29_C30_pml_writers"],
      CONC + "; the claim is false: a reader that still works with a root another thread has removed misses a record that is present "
      "during its whole call, even if released memory keeps its contents (C24_pml_not_linearizable); proved "
      "(C24_pml_linearizable_partial) " + PCOND)
claim("C29", "partial", ["C29_pml_no_deadlock_partial", "C29_pml_progress_partial", "C24_C29_C30_pml_writers"],
      CONC + "; no cycle of waiting threads, and every waiting thread waits for one that runs, " + PCOND)
claim("C30", "partial", ["C30_pml_root_released_under_reader", "C30_pml_no_use_after_release_partial", "C24_C29_C30_pml_writers"],
      CONC + "; the claim is false: the removal of a root with one child releases it while a reader holds its shared lock and goes on to "
      "read it (C30_pml_root_released_under_reader); proved (C30_pml_no_use_after_release_partial) " + PCOND)
claim("C26", "partial", ["C26_psl_write_lost", "C26_psl_no_write_lost_partial", "C26_osl_write_lost", "C26_osl_no_write_lost_partial",
                         "C26_C32_C33_oml_no_write_lost_partial"],
      CONC + "; the claim is false for PSL and OSL: a completed write is not found by a later read (C26_psl_write_lost, "
      "C26_osl_write_lost); proved for both (C26_psl_no_write_lost_partial, C26_osl_no_write_lost_partial) " + COND)
claim("C27", "partial", ["C27_psl_splitter_crashes", "C27_psl_separator_lost", "C27_psl_no_crash_partial",
                         "C27_osl_splitter_crashes", "C27_osl_separator_lost", "C27_osl_no_crash_partial"],
      CONC + "; the claim is false for PSL and OSL: the splitting thread can run into undefined behaviour (C27_*_splitter_crashes) and a "
      "separator can be overwritten by a second root split (C27_*_separator_lost); absence of undefined behaviour proved for both "
      "(C27_*_no_crash_partial) " + COND)
claim("C28", "partial", ["C28_psl_merge_blocks_itself", "C28_osl_merge_blocks_itself", "C28_psl_no_self_wait_partial", "C28_osl_no_self_wait_partial"],
      CONC + "; the claim is false for PSL and OSL: a merging thread can wait for ever for a lock it holds; proved for executions with one writer at a "
      "time")
claim("C31", "partial", ["C31_psl_retired_page_reached", "C31_osl_retired_page_reached", "C31_oml_retired_page_reached",
                          "C31_psl_retired_unreachable_partial", "C31_osl_retired_unreachable_partial",
                          "C31_psl_one_writer_retired_unreachable_partial", "C31_osl_one_writer_retired_unreachable_partial",
                          "C31_psl_retired_leaf_unreachable_partial", "C31_osl_retired_leaf_unreachable_partial",
                          "C31_psl_one_writer_retired_leaf_unreachable_partial", "C31_osl_one_writer_retired_leaf_unreachable_partial"],
      CONC + "; the claim is false for PSL, OSL and OML: a call that starts after the page was handed to the garbage collector locks it "
      "(C31_psl_retired_page_reached) or reads it (C31_osl_retired_page_reached, C31_oml_retired_page_reached); proved for PSL and OSL, with loaded "
      "trees, scans and one writer at a time or no noted situation: when every thread has been idle once after the hand-over, no search "
      "can come to the page any more; leaves are out of reach when they are handed over")
OMLRACED = ("every execution in which no pages are merged, the root is not removed and no store to root_ overwrites another one (ghost flag "
            "Mem.raced; splits, clean-ups and all point operations are unrestricted)")
claim("C25", "partial", ["C25_oml_not_linearizable", "C25_oml_var_not_linearizable", "C25_oml_linearizable_partial", "C25_oml_no_crash_partial"],
      CONC + "; the claim is false: see C32 for the fixed-length and C33 for the variable-length layout; proved, together with the absence of "
      "undefined behaviour, for " + OMLRACED)
claim("C32", "partial", ["C32_oml_stale_read", "C26_C32_C33_oml_no_write_lost_partial"],
      CONC + "; the claim is false: between the release of the left page and the removal of the right page a merge leaves two pages with the "
      "same keys; proved for " + OMLRACED)
claim("C33", "partial", ["C33_oml_present_key_missed", "C26_C32_C33_oml_no_write_lost_partial"],
      CONC + "; the claim is false in the variable-length layout: the position of the highest key is changed before the exclusive lock is taken; "
      "the bytes at the new position are computed in firstPayload for 8-byte keys and 32-byte payloads; proved for " + OMLRACED)
claim("C34", "partial", ["C34_pml_scans_partial", "C34_psl_scans_partial", "C34_osl_scans_partial", "C34_oml_scans_partial", "C34_psl_scan_repeats", "C34_osl_scan_misses", "C34_oml_scan_misses", "C34_not_partwise"],
      CONC + "; the claim is false for PSL (a key is reported twice), OSL and OML (a stable record is missed); for PML it is proved "
      "(C34_pml_scans_partial: every history is linearizable with scans that read their range part by part) " + PCOND +
      "; for PSL it is proved (C34_psl_scans_partial, same statement) " + COND.replace("; Scan is not part of these executions", ", and no "
      "scan reads a page marked as removed (also recorded by Mem.raced)") + "; for OSL and OML it is proved (C34_osl_scans_partial, "
      "C34_oml_scans_partial, same statement) for executions in which none of the situations of C23 / C25 is recorded and no iterator is at its "
      "end right after a reset during which the page was changed (also recorded by Mem.raced)")
claim("C35", "partial", ["C35_pml_independent", "C35_psl_independent", "C35_osl_iterators_interfere", "C35_oml_iterators_interfere",
                         "C35_osl_wrong_pair", "C35_oml_wrong_pair"],
      "proved for PML and PSL for every alternation and every pair of ranges; false for OSL and OML, whose iterators share the static "
      "thread-local key: an iterator ends early, or gives a key with the payload of another key. No write happens between the turns")
claim("C36", "partial", ["C36_fix_bytes_hold_records_partial", "C36_fix_split_over_reads"],
      "any sequence of page constructions, insertions, updates, removals, splits, merges, bulk loads and links, any previous contents of the "
      "memory, any key and payload type stored as bytes of fixed length; missing: key sizes for which the entry behind the last key of a page "
      "is not inside the page, where the claim is false (C36_fix_split_over_reads: the split of a full leaf with 128-byte keys reads beyond the page)")
claim("C37", "partial", ["C37_var_bytes_hold_records_partial"],
      "any sequence of page constructions, insertions, updates, removals, reuses, clean-ups, child insertions and removals, splits, merges, bulk "
      "loads and links, any previous contents of the memory and of the temporary page, keys of any lengths; also: no two records and no "
      "record and metadata share a byte; missing: pages of 64 KiB and more (lengths are cut there, C38_metadata_truncates) and keys of length zero")
claim("C21", "proved", ["C21_validated_read_is_snapshot", "C21_osl_read", "C21_osl_search_child"],
      "any number of writers and readers, word-by-word reads that may tear, any reading procedure that chooses its next word by the words read so far")
claim("C38", "proved", ["C38_metadata_roundtrip", "C38_mark_keeps_numbers", "C38_equality", "C38_equality_exact", "C38_metadata_truncates"],
      "all 64-bit words; bit fields laid out from the low bit as on x86-64; C38_metadata_truncates: lengths of 2^16 and more are cut")
claim("C39", "proved", ["C39_scan_stop", "C39_scan_stop_last", "C39_side_step"], NODE)
claim("C40", "partial", ["C40_static_assert_insufficient", "C40_fix_pml_overflow", "C40_fix_osl_overflow", "C40_fix_psl_lost",
      "C09_page_bounds_partial", "C08_terminates"],
      "the claim is false: with the default sizes and 8/128-byte keys a split runs past the last record in all four classes "
      "(C40_static_assert_insufficient); with 322-byte payloads the fixed-length layout overflows (PML, OSL) or loses a write (PSL); "
      "under the stronger inequality Admissible the calls are safe (C08_terminates, C09_page_bounds_partial)")
claim("C41", "proved", ["C41_replaces"], BULK)
claim("C42", "partial", ["C42_bulkload_leaks", "C42_new_pages_released_partial"],
      "the claim is false: the pages present before a bulkload, at least the initial root, stay allocated after destruction "
      "(C42_bulkload_leaks); nothing else does: after a bulkload and any calls, destroying leaves exactly the pages present before the bulkload "
      "(C42_new_pages_released_partial); without bulkload it holds (C15_destroy)")
claim("C43", "partial", ["C43_psl_iterator_uses_released_page", "C43_pml_iterator_pages_partial"],
      CONC + "; the claim is false for PSL; proved for PML (C43_pml_iterator_pages_partial) " + PCOND)

claim("C44", "proved", ["C44_psl_one_writer_linearizable", "C44_psl_one_writer_no_crash", "C44_psl_one_writer_no_write_lost",
                        "C44_osl_one_writer_linearizable", "C44_osl_one_writer_no_crash", "C44_osl_one_writer_no_write_lost",
                        "C44_osl_one_writer_next_to_scans", "C44_one_writer_never_raced", "C44_pml_one_writer_not_linearizable"],
      CONC + "; no situation is excluded; point operations (scans are C34 and C45; on OSL they may run at the same time without disturbing the others, C44_osl_one_writer_next_to_scans); for comparison, on PML one writer is not "
      "enough (C44_pml_one_writer_not_linearizable)")

claim("C45", "partial", ["C45_psl_one_writer_scans", "C45_osl_one_writer_scan_misses", "C45_oml_one_writer_scan_misses"],
      CONC + "; proved for PSL without any excluded situation (every history is linearizable with scans that read their range part by part); "
      "false for OSL and OML (a stable record is missed); open for PML, where one writer is not enough for reads (C44)")

claim("C46", "partial", ["C46_pml_scan_torn", "C46_psl_scan_torn", "C46_osl_scan_torn", "C46_oml_scan_torn",
      "C46_pml_quiet_scans_partial", "C46_psl_quiet_scans_partial", "C46_psl_one_writer_quiet_scans", "C46_osl_quiet_scans_partial",
      "C46_oml_quiet_scans_partial"],
      CONC + "; false in all four variants, even with one writer and none of the noted situations: a scan reports a later write and misses "
      "an earlier one; proved: if no call that can change the map overlaps a scan, every history is linearizable in the strict sense (scans at one instant), "
      "under the conditions of C34, for PSL with one writer without any condition")

claim("C47", "partial", ["C47_psl_locks_released", "C47_osl_locks_released", "C47_oml_locks_released", "C47_pml_locks_released_partial", "C47_pml_writers_locks_released"],
      CONC + "; proved for PSL, OSL and OML for all executions (OML in all configurations); for PML " + PCOND)
claim("C48", "proved", ["C48_osl_readers_block_nobody", "C48_oml_readers_block_nobody", "C48_psl_scan_blocks_writer", "C48_pml_scan_blocks_writer"],
      CONC + "; no situation is excluded; for comparison, scans of PML and PSL make writers wait")
claim("C49", "partial", ["C49_psl_no_deadlock_partial", "C49_osl_no_deadlock_partial", "C49_psl_delete_waits_for_itself",
      "C49_osl_delete_waits_for_itself"],
      CONC + "; proved for all executions without Delete; with Delete the claim is false (a merge waits for itself, see also C28)")

claim("C50", "proved", ["C50_psl_one_writer_no_deadlock", "C50_osl_one_writer_no_deadlock"],
      CONC + "; no situation is excluded; Delete and Scan included")

claim("C51", "partial", ["C51_psl_loaded_partial", "C51_osl_loaded_partial", "C51_oml_loaded_partial", "C51_psl_loaded_scans_partial",
      "C51_osl_loaded_scans_partial", "C51_oml_loaded_scans_partial", "C51_psl_loaded_no_deadlock_partial", "C51_osl_loaded_no_deadlock_partial",
      "C51_pml_loaded_partial", "C51_pml_loaded_scans_partial", "C51_pml_loaded_no_deadlock_partial", "C51_pml_loaded_writers"],
      CONC + "; the threads start from the memory that any calls of one thread, bulkloads among them, have left; proved "
      "under the conditions of C22, C23, C24, C25 and C34 (executions in which none of the noted situations occurs); no deadlock for PSL and OSL without Delete, for PML under the "
      "condition of C30, for OML see C55; for PML with writers only, nothing is excluded")
claim("C52", "proved", ["C52_psl_loaded_one_writer", "C52_psl_loaded_one_writer_linearizable", "C52_osl_loaded_one_writer",
      "C52_psl_loaded_one_writer_no_deadlock", "C52_osl_loaded_one_writer_no_deadlock"],
      CONC + "; the threads start from the memory that any calls of one thread have left; no situation is excluded")

claim("C53", "proved", ["C53_psl_updates", "C53_osl_updates", "C53_psl_updates_no_deadlock", "C53_osl_updates_no_deadlock"],
      CONC + "; the threads start from the memory that any calls of one thread have left; no situation is excluded")
claim("C54", "proved", ["C54_psl_readers", "C54_osl_readers", "C54_oml_readers", "C54_pml_readers"],
      CONC + "; the threads start from the memory that any calls of one thread have left; no situation is excluded")

claim("C55", "partial", ["C55_oml_no_deadlock_partial", "C55_oml_loaded_no_deadlock_partial"],
      CONC + "; proved for executions (from the empty tree and from loaded trees) that merge no pages, do not remove the root and do not overwrite the root pointer; "
      "attempts to merge are covered up to the merge")

claim("C56", "partial", ["C56_pml_phases_partial", "C56_pml_next_phase_partial", "C56_psl_phases_partial", "C56_psl_next_phase_partial",
      "C56_osl_phases_partial", "C56_osl_next_phase_partial", "C56_oml_phases_partial", "C56_oml_next_phase_partial"],
      CONC + "; proved for PML, phases of many threads under the condition of C24 and C30 (no page is released that another thread has locked) or without readers; "
      "for PSL and OSL with one writer at a time (OSL without the answers of concurrent scans), or with many writers in executions without the situations of C34; for OML in executions without the situations of C34")

claim("C57", "partial", ["C57_pml_tidy_partial", "C57_psl_tidy_partial", "C57_osl_tidy_partial", "C57_oml_tidy_partial"],
      CONC + "; proved for all quiescent states that phases as in C56 lead to: concurrent phases under the conditions named there")

json.dump({"claims": C}, open("/verif/MANIFEST.json", "w"), indent=1)
