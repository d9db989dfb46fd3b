import Verif.PmlLive
import Verif.Props.PmlBad
import Verif.LinFacts

/-!
# What PML guarantees under concurrency (C24, C29, C30, C34, C43)

The theorems hold for every execution of any number of threads from the empty tree, for every page size, layout and key and payload
length that satisfies `Roomy` (see `C01`) and leaves room for one record in a merged page (`hmf`, see `C01` for PML), as long as no
thread releases a page on which another thread holds a lock (the ghost flag `Mem.raced`, set by `Act.free`; it has no effect on the
program).  `PmlBad.lean` shows that `ShrinkTreeIfNeeded` can do that to a reader, and that the reader then misses records.

Without readers it cannot happen: the theorem named `_writers` has no such condition.

`Scan` is part of these executions: the call together with the caller's loop over the iterator is one call of the thread, so a thread does
not call the index while it is in such a loop (its own shared lock would block it).
-/

namespace BT
open Spec Relation
variable {K V : Type} [LinearOrder K] {cfg : Cfg K} {L : Nat} {c : Conf K V}

/-- C24: the histories of `Read`, `Write`, `Insert`, `Update` and `Delete` are linearizable.  Missing: executions in which a page
is released that another thread has locked (false, `C24_pml_not_linearizable`); for scans see `C34_pml_scans_partial`. -/
theorem C24_pml_linearizable_partial (hr : Roomy cfg L) (hmf : L + cfg.maxPayLen + cfg.mlen ≤ cfg.minFree)
    (hc : Conf.Reach (CPml.exec cfg) Conf.initPml c) (hn : c.mem.raced = false) (hs : ∀ t b e, Ev.inv t (.scan b e) ∉ c.hist) :
    Linearizable c.hist := by
  obtain ⟨w, hw⟩ := PL.sim hr hmf hc hn
  exact hw.past.partwise.noScan hs

/-- C34: with scans, the histories are linearizable in parts: every scan goes through its range from left to right and reads each part
at one instant, all other calls take effect at one instant.  So no scan misses a record that was there all the time, or reports keys
twice or out of order.  Missing: executions in which a page is released that another thread has locked. -/
theorem C34_pml_scans_partial (hr : Roomy cfg L) (hmf : L + cfg.maxPayLen + cfg.mlen ≤ cfg.minFree)
    (hc : Conf.Reach (CPml.exec cfg) Conf.initPml c) (hn : c.mem.raced = false) :
    PartwiseLinearizable c.hist ∧ ¬ LosesWrite c.hist ∧ ¬ ScanMisses c.hist ∧ ¬ ScanRepeats c.hist := by
  obtain ⟨w, hw⟩ := PL.sim hr hmf hc hn
  exact ⟨hw.past.partwise, hw.past.partwise.facts⟩

/-- C43: a thread that iterates (like any other) never uses a page that has been released, and the page it stands on is not released.
Missing: as for C34. -/
theorem C43_pml_iterator_pages_partial (hr : Roomy cfg L) (hmf : L + cfg.maxPayLen + cfg.mlen ≤ cfg.minFree)
    (hc : Conf.Reach (CPml.exec cfg) Conf.initPml c) (hn : c.mem.raced = false) {t : Tid} {p : Ptr} :
    (c.Touches t p → p ∉ c.mem.gc) ∧ (t ∈ (c.mem.lk p).s → p ∉ c.mem.gc) := by
  obtain ⟨w, hw⟩ := PL.sim hr hmf hc hn
  refine ⟨fun ht => hw.no_touch ht, fun ht hp => ?_⟩
  rw [PL.gc_free hw hp] at ht
  cases ht

/-- C24, C30: no thread runs into undefined behaviour: no access to a page without its lock, no access to a page that does not exist or
outside the records of a page, no leaf taken for an inner page.  Missing: as for C24. -/
theorem C24_pml_no_crash_partial (hr : Roomy cfg L) (hmf : L + cfg.maxPayLen + cfg.mlen ≤ cfg.minFree)
    (hc : Conf.Reach (CPml.exec cfg) Conf.initPml c) (hn : c.mem.raced = false) : ¬ c.Bad := by
  obtain ⟨w, hw⟩ := PL.sim hr hmf hc hn
  exact hw.not_bad

/-- C30: no thread is about to use a page that has been released, and no thread holds a shared lock on one.  Missing: releases of
pages that another thread has locked (possible, `C30_pml_root_released_under_reader`). -/
theorem C30_pml_no_use_after_release_partial (hr : Roomy cfg L) (hmf : L + cfg.maxPayLen + cfg.mlen ≤ cfg.minFree)
    (hc : Conf.Reach (CPml.exec cfg) Conf.initPml c) (hn : c.mem.raced = false) {p : Ptr} (hp : p ∈ c.mem.gc) :
    (∀ t, ¬ c.Touches t p) ∧ (c.mem.lk p).s = [] := by
  obtain ⟨w, hw⟩ := PL.sim hr hmf hc hn
  exact ⟨fun t ht => hw.no_touch ht hp, PL.gc_free hw hp⟩

/-- C29: threads never wait for each other in a cycle.  Missing: as for C30. -/
theorem C29_pml_no_deadlock_partial (hr : Roomy cfg L) (hmf : L + cfg.maxPayLen + cfg.mlen ≤ cfg.minFree)
    (hc : Conf.Reach (CPml.exec cfg) Conf.initPml c) (hn : c.mem.raced = false) (t : Tid) : ¬ TransGen c.WaitsFor t t := by
  obtain ⟨w, hw⟩ := PL.sim hr hmf hc hn
  exact PL.acyclic hw

/-- C29: a thread that waits, waits (directly, or through others that wait) for a thread that is in the middle of a call and does not
wait.  Missing: as for C30. -/
theorem C29_pml_progress_partial (hr : Roomy cfg L) (hmf : L + cfg.maxPayLen + cfg.mlen ≤ cfg.minFree)
    (hc : Conf.Reach (CPml.exec cfg) Conf.initPml c) (hn : c.mem.raced = false) {t : Tid} (ht : c.Waiting t) :
    ∃ u, TransGen c.WaitsFor t u ∧ c.Runs u := by
  obtain ⟨w, hw⟩ := PL.sim hr hmf hc hn
  exact PL.progress hw ht

/-- C24, C29 and C30 for executions of `Write`, `Insert`, `Update` and `Delete` by any number of threads. -/
theorem C24_C29_C30_pml_writers (hr : Roomy cfg L) (hmf : L + cfg.maxPayLen + cfg.mlen ≤ cfg.minFree)
    (hc : Conf.Reach (CPml.exec cfg) Conf.initPml c) (hn : ∀ t k, Ev.inv t (.read k) ∉ c.hist)
    (hsc : ∀ t b e, Ev.inv t (.scan b e) ∉ c.hist) : Linearizable c.hist ∧ ¬ c.Bad ∧ (∀ t p, c.Touches t p → p ∉ c.mem.gc) ∧ (∀ t, ¬ TransGen c.WaitsFor t t) ∧
      ∀ t, c.Waiting t → ∃ u, TransGen c.WaitsFor t u ∧ c.Runs u := by
  obtain ⟨⟨w, hw⟩, -, -⟩ := PL.no_readers hr hmf (PL.sim0 cfg) (fun _ => rfl) (fun _ => rfl) hc hn hsc
  exact ⟨hw.past.partwise.noScan hsc, hw.not_bad, fun t p h => hw.no_touch h, fun t => PL.acyclic hw, fun t h => PL.progress hw h⟩

/-! ## Runs that meet the hypotheses -/

theorem c120_roomy : Roomy c120 8 where
  key _ := by simp [Cfg.klen, c120, fixCfg]
  le := by simp [c120, fixCfg]
  fixL _ := by simp [c120, fixCfg]
  meta_pos := by simp [c120, fixCfg]
  hdr := by simp [c120, fixCfg]
  var1 h := by simp [c120, fixCfg] at h
  var2 h := by simp [c120, fixCfg] at h
  fix1 _ := by simp [c120, fixCfg, Cfg.maxRecLen, Cfg.maxPayLen, Cfg.mlen, Cfg.cap]

theorem c120_room : 8 + c120.maxPayLen + c120.mlen ≤ c120.minFree := by decide +kernel

/-- After the eight writes of `pmlFill`, thread 1 reads 10 and has locked the left leaf; thread 0 wants to delete 0 and waits for thread
1, thread 2 wants to write to the same leaf and waits for thread 0, thread 3 wants to lock the root and waits for thread 2. -/
def pmlQueue : List (Sched Nat Nat) := pmlFill.take 24 ++
  [.inv 1 (.read 10), .go 1 7, .inv 0 (.delete 0), .go 0 14, .inv 2 (.write 5 5), .go 2 9, .inv 3 (.write 6 6), .go 3 2]

/-- All of them finish; then the two leaves are merged by thread 0 while thread 1 reads, and the tree shrinks. -/
def pmlClean : List (Sched Nat Nat) := pmlQueue ++
  [.go 1 3, .res 1, .go 0 4, .res 0, .go 2 9, .res 2, .go 3 16, .res 3, .inv 1 (.read 5), .go 1 10, .res 1, .inv 0 (.delete 5),
   .go 0 18, .res 0, .inv 0 (.delete 6), .go 0 18, .res 0, .inv 0 (.delete 20), .go 0 18, .res 0, .inv 0 (.delete 10), .go 0 18, .res 0,
   .inv 1 (.read 40), .go 1 6, .inv 0 (.delete 10), .go 0 16, .go 1 1, .go 0 2, .go 1 3, .res 1, .go 0 11, .res 0,
   .inv 0 (.write 12 12), .go 0 20, .res 0, .inv 2 (.read 60), .go 2 7, .res 2]

/-- What thread `t` does next: it waits for an exclusive (`0`), an SIX (`1`) lock of a page. -/
def Conf.waitsAt (c : Conf Nat Nat) (t : Tid) : Option (Nat × Ptr) :=
  match c.thr t with
  | some (.act a _) =>
    match a, a.run t c.mem with
    | .upgradeX p, .wait => some (0, p)
    | .lockSIX p, .wait => some (1, p)
    | _, _ => none
  | _ => none

theorem Conf.waiting_of_at {c : Conf Nat Nat} {t : Tid} {x : Nat × Ptr} (h : c.waitsAt t = some x) : c.Waiting t := by
  unfold Conf.waitsAt at h
  split at h
  · next e => split at h
              · next e' => exact ⟨_, _, _, e, e'⟩
              · next e' => exact ⟨_, _, _, e, e'⟩
              · cases h
  · cases h

/-- Is this the call of a scan? -/
def Ev.scans {K V : Type} : Ev K V → Bool
  | .inv _ (.scan _ _) => true
  | _ => false

/-- Three threads wait, and the theorem finds the one they wait for. -/
example : ∃ c, Conf.Reach (CPml.exec c120) (Conf.initPml : Conf Nat Nat) c ∧ c.mem.raced = false ∧ c.Waiting 0 ∧ c.Waiting 2 ∧
    c.Waiting 3 ∧ (c.mem.lk 1).s = [1] ∧ (c.mem.lk 1).six = some 0 ∧ (c.mem.lk 3).six = some 2 ∧
    ∃ u, TransGen c.WaitsFor 3 u ∧ c.Runs u := by
  have h : (Conf.cmds (CPml.exec c120) 20 pmlQueue Conf.initPml).map (fun c => decide (c.mem.raced = false ∧
    c.waitsAt 0 = some (0, 1) ∧ c.waitsAt 2 = some (1, 1) ∧ c.waitsAt 3 = some (1, 3) ∧ (c.mem.lk 1).s = [1] ∧
    (c.mem.lk 1).six = some 0 ∧ (c.mem.lk 3).six = some 2)) = some true := by decide +kernel
  rw [Option.map_eq_some_iff] at h
  obtain ⟨c, h1, h2⟩ := h
  obtain ⟨g0, g1, g2, g3, g4, g5, g6⟩ := of_decide_eq_true h2
  have hc := Conf.cmds_reach .refl h1
  exact ⟨c, hc, g0, Conf.waiting_of_at g1, Conf.waiting_of_at g2, Conf.waiting_of_at g3, g4, g5, g6,
    C29_pml_progress_partial c120_roomy c120_room hc g0 (Conf.waiting_of_at g3)⟩

example : ∃ c, Conf.Reach (CPml.exec c120) (Conf.initPml : Conf Nat Nat) c ∧ c.mem.raced = false ∧ c.mem.gc = [3, 2] ∧
    c.hist.drop 34 = [.inv 1 (.read 40), .inv 0 (.delete 10), .res 1 (.payload (some 40)), .res 0 (.code .keyNotExist),
      .inv 0 (.write 12 12), .res 0 (.code .success), .inv 2 (.read 60), .res 2 (.payload (some 60))] ∧ Linearizable c.hist := by
  have h : (Conf.cmds (CPml.exec c120) 20 pmlClean Conf.initPml).map (fun c => decide (c.mem.raced = false ∧ c.mem.gc = [3, 2] ∧
    (∀ x ∈ c.hist, x.scans = false) ∧
    c.hist.drop 34 = [.inv 1 (.read 40), .inv 0 (.delete 10), .res 1 (.payload (some 40)), .res 0 (.code .keyNotExist),
      .inv 0 (.write 12 12), .res 0 (.code .success), .inv 2 (.read 60), .res 2 (.payload (some 60))])) = some true := by
    decide +kernel
  rw [Option.map_eq_some_iff] at h
  obtain ⟨c, h1, h2⟩ := h
  obtain ⟨g0, g1, gs, g2⟩ := of_decide_eq_true h2
  have hc := Conf.cmds_reach .refl h1
  exact ⟨c, hc, g0, g1, g2, C24_pml_linearizable_partial c120_roomy c120_room hc g0 (fun t b e h => by cases gs _ h)⟩

/-- Writers only: `pmlFill` splits and merges. -/
example : ∃ c, Conf.Reach (CPml.exec c120) (Conf.initPml : Conf Nat Nat) c ∧ (∀ t k, Ev.inv t (.read k) ∉ c.hist) ∧
    (∀ t b e, Ev.inv t (.scan b e) ∉ c.hist) ∧ c.mem.gc = [2] ∧ Linearizable c.hist := by
  have h : (Conf.cmds (CPml.exec c120) 20 pmlFill Conf.initPml).map (fun c => decide (c.mem.gc = [2] ∧
    c.hist = pmlStaleHist.take 26)) = some true := by decide +kernel
  rw [Option.map_eq_some_iff] at h
  obtain ⟨c, h1, h2⟩ := h
  obtain ⟨g0, g1⟩ := of_decide_eq_true h2
  have hc := Conf.cmds_reach .refl h1
  have hn : ∀ t k, Ev.inv t (.read k) ∉ c.hist := by rw [g1]; intro t k; simp [pmlStaleHist]
  have hsc : ∀ t b e, Ev.inv t (.scan b e) ∉ c.hist := by rw [g1]; intro t b e; simp [pmlStaleHist]
  exact ⟨c, hc, hn, hsc, g0, (C24_C29_C30_pml_writers c120_roomy c120_room hc hn hsc).1⟩

/-- Three leaves.  While thread 1 iterates and stands on the second one, thread 0 deletes 10 from the first and then inserts 95 into the
third: the scan reports both, although there was no instant at which the index contained both. -/
def pmlScan : List (Sched Nat Nat) := pmlFill.take 24 ++
  [.inv 0 (.write 80 80), .go 0 18, .res 0, .inv 0 (.write 90 90), .go 0 18, .res 0, .inv 0 (.write 100 100), .go 0 32, .res 0,
   .inv 1 (.scan none none), .go 1 12, .inv 0 (.delete 10), .go 0 18, .res 0, .inv 0 (.insert 95 95), .go 0 18, .res 0, .go 1 5, .res 1]

example : ∃ c, Conf.Reach (CPml.exec c120) (Conf.initPml : Conf Nat Nat) c ∧ c.mem.raced = false ∧
    c.hist.drop 22 = [.inv 1 (.scan none none), .inv 0 (.delete 10), .res 0 (.code .success), .inv 0 (.insert 95 95), .res 0 (.code .success),
      .res 1 (.recs ([0, 10, 20, 30, 40, 50, 60, 70, 80, 90, 95, 100].map (fun k => (k, k))))] ∧
    PartwiseLinearizable c.hist ∧ ¬ ScanMisses c.hist := by
  have h : (Conf.cmds (CPml.exec c120) 20 pmlScan Conf.initPml).map (fun c => decide (c.mem.raced = false ∧
    c.hist.drop 22 = [.inv 1 (.scan none none), .inv 0 (.delete 10), .res 0 (.code .success), .inv 0 (.insert 95 95), .res 0 (.code .success),
      .res 1 (.recs ([0, 10, 20, 30, 40, 50, 60, 70, 80, 90, 95, 100].map (fun k => (k, k))))])) = some true := by decide +kernel
  rw [Option.map_eq_some_iff] at h
  obtain ⟨c, h1, h2⟩ := h
  obtain ⟨g0, g1⟩ := of_decide_eq_true h2
  have hc := Conf.cmds_reach .refl h1
  obtain ⟨k1, -, k3, -⟩ := C34_pml_scans_partial c120_roomy c120_room hc g0
  exact ⟨c, hc, g0, g1, k1, k3⟩

/-- Half way through, thread 1 holds a shared lock on the second leaf, page 2, and the theorem tells that page 2 is not released. -/
example : ∃ c, Conf.Reach (CPml.exec c120) (Conf.initPml : Conf Nat Nat) c ∧ c.mem.raced = false ∧ 1 ∈ (c.mem.lk 2).s ∧ 2 ∉ c.mem.gc := by
  have h : (Conf.cmds (CPml.exec c120) 20 (pmlScan.take 35) Conf.initPml).map (fun c => decide (c.mem.raced = false ∧ 1 ∈ (c.mem.lk 2).s)) =
    some true := by decide +kernel
  rw [Option.map_eq_some_iff] at h
  obtain ⟨c, h1, h2⟩ := h
  obtain ⟨g0, g1⟩ := of_decide_eq_true h2
  have hc := Conf.cmds_reach .refl h1
  exact ⟨c, hc, g0, g1, (C43_pml_iterator_pages_partial c120_roomy c120_room hc g0).2 g1⟩

end BT
