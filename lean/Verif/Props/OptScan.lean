import Verif.OslScanOk
import Verif.Props.OslGood
import Verif.Props.OmlGood
import Verif.Props.ScanBad

/-!
# Scans of OSL and OML under concurrency (C34)

An iterator of OSL and OML can end too early, because it does not check the version of the page any more when it is at its end right after
`ResetIterator` (`C34_osl_scan_misses`, `C34_oml_scan_misses`).  Everything else is well: `noteEnd` notes this situation, and executions in
which nothing is noted are correct.
-/

namespace BT
open Spec
variable {K V : Type} [LinearOrder K] {cfg : Cfg K} {L : Nat} {c : Conf K V}

/-- C34 for OSL: with scans, the histories are linearizable in parts: every scan goes through its range from left to right and reads each
part at one instant, all other calls take effect at one instant.  So no scan misses a record that was there all the time, or reports keys
twice or out of order.  Missing: executions in which one of the situations of `C23_osl_linearizable_partial` occurs, or an iterator is at its
end right after a reset during which the page has been changed. -/
theorem C34_osl_scans_partial (hr : Roomy cfg L) (hb : cfg.blink = true) (hc : Conf.Reach (COsl.execS cfg) Conf.init c)
    (hn : c.mem.raced = false) :
    ¬ c.Bad ∧ PartwiseLinearizable c.hist ∧ ¬ LosesWrite c.hist ∧ ¬ ScanMisses c.hist ∧ ¬ ScanRepeats c.hist := by
  obtain ⟨a, b⟩ := COsl.partwise hr hb (sim_start cfg) hc hn
  exact ⟨a, b, b.facts⟩

/-- C34 for OML, whatever a key is read from a page that is being merged.  Missing: executions with merges, or in which an iterator is at
its end right after a reset during which the page has been changed. -/
theorem C34_oml_scans_partial (hr : Roomy cfg L) (hb : cfg.blink = false) {junk : Node K V → Node K V → K}
    (hc : Conf.Reach (COml.execS cfg junk) Conf.init c) (hn : c.mem.raced = false) :
    ¬ c.Bad ∧ PartwiseLinearizable c.hist ∧ ¬ LosesWrite c.hist ∧ ¬ ScanMisses c.hist ∧ ¬ ScanRepeats c.hist := by
  obtain ⟨a, b⟩ := COml.partwise hr hb (sim_start cfg) hc hn
  exact ⟨a, b, b.facts⟩

/-! Runs that meet the hypotheses.  OSL: thread 1 has scanned {0,20} and has read 40 from {40,60}; thread 2 deletes 0 and 20, which merges
{40,60} into its left neighbour; thread 0 writes 130.  Thread 1 goes on in the left neighbour, behind key 40. -/

def oslScanRun : List (Sched Nat Nat) :=
  [(0, 11), (20, 11), (40, 11), (60, 11), (80, 28), (100, 18), (120, 41)].flatMap (fun x => [.inv 0 (.write x.1 x.1), .go 0 x.2, .res 0]) ++
    [.inv 1 (.scan none none), .go 1 26, .inv 2 (.delete 0), .go 2 18, .res 2, .inv 2 (.delete 20), .go 2 41, .res 2,
      .inv 0 (.write 130 130), .go 0 18, .res 0, .go 1 31, .res 1]

example : ∃ c, Conf.Reach (COsl.execS c200) (Conf.init : Conf Nat Nat) c ∧ c.mem.raced = false ∧ c.mem.gc = [1] ∧
    c.hist.drop 14 = [.inv 1 (.scan none none), .inv 2 (.delete 0), .res 2 (.code .success), .inv 2 (.delete 20), .res 2 (.code .success),
      .inv 0 (.write 130 130), .res 0 (.code .success),
      .res 1 (.recs [(0, 0), (20, 20), (40, 40), (60, 60), (80, 80), (100, 100), (120, 120), (130, 130)])] ∧
    PartwiseLinearizable c.hist ∧ ¬ ScanMisses c.hist ∧ ¬ ScanRepeats c.hist := by
  have h : (Conf.trace (COsl.execS c200) 20 oslScanRun).map (fun c => decide (c.mem.raced = false ∧ c.mem.gc = [1] ∧
    c.hist.drop 14 = [.inv 1 (.scan none none), .inv 2 (.delete 0), .res 2 (.code .success), .inv 2 (.delete 20), .res 2 (.code .success),
      .inv 0 (.write 130 130), .res 0 (.code .success),
      .res 1 (.recs [(0, 0), (20, 20), (40, 40), (60, 60), (80, 80), (100, 100), (120, 120), (130, 130)])])) =
      some true := by decide +kernel
  rw [Option.map_eq_some_iff] at h
  obtain ⟨c, h1, h2⟩ := h
  obtain ⟨a1, a2, a3⟩ := of_decide_eq_true h2
  have hc := Conf.trace_reach h1
  obtain ⟨-, b1, -, b2, b3⟩ := C34_osl_scans_partial c200_roomy rfl hc a1
  exact ⟨c, hc, a1, a2, a3, b1, b2, b3⟩

/-! OML: thread 1 has read 0, 20, 40 from the only page; thread 2 deletes 0, after a split
of the page, and writes 70; thread 0 writes 130. -/

def omlScanRun : List (Sched Nat Nat) :=
  [(0, 22), (20, 21), (40, 21), (60, 21), (80, 21), (100, 21), (120, 21)].flatMap (fun x => [.inv 0 (.write x.1 x.1), .go 0 x.2, .res 0]) ++
    [.inv 1 (.scan none none), .go 1 11, .inv 2 (.delete 0), .go 2 29, .res 2, .inv 2 (.write 70 70), .go 2 34, .res 2,
      .inv 0 (.write 130 130), .go 0 34, .res 0, .go 1 30, .res 1]

example : ∃ c, Conf.Reach (COml.execS c120 (fun _ _ => 0)) (Conf.init : Conf Nat Nat) c ∧ c.mem.raced = false ∧ c.mem.root = 2 ∧
    c.hist.drop 14 = [.inv 1 (.scan none none), .inv 2 (.delete 0), .res 2 (.code .success), .inv 2 (.write 70 70), .res 2 (.code .success),
      .inv 0 (.write 130 130), .res 0 (.code .success),
      .res 1 (.recs [(0, 0), (20, 20), (40, 40), (60, 60), (70, 70), (80, 80), (100, 100), (120, 120), (130, 130)])] ∧
    PartwiseLinearizable c.hist ∧ ¬ ScanMisses c.hist ∧ ¬ ScanRepeats c.hist := by
  have h : (Conf.trace (COml.execS c120 (fun _ _ => 0)) 20 omlScanRun).map (fun c => decide (c.mem.raced = false ∧ c.mem.root = 2 ∧
    c.hist.drop 14 = [.inv 1 (.scan none none), .inv 2 (.delete 0), .res 2 (.code .success), .inv 2 (.write 70 70), .res 2 (.code .success),
      .inv 0 (.write 130 130), .res 0 (.code .success),
      .res 1 (.recs [(0, 0), (20, 20), (40, 40), (60, 60), (70, 70), (80, 80), (100, 100), (120, 120), (130, 130)])])) =
      some true := by decide +kernel
  rw [Option.map_eq_some_iff] at h
  obtain ⟨c, h1, h2⟩ := h
  obtain ⟨a1, a2, a3⟩ := of_decide_eq_true h2
  have hc := Conf.trace_reach h1
  obtain ⟨-, b1, -, b2, b3⟩ := C34_oml_scans_partial c120_roomy rfl hc a1
  exact ⟨c, hc, a1, a2, a3, b1, b2, b3⟩

end BT
