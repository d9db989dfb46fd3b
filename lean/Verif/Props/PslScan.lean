import Verif.PslScanOk
import Verif.LockSolo
import Verif.Props.PslGood
import Verif.Props.ScanBad

/-!
# Scans of PSL under concurrency (C34, C45)

A scan of PSL goes wrong when it enters a page that has been merged away (`C34_psl_scan_repeats`).  Everything else is well
(`C34_psl_scans_partial`), and as long as there is one writer at a time it never happens (`C45_psl_one_writer_scans`).  For OSL and OML one
writer at a time is not enough (`C45_osl_one_writer_scan_misses`).
-/

namespace BT
open Spec
variable {K V : Type} [LinearOrder K] {cfg : Cfg K} {L : Nat} {c : Conf K V}

/-- C34 for PSL: with scans, the histories are linearizable in parts: every scan goes through its range from left to right and reads each
part at one instant, all other calls take effect at one instant.  So no scan misses a record that was there all the time, or reports keys
twice or out of order.  Missing: executions in which one of the situations of `C22_psl_linearizable_partial` occurs, or a scan reads a page that
is marked as removed. -/
theorem C34_psl_scans_partial (hr : Roomy cfg L) (hb : cfg.blink = true) (hc : Conf.Reach (CPsl.execS cfg) Conf.init c)
    (hn : c.mem.raced = false) :
    ¬ c.Bad ∧ PartwiseLinearizable c.hist ∧ ¬ LosesWrite c.hist ∧ ¬ ScanMisses c.hist ∧ ¬ ScanRepeats c.hist := by
  obtain ⟨a, b⟩ := CPsl.partwise hr hb (sim_start cfg) hc hn
  exact ⟨a, b, b.facts⟩

/-- C45 for PSL: with one writer at a time, and any number of threads that read and scan, nothing has to be excluded. -/
theorem C45_psl_one_writer_scans (hr : Roomy cfg L) (hb : cfg.blink = true) (hc : Conf.Reach (CPsl.execS cfg) Conf.init c)
    (ho : OneWriter c.hist) :
    ¬ c.Bad ∧ PartwiseLinearizable c.hist ∧ ¬ LosesWrite c.hist ∧ ¬ ScanMisses c.hist ∧ ¬ ScanRepeats c.hist := by
  obtain ⟨-, a, b⟩ := solo_partwise (CPsl.execS_ok hr hb) (SoloSim.start hb)
    (fun _ h => (CPsl.idleS hr hb (VInv.init (SizeW.empty _)) h).idleFree) hc ho
  exact ⟨a, b, b.facts⟩

/-- C45 is false for OSL: key 3 is written before the scan begins and never touched again, and the scan does not report it. -/
theorem C45_osl_one_writer_scan_misses :
    ∃ c, Conf.Reach (COsl.execS c200) (Conf.init : Conf Nat Nat) c ∧ OneWriter c.hist ∧ ScanMisses c.hist := by
  have h : (Conf.trace (COsl.execS c200) 20 (lateEnd 11 11 11 11)).map Conf.hist = some lateEndHist := by decide +kernel
  obtain ⟨c, h1, h2⟩ := Option.map_eq_some_iff.1 h
  exact ⟨c, Conf.trace_reach h1, by rw [h2]; exact oneWriter_of_check (by decide +kernel), by rw [h2]; exact lateEndHist_misses⟩

/-- C45 is false for OML, in the same way. -/
theorem C45_oml_one_writer_scan_misses :
    ∃ c, Conf.Reach (COml.execS c120 (fun _ _ => 0)) (Conf.init : Conf Nat Nat) c ∧ OneWriter c.hist ∧ ScanMisses c.hist := by
  have h : (Conf.trace (COml.execS c120 (fun _ _ => 0)) 20 (lateEnd 22 21 21 17)).map Conf.hist = some lateEndHist := by decide +kernel
  obtain ⟨c, h1, h2⟩ := Option.map_eq_some_iff.1 h
  exact ⟨c, Conf.trace_reach h1, by rw [h2]; exact oneWriter_of_check (by decide +kernel), by rw [h2]; exact lateEndHist_misses⟩

/-! A run that meets the hypotheses.  Thread 1 has scanned {0,20} and is at {40,60}; thread 2 deletes 0, thread 0 writes 130, and thread 2
deletes 20, which merges {40,60} into its left neighbour and waits for thread 1 before it marks {40,60} as removed.  Thread 1 reads the rest;
it reports 0 and 130, which are never in the map at the same time. -/

def pslScanRun : List (Sched Nat Nat) :=
  [(0, 9), (20, 9), (40, 9), (60, 9), (80, 27), (100, 14), (120, 36)].flatMap (fun x => [.inv 0 (.write x.1 x.1), .go 0 x.2, .res 0]) ++
    [.inv 1 (.scan none none), .go 1 12, .inv 2 (.delete 0), .go 2 13, .res 2, .inv 0 (.write 130 130), .go 0 14, .res 0, .inv 2 (.delete 20),
      .go 2 27, .go 1 7, .res 1, .go 2 7, .res 2]

example : ∃ c, Conf.Reach (CPsl.execS c200) (Conf.init : Conf Nat Nat) c ∧ c.mem.raced = false ∧ OneWriter c.hist ∧ c.mem.gc = [1] ∧
    c.hist.drop 14 = [.inv 1 (.scan none none), .inv 2 (.delete 0), .res 2 (.code .success), .inv 0 (.write 130 130),
      .res 0 (.code .success), .inv 2 (.delete 20),
      .res 1 (.recs [(0, 0), (20, 20), (40, 40), (60, 60), (80, 80), (100, 100), (120, 120), (130, 130)]), .res 2 (.code .success)] ∧
    PartwiseLinearizable c.hist ∧ ¬ ScanMisses c.hist ∧ ¬ ScanRepeats c.hist := by
  have h : (Conf.trace (CPsl.execS c200) 20 pslScanRun).map (fun c => decide (c.mem.raced = false ∧ oneWriterFrom none c.hist = true ∧
    c.mem.gc = [1] ∧ c.hist.drop 14 = [.inv 1 (.scan none none), .inv 2 (.delete 0), .res 2 (.code .success), .inv 0 (.write 130 130),
      .res 0 (.code .success), .inv 2 (.delete 20),
      .res 1 (.recs [(0, 0), (20, 20), (40, 40), (60, 60), (80, 80), (100, 100), (120, 120), (130, 130)]), .res 2 (.code .success)])) =
      some true := by decide +kernel
  rw [Option.map_eq_some_iff] at h
  obtain ⟨c, h1, h2⟩ := h
  obtain ⟨a1, a2, a3, a4⟩ := of_decide_eq_true h2
  have hc := Conf.trace_reach h1
  have ho := oneWriter_of_check a2
  obtain ⟨-, b1, -, b2, b3⟩ := C45_psl_one_writer_scans c200_roomy rfl hc ho
  exact ⟨c, hc, a1, ho, a3, a4, b1, b2, b3⟩

end BT
