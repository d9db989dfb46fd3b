import Verif.OmlConcOk
import Verif.Props.OmlBad
import Verif.Props.PmlGood

/-!
# What OML guarantees under concurrency (C25, C26, C32, C33)

For OML, `Mem.raced` records that one of the following has happened: two pages are about to be merged, the root is about to be removed, or
the root pointer is set although another thread has changed it since it was compared.  The first of these is what makes C25 false
(`C32_oml_stale_read`, `C33_oml_present_key_missed`): OML's splits, clean-ups and updates of pages are correct under any schedule.
-/

namespace BT
open Spec
variable {K V : Type} [LinearOrder K] {cfg : Cfg K} {L : Nat} {junk : Node K V → Node K V → K}

/-- C25: the histories of `Read`, `Write`, `Insert`, `Update` and `Delete` on OML are linearizable.  Missing: executions that merge pages
(false, `C25_oml_not_linearizable` and `C25_oml_var_not_linearizable`), remove the root, or overwrite the root pointer. -/
theorem C25_oml_linearizable_partial (hr : Roomy cfg L) (hb : cfg.blink = false) {c : Conf K V}
    (hc : Conf.Reach (COml.exec cfg junk) Conf.init c)
    (hn : c.mem.raced = false) : Linearizable c.hist :=
  (COml.linearizable hr hb (sim_start cfg) (fun _ => rfl) rfl hc hn).2

/-- No thread runs into undefined behaviour; same restrictions. -/
theorem C25_oml_no_crash_partial (hr : Roomy cfg L) (hb : cfg.blink = false) {c : Conf K V}
    (hc : Conf.Reach (COml.exec cfg junk) Conf.init c)
    (hn : c.mem.raced = false) : ¬ c.Bad :=
  (COml.linearizable hr hb (sim_start cfg) (fun _ => rfl) rfl hc hn).1

/-- C26, C32 and C33 for OML: no completed write is lost, in particular no read returns a value that was overwritten before, and a present
key is found.  Missing: executions that merge pages (false, `C32_oml_stale_read`, `C33_oml_present_key_missed`), remove the root, or overwrite
the root pointer. -/
theorem C26_C32_C33_oml_no_write_lost_partial (hr : Roomy cfg L) (hb : cfg.blink = false) {c : Conf K V}
    (hc : Conf.Reach (COml.exec cfg junk) Conf.init c)
    (hn : c.mem.raced = false) : ¬ LosesWrite c.hist :=
  fun h => h.not_linearizable (C25_oml_linearizable_partial hr hb hc hn)

/-! A run that meets the hypotheses: the root has been split.  Thread 0 splits a leaf below it while thread 1, which was at that leaf, reads
70 and thread 2 updates 100; both have to look again.  Then 10 is deleted, and inserted again under a read. -/

def omlCleanRun : List (Sched Nat Nat) :=
  [.inv 0 (.write 10 10), .go 0 22, .res 0] ++
  [20, 30, 40, 50, 60, 70].flatMap (fun k => [.inv 0 (.write k k), .go 0 21, .res 0]) ++
  [.inv 0 (.write 80 80), .go 0 33, .res 0, .inv 0 (.write 90 90), .go 0 34, .res 0, .inv 0 (.write 100 100), .go 0 34, .res 0,
   .inv 1 (.read 70), .go 1 8, .inv 0 (.write 110 110), .go 0 22, .inv 2 (.update 100 101), .go 2 8, .go 0 25, .res 0, .go 1 11, .res 1,
   .go 2 38, .res 2, .inv 1 (.delete 10), .go 1 30, .res 1, .inv 2 (.insert 10 11), .inv 1 (.read 10), .go 2 20, .go 1 5, .go 2 14, .res 2,
   .go 1 9, .res 1]

example : ∃ c, Conf.Reach omlFix (Conf.init : Conf Nat Nat) c ∧ c.mem.raced = false ∧ c.mem.root = 2 ∧
    (c.mem.heap 2).map Node.rc = some 3 ∧ c.hist.drop 20 = [.inv 1 (.read 70), .inv 0 (.write 110 110), .inv 2 (.update 100 101),
      .res 0 (.code .success), .res 1 (.payload (some 70)), .res 2 (.code .success), .inv 1 (.delete 10), .res 1 (.code .success),
      .inv 2 (.insert 10 11), .inv 1 (.read 10), .res 2 (.code .success), .res 1 (.payload (some 11))] ∧
    Linearizable c.hist ∧ ¬ c.Bad ∧ ¬ LosesWrite c.hist := by
  have h : (Conf.trace omlFix 20 omlCleanRun).map (fun c => decide (c.mem.raced = false ∧ c.mem.root = 2 ∧
    (c.mem.heap 2).map Node.rc = some 3 ∧ c.hist.drop 20 = [.inv 1 (.read 70), .inv 0 (.write 110 110), .inv 2 (.update 100 101),
      .res 0 (.code .success), .res 1 (.payload (some 70)), .res 2 (.code .success), .inv 1 (.delete 10), .res 1 (.code .success),
      .inv 2 (.insert 10 11), .inv 1 (.read 10), .res 2 (.code .success), .res 1 (.payload (some 11))])) = some true := by decide +kernel
  rw [Option.map_eq_some_iff] at h
  obtain ⟨c, h1, h2⟩ := h
  have h2 := of_decide_eq_true h2
  have hc := Conf.trace_reach h1
  exact ⟨c, hc, h2.1, h2.2.1, h2.2.2.1, h2.2.2.2, C25_oml_linearizable_partial c120_roomy rfl hc h2.1, C25_oml_no_crash_partial c120_roomy rfl hc h2.1,
    C26_C32_C33_oml_no_write_lost_partial c120_roomy rfl hc h2.1⟩

end BT
