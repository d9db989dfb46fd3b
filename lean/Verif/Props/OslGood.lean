import Verif.OslConcOk
import Verif.Props.OslBad
import Verif.Props.PslGood

/-!
# What OSL guarantees under concurrency (C23, C26, C27)

The theorems of `PslGood.lean` for OSL, under the same three exclusions (`Mem.raced`).  Optimistic readers see a page as it is at the
instant of a `peek`; they act on it only after the version of the page has turned out unchanged.
-/

namespace BT
open Spec
variable {K V : Type} [LinearOrder K] {cfg : Cfg K} {L : Nat}

/-- C23: the histories of `Read`, `Write`, `Insert`, `Update` and `Delete` on OSL are linearizable.  Missing: executions with one of
the three situations (false, `C23_osl_not_linearizable`). -/
theorem C23_osl_linearizable_partial (hr : Roomy cfg L) (hb : cfg.blink = true) {c : Conf K V}
    (hc : Conf.Reach (COsl.exec cfg) Conf.init c) (hn : c.mem.raced = false) : Linearizable c.hist :=
  (COsl.linearizable hr hb (sim_start cfg) (fun _ => rfl) rfl hc hn).2

/-- C26 for OSL: no completed write is lost.  Missing: executions with one of the three situations (false,
`C26_osl_write_lost`). -/
theorem C26_osl_no_write_lost_partial (hr : Roomy cfg L) (hb : cfg.blink = true) {c : Conf K V}
    (hc : Conf.Reach (COsl.exec cfg) Conf.init c) (hn : c.mem.raced = false) : ¬ LosesWrite c.hist :=
  fun h => h.not_linearizable (C23_osl_linearizable_partial hr hb hc hn)

/-- C27 for OSL: no thread runs into undefined behaviour.  Missing: executions with one of the three situations (false,
`C27_osl_splitter_crashes`). -/
theorem C27_osl_no_crash_partial (hr : Roomy cfg L) (hb : cfg.blink = true) {c : Conf K V}
    (hc : Conf.Reach (COsl.exec cfg) Conf.init c) (hn : c.mem.raced = false) : ¬ c.Bad :=
  (COsl.linearizable hr hb (sim_start cfg) (fun _ => rfl) rfl hc hn).1

/-! A run that meets the hypotheses: thread 1 reads 40 while thread 0 splits the leaf; it follows the side link, and has to look again
because thread 2 updates 40 in between.  Then thread 1 deletes, merges the leaves and removes the root under thread 2, which starts
again from the new root. -/

def oCleanRun : List (Sched Nat Nat) :=
  oFill ++ [.inv 0 (.write 80 80), .go 0 12, .inv 1 (.read 40), .go 0 6, .go 1 1, .go 0 2, .go 1 1, .go 0 8, .res 0, .go 1 10,
    .inv 2 (.update 40 41), .go 2 18, .res 2, .go 1 7, .res 1, .inv 1 (.delete 0), .go 1 18, .res 1, .inv 2 (.insert 60 61), .go 2 3,
    .inv 1 (.delete 20), .go 1 50, .res 1, .go 2 18, .res 2]

example : ∃ c, Conf.Reach (COsl.exec c200) (Conf.init : Conf Nat Nat) c ∧ c.mem.raced = false ∧ c.mem.gc = [2, 1] ∧
    c.hist.drop 8 = [.inv 0 (.write 80 80), .inv 1 (.read 40), .res 0 (.code .success), .inv 2 (.update 40 41),
      .res 2 (.code .success), .res 1 (.payload (some 41)), .inv 1 (.delete 0), .res 1 (.code .success), .inv 2 (.insert 60 61),
      .inv 1 (.delete 20), .res 1 (.code .success), .res 2 (.code .keyExist)] ∧ Linearizable c.hist := by
  have h : (Conf.trace (COsl.exec c200) 20 oCleanRun).map (fun c => decide (c.mem.raced = false ∧ c.mem.gc = [2, 1] ∧
    c.hist.drop 8 = [.inv 0 (.write 80 80), .inv 1 (.read 40), .res 0 (.code .success), .inv 2 (.update 40 41),
      .res 2 (.code .success), .res 1 (.payload (some 41)), .inv 1 (.delete 0), .res 1 (.code .success), .inv 2 (.insert 60 61),
      .inv 1 (.delete 20), .res 1 (.code .success), .res 2 (.code .keyExist)])) = some true := by decide +kernel
  rw [Option.map_eq_some_iff] at h
  obtain ⟨c, h1, h2⟩ := h
  have h2 := of_decide_eq_true h2
  exact ⟨c, Conf.trace_reach h1, h2.1, h2.2.1, h2.2.2, C23_osl_linearizable_partial c200_roomy rfl (Conf.trace_reach h1) h2.1⟩

end BT
