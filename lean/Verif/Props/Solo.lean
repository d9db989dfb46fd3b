import Verif.LockSolo
import Verif.Props.PslGood
import Verif.Props.OslGood
import Verif.Props.PmlBad

/-!
# One writer at a time (C44)

Calls that can change the map (`Write`, `Insert`, `Update`, `Delete`) do not overlap, as with a user who guards them with a mutex; any number
of `Read`s run at the same time.  On PSL and OSL all is well then: other than in `PslGood.lean` and `OslGood.lean` no situation is excluded.
On PML it is not: `ShrinkTreeIfNeeded` lets a reader go on with the old root.
-/

namespace BT
open Spec
variable {K V : Type} [LinearOrder K] {cfg : Cfg K} {L : Nat}

/-- C44 for PSL: with one writer at a time the histories of `Read`, `Write`, `Insert`, `Update` and `Delete` are linearizable. -/
theorem C44_psl_one_writer_linearizable (hr : Roomy cfg L) (hb : cfg.blink = true) {c : Conf K V}
    (hc : Conf.Reach (CPsl.exec cfg) Conf.init c) (ho : OneWriter c.hist) : Linearizable c.hist :=
  (solo_ok (CPsl.exec_ok hr hb) (CPsl.exec_noRecs cfg) (SoloSim.start hb) (fun _ => rfl) rfl
    (fun _ h => (CPsl.idle hr hb (VInv.init (SizeW.empty _)) h).idleFree) hc ho).2.2

/-- C44 for PSL: no thread runs into undefined behaviour. -/
theorem C44_psl_one_writer_no_crash (hr : Roomy cfg L) (hb : cfg.blink = true) {c : Conf K V}
    (hc : Conf.Reach (CPsl.exec cfg) Conf.init c) (ho : OneWriter c.hist) : ¬ c.Bad :=
  (solo_ok (CPsl.exec_ok hr hb) (CPsl.exec_noRecs cfg) (SoloSim.start hb) (fun _ => rfl) rfl
    (fun _ h => (CPsl.idle hr hb (VInv.init (SizeW.empty _)) h).idleFree) hc ho).2.1

/-- C44 for PSL: no completed write is lost. -/
theorem C44_psl_one_writer_no_write_lost (hr : Roomy cfg L) (hb : cfg.blink = true) {c : Conf K V}
    (hc : Conf.Reach (CPsl.exec cfg) Conf.init c) (ho : OneWriter c.hist) : ¬ LosesWrite c.hist :=
  fun h => h.not_linearizable (C44_psl_one_writer_linearizable hr hb hc ho)

/-- C44 for OSL. -/
theorem C44_osl_one_writer_linearizable (hr : Roomy cfg L) (hb : cfg.blink = true) {c : Conf K V}
    (hc : Conf.Reach (COsl.exec cfg) Conf.init c) (ho : OneWriter c.hist) : Linearizable c.hist :=
  (solo_ok (COsl.exec_ok hr hb) (COsl.exec_noRecs cfg) (SoloSim.start hb) (fun _ => rfl) rfl
    (fun _ h => (COsl.idle hr hb (VInv.init (SizeW.empty _)) h).idleFree) hc ho).2.2

/-- C44 for OSL: no thread runs into undefined behaviour. -/
theorem C44_osl_one_writer_no_crash (hr : Roomy cfg L) (hb : cfg.blink = true) {c : Conf K V}
    (hc : Conf.Reach (COsl.exec cfg) Conf.init c) (ho : OneWriter c.hist) : ¬ c.Bad :=
  (solo_ok (COsl.exec_ok hr hb) (COsl.exec_noRecs cfg) (SoloSim.start hb) (fun _ => rfl) rfl
    (fun _ h => (COsl.idle hr hb (VInv.init (SizeW.empty _)) h).idleFree) hc ho).2.1

/-- C44 for OSL: no completed write is lost. -/
theorem C44_osl_one_writer_no_write_lost (hr : Roomy cfg L) (hb : cfg.blink = true) {c : Conf K V}
    (hc : Conf.Reach (COsl.exec cfg) Conf.init c) (ho : OneWriter c.hist) : ¬ LosesWrite c.hist :=
  fun h => h.not_linearizable (C44_osl_one_writer_linearizable hr hb hc ho)

/-- The situations that `PslGood.lean` and `OslGood.lean` exclude need two writers. -/
theorem C44_one_writer_never_raced (hr : Roomy cfg L) (hb : cfg.blink = true) {c : Conf K V}
    (hc : Conf.Reach (CPsl.exec cfg) Conf.init c ∨ Conf.Reach (COsl.exec cfg) Conf.init c) (ho : OneWriter c.hist) : c.mem.raced = false := by
  rcases hc with hc | hc
  · exact (solo_ok (CPsl.exec_ok hr hb) (CPsl.exec_noRecs cfg) (SoloSim.start hb) (fun _ => rfl) rfl
    (fun _ h => (CPsl.idle hr hb (VInv.init (SizeW.empty _)) h).idleFree) hc ho).1
  · exact (solo_ok (COsl.exec_ok hr hb) (COsl.exec_noRecs cfg) (SoloSim.start hb) (fun _ => rfl) rfl
    (fun _ h => (COsl.idle hr hb (VInv.init (SizeW.empty _)) h).idleFree) hc ho).1

/-! Runs that meet the hypotheses.  PSL: `cleanRun`, in which thread 1 reads during a split by thread 0, and thread 2 during a merge by thread
1 that removes the root.  OSL: thread 1 reads during a split, thread 2 during a merge that removes the root; the writes are made by two
threads in turn. -/

example : ∃ c, Conf.Reach (CPsl.exec c200) (Conf.init : Conf Nat Nat) c ∧ OneWriter c.hist ∧ c.mem.gc = [2, 1] ∧
    c.hist.drop 8 = [.inv 0 (.write 80 80), .inv 1 (.read 40), .res 0 (.code .success), .res 1 (.payload (some 40)),
      .inv 1 (.delete 0), .res 1 (.code .success), .inv 2 (.read 60), .inv 1 (.delete 20), .res 1 (.code .success),
      .res 2 (.payload (some 60))] ∧ Linearizable c.hist ∧ ¬ c.Bad := by
  have h : (Conf.trace (CPsl.exec c200) 20 cleanRun).map (fun c => decide (oneWriterFrom none c.hist = true ∧ c.mem.gc = [2, 1] ∧
    c.hist.drop 8 = [.inv 0 (.write 80 80), .inv 1 (.read 40), .res 0 (.code .success), .res 1 (.payload (some 40)),
      .inv 1 (.delete 0), .res 1 (.code .success), .inv 2 (.read 60), .inv 1 (.delete 20), .res 1 (.code .success),
      .res 2 (.payload (some 60))])) = some true := by decide +kernel
  rw [Option.map_eq_some_iff] at h
  obtain ⟨c, h1, h2⟩ := h
  have h2 := of_decide_eq_true h2
  have hc := Conf.trace_reach h1
  have ho := oneWriter_of_check h2.1
  exact ⟨c, hc, ho, h2.2.1, h2.2.2, C44_psl_one_writer_linearizable c200_roomy rfl hc ho, C44_psl_one_writer_no_crash c200_roomy rfl hc ho⟩

def oSoloRun : List (Sched Nat Nat) :=
  oFill ++ [.inv 0 (.write 80 80), .go 0 12, .inv 1 (.read 40), .go 0 6, .go 1 1, .go 0 2, .go 1 1, .go 0 8, .res 0, .go 1 10,
    .inv 2 (.update 40 41), .go 2 18, .res 2, .go 1 7, .res 1, .inv 1 (.delete 0), .go 1 18, .res 1, .inv 2 (.read 60), .go 2 3,
    .inv 1 (.delete 20), .go 1 50, .res 1, .go 2 17, .res 2]

example : ∃ c, Conf.Reach (COsl.exec c200) (Conf.init : Conf Nat Nat) c ∧ OneWriter c.hist ∧ c.mem.gc = [2, 1] ∧
    c.hist.drop 8 = [.inv 0 (.write 80 80), .inv 1 (.read 40), .res 0 (.code .success), .inv 2 (.update 40 41),
      .res 2 (.code .success), .res 1 (.payload (some 41)), .inv 1 (.delete 0), .res 1 (.code .success), .inv 2 (.read 60),
      .inv 1 (.delete 20), .res 1 (.code .success), .res 2 (.payload (some 60))] ∧ Linearizable c.hist ∧ ¬ c.Bad := by
  have h : (Conf.trace (COsl.exec c200) 20 oSoloRun).map (fun c => decide (oneWriterFrom none c.hist = true ∧ c.mem.gc = [2, 1] ∧
    c.hist.drop 8 = [.inv 0 (.write 80 80), .inv 1 (.read 40), .res 0 (.code .success), .inv 2 (.update 40 41),
      .res 2 (.code .success), .res 1 (.payload (some 41)), .inv 1 (.delete 0), .res 1 (.code .success), .inv 2 (.read 60),
      .inv 1 (.delete 20), .res 1 (.code .success), .res 2 (.payload (some 60))])) = some true := by decide +kernel
  rw [Option.map_eq_some_iff] at h
  obtain ⟨c, h1, h2⟩ := h
  have h2 := of_decide_eq_true h2
  have hc := Conf.trace_reach h1
  have ho := oneWriter_of_check h2.1
  exact ⟨c, hc, ho, h2.2.1, h2.2.2, C44_osl_one_writer_linearizable c200_roomy rfl hc ho, C44_osl_one_writer_no_crash c200_roomy rfl hc ho⟩

/-- On PML one writer at a time is not enough: the history of `C24_pml_not_linearizable` has one writer. -/
theorem C44_pml_one_writer_not_linearizable : ∃ c, Conf.Reach (CPml.exec c120) (Conf.initPml : Conf Nat Nat) c ∧ OneWriter c.hist ∧
    LosesWrite c.hist ∧ ¬ Linearizable c.hist := by
  have h := pmlStale_hist
  rw [Option.map_eq_some_iff] at h
  obtain ⟨c, h1, h2⟩ := h
  exact ⟨c, Conf.cmds_reach .refl h1, by rw [h2]; exact oneWriter_of_check (by decide), by rw [h2]; exact pmlStaleHist_loses,
    by rw [h2]; exact pmlStaleHist_loses.not_linearizable⟩

end BT
