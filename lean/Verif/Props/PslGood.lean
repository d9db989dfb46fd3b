import Verif.PslConcOk
import Verif.Props.PslBad
import Verif.Props.Seq

/-!
# What PSL guarantees under concurrency (C22, C26, C27)

The theorems hold for every execution of any number of threads from the empty tree, for every page size, layout and key and
payload length that satisfies `Roomy` (see `C01`), as long as none of the three situations occurs that the ghost flag `Mem.raced`
records:

* a thread reads a separator from a page it has unlocked, and the page has been split again meanwhile (`CBlink.separatorKey`);
* a thread stores to `root_` although `root_` has changed since it was loaded (`Act.setRoot`);
* a thread removes a root that has a right sibling (`CBlink.removeRoot`).

`PslBad.lean` shows that executions with such a situation can lose writes and run into undefined behaviour.  The flag has no effect on
the program.  `Scan` is not part of these executions.
-/

namespace BT
open Spec
variable {K V : Type} [LinearOrder K] {cfg : Cfg K} {L : Nat}

/-- C22 for PSL: the histories of `Read`, `Write`, `Insert`, `Update` and `Delete` are linearizable.  Missing: executions with one of
the three situations (false, `C22_psl_not_linearizable`). -/
theorem C22_psl_linearizable_partial (hr : Roomy cfg L) (hb : cfg.blink = true) {c : Conf K V}
    (hc : Conf.Reach (CPsl.exec cfg) Conf.init c) (hn : c.mem.raced = false) : Linearizable c.hist :=
  (CPsl.linearizable hr hb (sim_start cfg) (fun _ => rfl) rfl hc hn).2

/-- C26 for PSL: no completed write is lost.  Missing: executions with one of the three situations (false,
`C26_psl_write_lost`). -/
theorem C26_psl_no_write_lost_partial (hr : Roomy cfg L) (hb : cfg.blink = true) {c : Conf K V}
    (hc : Conf.Reach (CPsl.exec cfg) Conf.init c) (hn : c.mem.raced = false) : ¬ LosesWrite c.hist :=
  fun h => h.not_linearizable (C22_psl_linearizable_partial hr hb hc hn)

/-- C27 for PSL: no thread runs into undefined behaviour: no access to a page that does not exist, no unlocked access to the records
of a page, no access outside the records of a page, no leaf taken for an inner page, no null pointer followed.  Missing: executions with
one of the three situations (false, `C27_psl_splitter_crashes`). -/
theorem C27_psl_no_crash_partial (hr : Roomy cfg L) (hb : cfg.blink = true) {c : Conf K V}
    (hc : Conf.Reach (CPsl.exec cfg) Conf.init c) (hn : c.mem.raced = false) : ¬ c.Bad :=
  (CPsl.linearizable hr hb (sim_start cfg) (fun _ => rfl) rfl hc hn).1

/-! A run that meets the hypotheses: the leaf is split by thread 0 while thread 1 reads, then thread 1 deletes, merges the two leaves and
shrinks the tree while thread 2, which has already loaded the old root, reads. -/

def cleanRun : List (Sched Nat Nat) :=
  fill ++ [.inv 0 (.write 80 80), .go 0 15, .inv 1 (.read 40), .go 0 3, .go 1 1, .go 0 4, .go 1 1, .go 0 5, .go 1 7, .res 0, .res 1,
    .inv 1 (.delete 0), .go 1 13, .res 1, .inv 2 (.read 60), .go 2 1, .inv 1 (.delete 20), .go 1 43, .res 1, .go 2 9, .res 2]

theorem c200_roomy : Roomy c200 8 where
  key _ := by simp [Cfg.klen, c200, fixCfg]
  le := by simp [c200, fixCfg]
  fixL _ := by simp [c200, fixCfg]
  meta_pos := by simp [c200, fixCfg]
  hdr := by simp [c200, fixCfg]
  var1 h := by simp [c200, fixCfg] at h
  var2 h := by simp [c200, fixCfg] at h
  fix1 _ := by simp [c200, fixCfg, Cfg.maxRecLen, Cfg.maxPayLen, Cfg.mlen, Cfg.cap]

example : ∃ c, Conf.Reach (CPsl.exec c200) (Conf.init : Conf Nat Nat) c ∧ c.mem.raced = false ∧ c.mem.gc = [2, 1] ∧
    c.hist.drop 8 = [.inv 0 (.write 80 80), .inv 1 (.read 40), .res 0 (.code .success), .res 1 (.payload (some 40)),
      .inv 1 (.delete 0), .res 1 (.code .success), .inv 2 (.read 60), .inv 1 (.delete 20), .res 1 (.code .success),
      .res 2 (.payload (some 60))] ∧ Linearizable c.hist := by
  have h : (Conf.trace (CPsl.exec c200) 20 cleanRun).map (fun c => decide (c.mem.raced = false ∧ c.mem.gc = [2, 1] ∧
    c.hist.drop 8 = [.inv 0 (.write 80 80), .inv 1 (.read 40), .res 0 (.code .success), .res 1 (.payload (some 40)),
      .inv 1 (.delete 0), .res 1 (.code .success), .inv 2 (.read 60), .inv 1 (.delete 20), .res 1 (.code .success),
      .res 2 (.payload (some 60))])) = some true := by decide +kernel
  rw [Option.map_eq_some_iff] at h
  obtain ⟨c, h1, h2⟩ := h
  have h2 := of_decide_eq_true h2
  exact ⟨c, Conf.trace_reach h1, h2.1, h2.2.1, h2.2.2, C22_psl_linearizable_partial c200_roomy rfl (Conf.trace_reach h1) h2.1⟩

end BT
