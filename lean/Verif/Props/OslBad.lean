import Verif.OslConc
import Verif.Props.PslBad

/-!
# What goes wrong in OSL under concurrency (C23, C26, C27, C28, C31)

As in `PslBad.lean`, every theorem exhibits an execution from the empty tree, with four records per leaf.
-/

namespace BT
open Spec

/-- Four writes fill the leaf. -/
def oFill : List (Sched Nat Nat) :=
  [0, 20, 40, 60].flatMap (fun k => [.inv 0 (.write k k), .go 0 11, .res 0])

/-! ## The separator is read after the lock has been given up -/

/-- The schedule of `sepRace` for OSL. -/
def oSepRace : List (Sched Nat Nat) :=
  oFill ++ [.inv 1 (.write 10 10), .go 1 23, .inv 2 (.write 5 5), .go 2 11, .res 2, .inv 2 (.write 7 7), .go 2 23, .go 1 5, .res 1,
    .inv 3 (.read 20), .go 3 15, .res 3]

theorem oSepRace_hist : (Conf.trace (COsl.exec c200) 20 oSepRace).map Conf.hist = some sepHist := by decide +kernel

/-- C26 is false for OSL: `Write(20)` returned, nobody else touched key 20, and a later `Read(20)` finds nothing. -/
theorem C26_osl_write_lost : ∃ c, Conf.Reach (COsl.exec c200) (Conf.init : Conf Nat Nat) c ∧ LosesWrite c.hist := by
  have h := oSepRace_hist
  rw [Option.map_eq_some_iff] at h
  obtain ⟨c, h1, h2⟩ := h
  exact ⟨c, Conf.trace_reach h1, by rw [h2]; exact sepHist_loses⟩

/-- C23 is false: some executions of OSL are not linearizable. -/
theorem C23_osl_not_linearizable : ∃ c, Conf.Reach (COsl.exec c200) (Conf.init : Conf Nat Nat) c ∧ ¬ Linearizable c.hist := by
  obtain ⟨c, h1, h2⟩ := C26_osl_write_lost
  exact ⟨c, h1, h2.not_linearizable⟩

/-- Thread 1 splits the leaf and pauses before it installs the new root.  Thread 2 splits the right half and pauses before it reads its
separator; thread 3 splits the page on the left of that separator once more. -/
def oNullRace : List (Sched Nat Nat) :=
  oFill ++ [.inv 1 (.write 10 10), .go 1 23, .inv 2 (.write 70 70), .go 2 16, .res 2, .inv 2 (.write 80 80), .go 2 16, .res 2,
   .inv 2 (.write 45 45), .go 2 28, .inv 3 (.write 50 50), .go 3 16, .res 3, .inv 3 (.write 55 55), .go 3 28, .go 2 19]

/-- C27 is false for OSL: thread 2 takes the wrong separator, looks for the parent of its page with it, arrives at another leaf and
follows a null pointer. -/
theorem C27_osl_splitter_crashes : ∃ c, Conf.Reach (COsl.exec c200) (Conf.init : Conf Nat Nat) c ∧ c.Bad := by
  have h : (Conf.trace (COsl.exec c200) 20 oNullRace).map (fun c => c.ubAt 2) = some true := by decide +kernel
  rw [Option.map_eq_some_iff] at h
  obtain ⟨c, h1, h2⟩ := h
  exact ⟨c, Conf.trace_reach h1, Conf.bad_of_ubAt h2⟩

/-! ## Two threads install a root -/

/-- The schedule of `rootRace` for OSL. -/
def oRootRace : List (Sched Nat Nat) :=
  oFill ++ [.inv 1 (.write 10 10), .go 1 27, .inv 2 (.write 5 5), .go 2 11, .res 2, .inv 2 (.write 7 7), .go 2 28, .res 2, .go 1 1, .res 1]

/-- C27 is false for OSL: both splits are complete and nobody is active, the left page points to its right sibling 3, but the parent
level (the root alone) has no entry for page 3. -/
theorem C27_osl_separator_lost : ∃ c, Conf.Reach (COsl.exec c200) (Conf.init : Conf Nat Nat) c ∧ (∀ t < 3, c.idle t = true) ∧
    ∃ n n0, c.mem.heap c.mem.root = some n ∧ n.next = none ∧ n.isInner = true ∧ n.getChild 0 = .ok 0 ∧
      c.mem.heap 0 = some n0 ∧ n0.next = some 3 ∧ ∀ r ∈ n.recs, r.pay ≠ .ptr 3 := by
  have h : (Conf.trace (COsl.exec c200) 20 oRootRace).map (fun c => c.idle 0 && c.idle 1 && c.idle 2 &&
      match c.mem.heap c.mem.root, c.mem.heap 0 with
      | some n, some n0 => decide (n.next = none ∧ n.isInner = true ∧ n.getChild 0 = .ok 0 ∧ n0.next = some 3 ∧
          ∀ r ∈ n.recs, r.pay ≠ .ptr 3)
      | _, _ => false) = some true := by decide +kernel
  rw [Option.map_eq_some_iff] at h
  obtain ⟨c, h1, h2⟩ := h
  simp only [Bool.and_eq_true] at h2
  obtain ⟨⟨⟨i0, i1⟩, i2⟩, h2⟩ := h2
  split at h2
  · next n n0 e e0 =>
    have h2 := of_decide_eq_true h2
    refine ⟨c, Conf.trace_reach h1, ?_, n, n0, e, h2.1, h2.2.1, h2.2.2.1, e0, h2.2.2.2.1, h2.2.2.2.2⟩
    intro t ht
    match t, ht with
    | 0, _ => exact i0
    | 1, _ => exact i1
    | 2, _ => exact i2
  · cases h2

/-! ## A merge waits for itself -/

/-- The schedule of `selfBlock` for OSL. -/
def oSelfBlock : List (Sched Nat Nat) :=
  oFill ++ [.inv 1 (.write 10 10), .go 1 23, .inv 2 (.delete 10), .go 2 11, .res 2, .inv 2 (.delete 0), .go 2 11, .res 2,
    .inv 2 (.delete 20), .go 2 26]

/-- C28 is false for OSL: a merging thread can wait for a lock that it holds itself, for ever. -/
theorem C28_osl_merge_blocks_itself : ∃ c t p, Conf.Reach (COsl.exec c200) (Conf.init : Conf Nat Nat) c ∧
    (c.mem.lk p).six = some t ∧ c.wantsSIX t = some p ∧ ∀ c', Conf.Reach (COsl.exec c200) c c' → c'.Waiting t := by
  have h : (Conf.trace (COsl.exec c200) 20 oSelfBlock).map (fun c => decide (c.SelfBlocked 2 1)) = some true := by decide +kernel
  rw [Option.map_eq_some_iff] at h
  obtain ⟨c, h1, h2⟩ := h
  have h2 := of_decide_eq_true h2
  exact ⟨c, 2, 1, Conf.trace_reach h1, h2.2.1, h2.1, fun c' hc => (h2.forever hc).waiting⟩

/-! ## A page is retired before it is removed -/

/-- The page thread `t` reads next without a lock. -/
def Conf.peeks {K V : Type} (c : Conf K V) (t : Tid) : Option Ptr :=
  match c.thr t with | some (.act (.peek p) _) => some p | _ => none

/-- The schedule of `shrinkRace` for OSL. -/
def oShrinkRace : List (Sched Nat Nat) :=
  oFill ++ [.inv 0 (.write 80 80), .go 0 28, .res 0, .inv 1 (.delete 0), .go 1 18, .res 1, .inv 1 (.delete 20), .go 1 41]

/-- C31 is false for OSL: the page 2 has been handed to the garbage collector, then thread 2, which was not running, starts a call
and reads the page (`root_` still points to it). -/
theorem C31_osl_retired_page_reached : ∃ c c' t p, Conf.Reach (COsl.exec c200) (Conf.init : Conf Nat Nat) c ∧
    p ∈ c.mem.gc ∧ c.idle t = true ∧ Conf.Reach (COsl.exec c200) c c' ∧ c'.peeks t = some p := by
  have h : ((Conf.trace (COsl.exec c200) 20 oShrinkRace).bind (fun c =>
      (Conf.cmds (COsl.exec c200) 20 [.inv 2 (.read 40), .go 2 3] c).map (fun c' =>
        decide (2 ∈ c.mem.gc) && c.idle 2 && decide (c'.peeks 2 = some 2)))) = some true := by decide +kernel
  rw [Option.bind_eq_some_iff] at h
  obtain ⟨c, h1, h2⟩ := h
  rw [Option.map_eq_some_iff] at h2
  obtain ⟨c', h2, h3⟩ := h2
  simp only [Bool.and_eq_true, decide_eq_true_eq] at h3
  exact ⟨c, c', 2, 2, Conf.trace_reach h1, h3.1.1, h3.1.2, Conf.cmds_reach .refl h2, h3.2⟩

end BT
