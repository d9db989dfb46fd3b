import Verif.ConcScan
import Verif.PmlConc
import Verif.Props.PslBad
import Verif.Props.PmlBad

/-!
# What goes wrong in scans under concurrency (C34, C43)

Every theorem of this file exhibits an execution of the modelled code: a schedule, run by `Conf.trace`, that leads from
the empty tree to the claimed configuration.
-/

namespace BT
open Spec

/-! ## Optimistic iterators take the end position from another state of the page -/

/-- Thread 0 writes 1, 2, 3 (`n0`, `n1`, `n2` actions).  Thread 1 scans from 3 on.  After it has found the position 2 of its key and before
it looks at the number of records, thread 2 deletes key 1 (`n3` actions).  The number of records is now 2, the page is the last one, so the
iterator is at the end and does not check the version any more. -/
def lateEnd (n0 n1 n2 n3 : Nat) : List (Sched Nat Nat) :=
  [.inv 0 (.write 1 1), .go 0 n0, .res 0, .inv 0 (.write 2 2), .go 0 n1, .res 0, .inv 0 (.write 3 3), .go 0 n2, .res 0,
   .inv 1 (.scan (some (3, true)) none), .go 1 7, .inv 2 (.delete 1), .go 2 n3, .res 2, .go 1 4, .res 1]

def lateEndHist : List (Ev Nat Nat) :=
  [.inv 0 (.write 1 1), .res 0 (.code .success), .inv 0 (.write 2 2), .res 0 (.code .success),
   .inv 0 (.write 3 3), .res 0 (.code .success), .inv 1 (.scan (some (3, true)) none), .inv 2 (.delete 1), .res 2 (.code .success),
   .res 1 (.recs [])]

theorem lateEndHist_misses : ScanMisses lateEndHist := by
  refine ⟨3, 3, 0, 1, some (3, true), none, [], [.inv 0 (.write 1 1), .res 0 (.code .success), .inv 0 (.write 2 2), .res 0 (.code .success)],
    [], [], [.inv 2 (.delete 1), .res 2 (.code .success)], [], rfl, ?_, by simp, by simp, le_refl _, trivial, by simp⟩
  intro t op hm hc
  simp only [lateEndHist, List.mem_cons, List.not_mem_nil, or_false, Ev.inv.injEq, reduceCtorEq, false_or] at hm
  rcases hm with h | h | h | h | h <;> obtain ⟨-, rfl⟩ := h <;> simp_all [Changes]

/-- C34 is false for OSL: key 3 is written before the scan begins and never touched again, and the scan does not report it. -/
theorem C34_osl_scan_misses : ∃ c, Conf.Reach (COsl.execS c200) (Conf.init : Conf Nat Nat) c ∧ ScanMisses c.hist := by
  have h : (Conf.trace (COsl.execS c200) 20 (lateEnd 11 11 11 11)).map Conf.hist = some lateEndHist := by decide +kernel
  obtain ⟨c, h1, h2⟩ := Option.map_eq_some_iff.1 h
  exact ⟨c, Conf.trace_reach h1, by rw [h2]; exact lateEndHist_misses⟩

/-- C34 is false for OML, in the same way. -/
theorem C34_oml_scan_misses :
    ∃ c, Conf.Reach (COml.execS c120 (fun _ _ => 0)) (Conf.init : Conf Nat Nat) c ∧ ScanMisses c.hist := by
  have h : (Conf.trace (COml.execS c120 (fun _ _ => 0)) 20 (lateEnd 22 21 21 17)).map Conf.hist = some lateEndHist := by decide +kernel
  obtain ⟨c, h1, h2⟩ := Option.map_eq_some_iff.1 h
  exact ⟨c, Conf.trace_reach h1, by rw [h2]; exact lateEndHist_misses⟩

/-! ## PSL's iterators go backwards -/

/-- Leaves {0,20}, {40,60}, {80,100}, {120,140}, {160,180,200}. -/
def fill5 : List (Sched Nat Nat) :=
  [(0, 9), (20, 9), (40, 9), (60, 9), (80, 27), (100, 14), (120, 36), (140, 14), (160, 36), (180, 14), (200, 36)].flatMap
    (fun x => [.inv 0 (.write x.1 x.1), .go 0 x.2, .res 0])

/-- Thread 1 scans from 40 on and holds the S lock of {40,60}.  Thread 2 deletes 0 and 20 and merges {40,60} into its left neighbour; before
it marks {40,60} as removed it has to wait for thread 1.  Thread 3 deletes 40 and 60 from the left page, which is empty then, and merges
{80,100} into it. -/
def backwards : List (Sched Nat Nat) :=
  fill5 ++ [.inv 1 (.scan (some (40, true)) none), .go 1 9, .inv 2 (.delete 0), .go 2 13, .res 2, .inv 2 (.delete 20), .go 2 27,
    .inv 3 (.delete 40), .go 3 13, .res 3, .inv 3 (.delete 60), .go 3 34, .res 3]

/-- What happens between call and return of the scan. -/
def backwardsMid : List (Ev Nat Nat) :=
  [.inv 2 (.delete 0), .res 2 (.code .success), .inv 2 (.delete 20), .inv 3 (.delete 40), .res 3 (.code .success), .inv 3 (.delete 60),
   .res 3 (.code .success)]

/-- What the scan reports. -/
def backwardsRecs : List (Nat × Nat) :=
  [(40, 40), (60, 60), (80, 80), (100, 100), (80, 80), (100, 100), (120, 120), (140, 140), (160, 160), (180, 180), (200, 200)]

/-- C34 is false for PSL: the iterator of thread 1 goes from {40,60} to the removed page {80,100}, and from there back to the page that its
records have been moved to.  80 and 100 are reported twice. -/
theorem C34_psl_scan_repeats : ∃ c, Conf.Reach (CPsl.execS c200) (Conf.init : Conf Nat Nat) c ∧ ScanRepeats c.hist := by
  have h : (Conf.trace (CPsl.execS c200) 20 (backwards ++ [.go 1 20, .res 1])).map (fun c => c.hist.drop 22) =
      some (.inv 1 (.scan (some (40, true)) none) :: backwardsMid ++ [.res 1 (.recs backwardsRecs)]) := by decide +kernel
  obtain ⟨c, h1, h3⟩ := Option.map_eq_some_iff.1 h
  refine ⟨c, Conf.trace_reach h1, 1, some (40, true), none, backwardsRecs, c.hist.take 22, backwardsMid, [], ?_, ?_, ?_⟩
  · rw [List.append_assoc, ← h3, List.take_append_drop]
  · simp [backwardsMid]
  · decide

/-- The page that the next action of thread `t` uses. -/
def Conf.nextPage {K V : Type} (c : Conf K V) (t : Tid) : Option Ptr :=
  match c.thr t with | some (.act a _) => a.page | _ => none

theorem Conf.touches_of_nextPage {K V : Type} {c : Conf K V} {t : Tid} {p : Ptr} (h : c.nextPage t = some p) : c.Touches t p := by
  unfold Conf.nextPage at h
  split at h
  · next a k e => exact ⟨_, a, k, e, h⟩
  · cases h

/-- C43 is false for PSL: an iterator has no epoch guard (the one of `Scan` ends with that call), but the next action of thread 1, which has
finished {40,60}, is to lock a page that has been handed to the garbage collector. -/
theorem C43_psl_iterator_uses_released_page : ∃ c, Conf.Reach (CPsl.execS c200) (Conf.init : Conf Nat Nat) c ∧
    ∃ p ∈ c.mem.gc, c.Touches 1 p := by
  have h : (Conf.trace (CPsl.execS c200) 20 (backwards ++ [.go 1 3])).map (fun c => (c.nextPage 1, decide (3 ∈ c.mem.gc))) =
      some (some 3, true) := by decide +kernel
  obtain ⟨c, h1, h2⟩ := Option.map_eq_some_iff.1 h
  exact ⟨c, Conf.trace_reach h1, 3, of_decide_eq_true (congrArg Prod.snd h2), Conf.touches_of_nextPage (congrArg Prod.fst h2)⟩

/-- None of the three variants has partwise linearizable scans. -/
theorem C34_not_partwise :
    (∃ c, Conf.Reach (CPsl.execS c200) (Conf.init : Conf Nat Nat) c ∧ ¬ PartwiseLinearizable c.hist) ∧
    (∃ c, Conf.Reach (COsl.execS c200) (Conf.init : Conf Nat Nat) c ∧ ¬ PartwiseLinearizable c.hist) ∧
    (∃ c, Conf.Reach (COml.execS c120 (fun _ _ => 0)) (Conf.init : Conf Nat Nat) c ∧ ¬ PartwiseLinearizable c.hist) := by
  obtain ⟨c1, r1, h1⟩ := C34_psl_scan_repeats
  obtain ⟨c2, r2, h2⟩ := C34_osl_scan_misses
  obtain ⟨c3, r3, h3⟩ := C34_oml_scan_misses
  exact ⟨⟨c1, r1, fun h => h.facts.2.2 h1⟩, ⟨c2, r2, fun h => h.facts.2.1 h2⟩, ⟨c3, r3, fun h => h.facts.2.1 h3⟩⟩

end BT
