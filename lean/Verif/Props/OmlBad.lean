import Verif.OmlConc
import Verif.Props.PmlBad

/-!
# What goes wrong in OML under concurrency (C25, C31, C32, C33)

Executions found with a simulator, checked by the kernel; node size and thresholds are the defaults.
-/

namespace BT
open Spec

section
variable {K V : Type} {I : CImpl K V}

/-- The history of a run is the one claimed. -/
theorem Conf.reach_of_hist {fuel : Nat} {xs : List (Sched K V)} {h : List (Ev K V)}
    (e : (Conf.trace I fuel xs).map Conf.hist = some h) : ∃ c, Conf.Reach I (Conf.init : Conf K V) c ∧ c.hist = h := by
  rw [Option.map_eq_some_iff] at e
  obtain ⟨c, h1, h2⟩ := e
  exact ⟨c, Conf.trace_reach h1, h2⟩
end

/-! ## A page that has been merged away is still read

`Merge` gives up the left page, which now has all the records, before it marks the right page as removed; until
then the right page is a valid place to look for its old records. -/

/-- Thread 2 writes 65 and stops when it has found the only leaf, page 0.  Thread 0 splits that leaf at 40, empties the left half and
merges the right half (page 1) into it again, up to the point where page 0 is unlocked and page 1 not yet removed.  Thread 2 now writes 65 to
page 0 and returns.  Then thread 3 reads 65: the root still leads to page 1. -/
def omlStale : List (Sched Nat Nat) :=
  [.inv 0 (.write 0 0), .go 0 22, .res 0, .inv 0 (.write 10 10), .go 0 21, .res 0, .inv 0 (.write 20 20), .go 0 21, .res 0,
   .inv 0 (.write 30 30), .go 0 21, .res 0, .inv 0 (.write 40 40), .go 0 21, .res 0, .inv 0 (.write 50 50), .go 0 21, .res 0,
   .inv 2 (.write 65 65), .go 2 8, .inv 0 (.write 60 60), .go 0 21, .res 0, .inv 0 (.write 70 70), .go 0 33, .res 0,
   .inv 0 (.delete 0), .go 0 30, .res 0, .inv 0 (.delete 10), .go 0 30, .res 0, .inv 0 (.delete 20), .go 0 30, .res 0,
   .inv 0 (.delete 30), .go 0 30, .res 0, .inv 0 (.delete 0), .go 0 32, .go 2 13, .res 2, .inv 3 (.read 65), .go 3 14, .res 3]

def omlStaleHist : List (Ev Nat Nat) :=
  [.inv 0 (.write 0 0), .res 0 (.code .success), .inv 0 (.write 10 10), .res 0 (.code .success), .inv 0 (.write 20 20),
   .res 0 (.code .success), .inv 0 (.write 30 30), .res 0 (.code .success), .inv 0 (.write 40 40), .res 0 (.code .success),
   .inv 0 (.write 50 50), .res 0 (.code .success), .inv 2 (.write 65 65), .inv 0 (.write 60 60), .res 0 (.code .success),
   .inv 0 (.write 70 70), .res 0 (.code .success), .inv 0 (.delete 0), .res 0 (.code .success), .inv 0 (.delete 10),
   .res 0 (.code .success), .inv 0 (.delete 20), .res 0 (.code .success), .inv 0 (.delete 30), .res 0 (.code .success),
   .inv 0 (.delete 0), .res 2 (.code .success), .inv 3 (.read 65), .res 3 (.payload none)]

/-- The keys 8 bytes, the payloads 120 bytes in the fixed-length layout, where `junk` plays no part. -/
def omlFix : CImpl Nat Nat := COml.exec c120 (fun _ _ => 0)

theorem omlStale_hist : (Conf.trace omlFix 20 omlStale).map Conf.hist = some omlStaleHist := by decide +kernel

theorem omlStaleHist_loses : LosesWrite omlStaleHist := by
  refine ⟨65, 65, 2, 3, none, omlStaleHist.take 12, (omlStaleHist.drop 13).take 13, [], [], [],
    rfl, ?_, by simp [omlStaleHist], by simp, by simp⟩
  intro t op hm hc
  simp only [omlStaleHist, List.mem_cons, List.not_mem_nil, or_false, Ev.inv.injEq, reduceCtorEq, false_or] at hm
  rcases hm with h | h | h | h | h | h | h | h | h | h | h | h | h | h | h <;> obtain ⟨-, rfl⟩ := h <;> simp_all [Changes]

/-- C32 is false: `Write(65, 65)` has returned, no other call on 65 is made, and a later `Read(65)` finds nothing. -/
theorem C32_oml_stale_read : ∃ c, Conf.Reach omlFix (Conf.init : Conf Nat Nat) c ∧
    (∃ h1 h2 : List (Ev Nat Nat), c.hist = h1 ++ Ev.res 2 (.code .success) :: Ev.inv 3 (.read 65) :: Ev.res 3 (.payload none) :: h2 ∧
      Ev.inv 2 (.write 65 65) ∈ h1 ∧ (∀ out, Ev.res 2 out ∉ h1) ∧ ∀ t op, Ev.inv t op ∈ c.hist → Changes 65 op → op = .write 65 65) ∧
    LosesWrite c.hist := by
  obtain ⟨c, h1, h2⟩ := Conf.reach_of_hist omlStale_hist
  refine ⟨c, h1, ⟨omlStaleHist.take 26, [], by rw [h2]; rfl, by simp [omlStaleHist], by simp [omlStaleHist], ?_⟩,
    by rw [h2]; exact omlStaleHist_loses⟩
  rw [h2]
  intro t op hm hc
  simp only [omlStaleHist, List.mem_cons, List.not_mem_nil, or_false, Ev.inv.injEq, reduceCtorEq, false_or] at hm
  rcases hm with h | h | h | h | h | h | h | h | h | h | h | h | h | h | h <;> obtain ⟨-, rfl⟩ := h <;> simp_all [Changes]

/-- C25 is false for the fixed-length layout. -/
theorem C25_oml_not_linearizable : ∃ c, Conf.Reach omlFix (Conf.init : Conf Nat Nat) c ∧ ¬ Linearizable c.hist := by
  obtain ⟨c, h1, h2⟩ := Conf.reach_of_hist omlStale_hist
  exact ⟨c, h1, by rw [h2]; exact omlStaleHist_loses.not_linearizable⟩

/-! ## A page with a wrong highest key

8-byte keys and 32-byte payloads in the variable-length layout.  A payload is written here as the number in its last eight
bytes.  `Split` (oml varlen 971-1023) puts the first record of the left page to the end of the page and the highest key below
all records.  `Merge` (1036-1039) sets `h_key_offset_` to the last eight bytes of the page if the page has no lowest key: as long as the page has not been
cleaned up since the split, these are the last eight bytes of the payload of the first record. -/

def v32 : Cfg Nat := { varCfg false with payLen := 32 }

/-- What is taken for the highest key: the end of the payload of the first record. -/
def firstPayload (l _r : Node Nat Nat) : Nat :=
  match l.recs.head? with
  | some ⟨_, .val v, _⟩ => v
  | _ => 0

def omlVar : CImpl Nat Nat := COml.exec v32 firstPayload

/-- Thread 0 writes the keys 0 to 25, which makes three leaves, the first with the keys below 10.  The threads 1, 2 and 3 delete 6, 7 and
8 and stop when they have found the leaf; thread 0 deletes 0 to 5, then the others go on.  Only 9 is left in the first leaf.
Thread 0 calls `Delete(0)` and merges the first two leaves, up to the point where it takes the X lock on page 0.  Thread 4 reads 9. -/
def omlJunk : List (Sched Nat Nat) :=
  (List.range 2).flatMap (fun k => [.inv 0 (.write k k), .go 0 22, .res 0]) ++
  (List.range' 2 15).flatMap (fun k => [.inv 0 (.write k k), .go 0 21, .res 0]) ++
  [.inv 0 (.write 17 17), .go 0 33, .res 0] ++
  (List.range' 18 7).flatMap (fun k => [.inv 0 (.write k k), .go 0 34, .res 0]) ++
  [.inv 0 (.write 25 25), .go 0 47, .res 0, .inv 1 (.delete 6), .go 1 21, .inv 2 (.delete 7), .go 2 21, .inv 3 (.delete 8), .go 3 21] ++
  (List.range 6).flatMap (fun k => [.inv 0 (.delete k), .go 0 29, .res 0]) ++
  [.go 1 12, .res 1, .go 2 12, .res 2, .go 3 12, .res 3, .inv 0 (.delete 0), .go 0 29, .inv 4 (.read 9), .go 4 19, .res 4]

def omlJunkHist : List (Ev Nat Nat) :=
  (List.range 26).flatMap (fun k => [.inv 0 (.write k k), .res 0 (.code .success)]) ++
  [.inv 1 (.delete 6), .inv 2 (.delete 7), .inv 3 (.delete 8)] ++
  (List.range 6).flatMap (fun k => [.inv 0 (.delete k), .res 0 (.code .success)]) ++
  [.res 1 (.code .success), .res 2 (.code .success), .res 3 (.code .success), .inv 0 (.delete 0), .inv 4 (.read 9),
   .res 4 (.payload none)]

theorem omlJunk_hist : (Conf.trace omlVar 20 omlJunk).map Conf.hist = some omlJunkHist := by decide +kernel

theorem omlJunk_only (t : Tid) (op : Op Nat Nat) (hm : Ev.inv t op ∈ omlJunkHist) (hc : Changes 9 op) : op = .write 9 9 := by
  simp only [omlJunkHist, List.mem_append, List.mem_flatMap, List.mem_cons, List.not_mem_nil, or_false, Ev.inv.injEq,
    reduceCtorEq, List.mem_range, false_or] at hm
  rcases hm with ((⟨k, -, -, rfl⟩ | h | h | h) | ⟨k, hk, -, rfl⟩) | h | h
  · have : k = 9 := hc
    rw [this]
  all_goals try (obtain ⟨-, rfl⟩ := h; simp [Changes] at hc)
  have : k = 9 := hc
  omega

theorem omlJunkHist_loses : LosesWrite omlJunkHist := by
  refine ⟨9, 9, 0, 4, none, omlJunkHist.take 18, [], (omlJunkHist.drop 20).take 51, [], [],
    rfl, omlJunk_only, by simp, by simp, by simp⟩

/-- C33 is false: the key 9 is present during the whole call (its only change, `Write(9, 9)`, returned long before), the page that holds it
is being merged with its right sibling, and `Read(9)` finds nothing. -/
theorem C33_oml_present_key_missed : ∃ c, Conf.Reach omlVar (Conf.init : Conf Nat Nat) c ∧
    (∃ h1 h2 : List (Ev Nat Nat), c.hist = h1 ++ Ev.inv 4 (.read 9) :: Ev.res 4 (.payload none) :: h2 ∧
      (∃ g1 g2 : List (Ev Nat Nat), h1 = g1 ++ Ev.inv 0 (.write 9 9) :: Ev.res 0 (.code .success) :: g2) ∧
      ∀ t op, Ev.inv t op ∈ c.hist → Changes 9 op → op = .write 9 9) ∧
    (∃ p n, c.mem.heap p = some n ∧ { key := some 9, pay := .val 9, del := false } ∈ n.recs ∧ n.removed = false) := by
  have h : (Conf.trace omlVar 20 omlJunk).map (fun c => (c.hist, (c.mem.heap 0).map (fun n =>
      decide ({ key := some 9, pay := .val 9, del := false } ∈ n.recs) && !n.removed))) = some (omlJunkHist, some true) := by decide +kernel
  rw [Option.map_eq_some_iff] at h
  obtain ⟨c, h1, h2⟩ := h
  simp only [Prod.mk.injEq, Option.map_eq_some_iff, Bool.and_eq_true, decide_eq_true_eq, Bool.not_eq_true'] at h2
  obtain ⟨h2, n, h3, h4, h5⟩ := h2
  refine ⟨c, Conf.trace_reach h1, ⟨omlJunkHist.take 71, [], by rw [h2]; rfl, ⟨omlJunkHist.take 18, (omlJunkHist.drop 20).take 51, rfl⟩, ?_⟩, 0, n, h3, h4, h5⟩
  rw [h2]
  exact omlJunk_only

/-- C25 is false for the variable-length layout. -/
theorem C25_oml_var_not_linearizable : ∃ c, Conf.Reach omlVar (Conf.init : Conf Nat Nat) c ∧ ¬ Linearizable c.hist := by
  obtain ⟨c, h1, h2⟩ := Conf.reach_of_hist omlJunk_hist
  exact ⟨c, h1, by rw [h2]; exact omlJunkHist_loses.not_linearizable⟩

/-! ## The root is retired before it is removed -/

/-- The tree is split and merged again; then `Write(1, 1)` shrinks it and has just handed the root, page 2, to the garbage collector. -/
def omlShrink : List (Sched Nat Nat) :=
  [.inv 0 (.write 0 0), .go 0 22, .res 0] ++
  [10, 20, 30, 40, 50, 60].flatMap (fun k => [.inv 0 (.write k k), .go 0 21, .res 0]) ++
  [.inv 0 (.write 70 70), .go 0 33, .res 0] ++
  [0, 10, 20, 30].flatMap (fun k => [.inv 0 (.delete k), .go 0 30, .res 0]) ++
  [.inv 0 (.delete 0), .go 0 47, .res 0, .inv 0 (.write 1 1), .go 0 12]

/-- Does thread `t` look into the header of page `p` next? -/
def Conf.asks {K V : Type} (c : Conf K V) (t : Tid) (p : Ptr) : Bool :=
  match c.thr t with | some (.act (.isInner q) _) => decide (q = p) | _ => false

theorem Conf.touches_of_asks {K V : Type} {c : Conf K V} {t : Tid} {p : Ptr} (h : c.asks t p = true) : c.Touches t p := by
  unfold Conf.asks at h
  split at h
  · next e => exact ⟨_, _, _, e, by have := of_decide_eq_true h; subst this; rfl⟩
  · cases h

/-- C31 is false for OML: page 2 has been handed to the garbage collector, then thread 3, which was not running, starts a call and
comes to the page. -/
theorem C31_oml_retired_page_reached : ∃ c c' t p, Conf.Reach omlFix (Conf.init : Conf Nat Nat) c ∧
    p ∈ c.mem.gc ∧ c.idle t = true ∧ Conf.Reach omlFix c c' ∧ c'.Touches t p := by
  have h : ((Conf.trace omlFix 20 omlShrink).bind (fun c => (Conf.cmds omlFix 20 [.inv 3 (.read 40), .go 3 1] c).map (fun c' =>
        decide (2 ∈ c.mem.gc) && c.idle 3 && c'.asks 3 2))) = some true := by decide +kernel
  rw [Option.bind_eq_some_iff] at h
  obtain ⟨c, h1, h2⟩ := h
  rw [Option.map_eq_some_iff] at h2
  obtain ⟨c', h2, h3⟩ := h2
  simp only [Bool.and_eq_true, decide_eq_true_eq] at h3
  exact ⟨c, c', 3, 2, Conf.trace_reach h1, h3.1.1, h3.1.2, Conf.cmds_reach .refl h2, Conf.touches_of_asks h3.2⟩

end BT
