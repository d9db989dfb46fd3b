import Verif.PmlConc
import Verif.Props.PslBad

/-!
# What goes wrong in PML under concurrency (C24, C30)

`ShrinkTreeIfNeeded` releases the old root although readers may hold a shared lock on it: they give up the tree latch
as soon as they have locked the root.  Executions found with a simulator, checked by the kernel; the node size is the default.
-/

namespace BT
open Spec

/-- 8-byte keys and 120-byte payloads: a leaf takes seven records, the eighth splits it. -/
def c120 : Cfg Nat := { fixCfg false with payLen := 120 }

/-- Eight writes split the only leaf; then the left leaf is emptied and the next call merges the two.  The root has one child
left. -/
def pmlFill : List (Sched Nat Nat) :=
  [.inv 0 (.write 0 0), .go 0 13, .res 0, .inv 0 (.write 10 10), .go 0 13, .res 0, .inv 0 (.write 20 20), .go 0 13, .res 0,
   .inv 0 (.write 30 30), .go 0 13, .res 0, .inv 0 (.write 40 40), .go 0 13, .res 0, .inv 0 (.write 50 50), .go 0 13, .res 0,
   .inv 0 (.write 60 60), .go 0 13, .res 0, .inv 0 (.write 70 70), .go 0 30, .res 0, .inv 0 (.delete 0), .go 0 18, .res 0,
   .inv 0 (.delete 10), .go 0 18, .res 0, .inv 0 (.delete 20), .go 0 18, .res 0, .inv 0 (.delete 30), .go 0 18, .res 0,
   .inv 0 (.delete 0), .go 0 29, .res 0]

/-- Thread 1 reads 70 and stops after it has locked the root, page 3; thread 0 writes 11 and is about to release page 3. -/
def pmlShrink : List (Sched Nat Nat) := pmlFill ++ [.inv 1 (.read 70), .go 1 4, .inv 0 (.write 11 11), .go 0 7]

/-- Is a read of page `p` the next action of thread `t`? -/
def Conf.loads {K V : Type} (c : Conf K V) (t : Tid) (p : Ptr) : Bool :=
  match c.thr t with | some (.act (.load q) _) => decide (q = p) | _ => false

theorem Conf.touches_of_loads {K V : Type} {c : Conf K V} {t : Tid} {p : Ptr} (h : c.loads t p = true) : c.Touches t p := by
  unfold Conf.loads at h
  split at h
  · next e => exact ⟨_, _, _, e, by have := of_decide_eq_true h; subst this; rfl⟩
  · cases h

/-- C30 is false: in one step a page is released on which thread 1 holds a lock, and the next thing thread 1 does is to
read that page. -/
theorem C30_pml_root_released_under_reader : ∃ c c' p, Conf.Reach (CPml.exec c120) (Conf.initPml : Conf Nat Nat) c ∧
    Conf.Step (CPml.exec c120) c c' ∧ p ∉ c.mem.gc ∧ p ∈ c'.mem.gc ∧ (c.mem.lk p).holds 1 = true ∧ c.thr 1 = c'.thr 1 ∧
    c'.Touches 1 p := by
  have h : ((Conf.cmds (CPml.exec c120) 20 pmlShrink Conf.initPml).bind (fun c => (c.act1 0).map (fun c' =>
      decide (3 ∉ c.mem.gc) && decide (3 ∈ c'.mem.gc) && (c.mem.lk 3).holds 1 && c'.loads 1 3))) = some true := by
    decide +kernel
  rw [Option.bind_eq_some_iff] at h
  obtain ⟨c, h1, h2⟩ := h
  rw [Option.map_eq_some_iff] at h2
  obtain ⟨c', h2, h3⟩ := h2
  simp only [Bool.and_eq_true, decide_eq_true_eq] at h3
  obtain ⟨⟨⟨g1, g2⟩, g3⟩, g4⟩ := h3
  refine ⟨c, c', 3, Conf.cmds_reach .refl h1, Conf.act1_step h2, g1, g2, g3, ?_, Conf.touches_of_loads g4⟩
  unfold Conf.act1 at h2
  split at h2
  · split at h2
    · cases h2; simp [Spec.upd]
    · cases h2; simp [Spec.upd]
    · cases h2
  · cases h2

/-- As before, but thread 0 goes on writing until the only leaf, page 1, is full and split again; then thread 1, which still
works with the old root, goes to page 1. -/
def pmlStale : List (Sched Nat Nat) :=
  pmlFill ++ [.inv 1 (.read 70), .go 1 4, .inv 0 (.write 11 11), .go 0 20, .res 0, .inv 0 (.write 12 12), .go 0 13, .res 0,
    .inv 0 (.write 13 13), .go 0 13, .res 0, .inv 0 (.write 14 14), .go 0 30, .res 0, .go 1 6, .res 1]

def pmlStaleHist : List (Ev Nat Nat) :=
  [.inv 0 (.write 0 0), .res 0 (.code .success), .inv 0 (.write 10 10), .res 0 (.code .success), .inv 0 (.write 20 20),
   .res 0 (.code .success), .inv 0 (.write 30 30), .res 0 (.code .success), .inv 0 (.write 40 40), .res 0 (.code .success),
   .inv 0 (.write 50 50), .res 0 (.code .success), .inv 0 (.write 60 60), .res 0 (.code .success), .inv 0 (.write 70 70),
   .res 0 (.code .success), .inv 0 (.delete 0), .res 0 (.code .success), .inv 0 (.delete 10), .res 0 (.code .success),
   .inv 0 (.delete 20), .res 0 (.code .success), .inv 0 (.delete 30), .res 0 (.code .success), .inv 0 (.delete 0),
   .res 0 (.code .keyNotExist), .inv 1 (.read 70), .inv 0 (.write 11 11), .res 0 (.code .success), .inv 0 (.write 12 12),
   .res 0 (.code .success), .inv 0 (.write 13 13), .res 0 (.code .success), .inv 0 (.write 14 14), .res 0 (.code .success),
   .res 1 (.payload none)]

theorem pmlStale_hist : (Conf.cmds (CPml.exec c120) 20 pmlStale Conf.initPml).map Conf.hist = some pmlStaleHist := by
  decide +kernel

theorem pmlStaleHist_loses : LosesWrite pmlStaleHist := by
  refine ⟨70, 70, 0, 1, none, pmlStaleHist.take 14, [], (pmlStaleHist.drop 16).take 10, (pmlStaleHist.drop 27).take 8, [],
    rfl, ?_, by simp, by simp [pmlStaleHist], by simp⟩
  intro t op hm hc
  simp only [pmlStaleHist, List.mem_cons, List.not_mem_nil, or_false, Ev.inv.injEq, reduceCtorEq, false_or] at hm
  rcases hm with h | h | h | h | h | h | h | h | h | h | h | h | h | h | h | h | h | h <;> obtain ⟨-, rfl⟩ := h <;> simp_all [Changes]

/-- C24 is false even if released memory kept its contents: the reader that works with the released root misses a record that is
present during its whole call. -/
theorem C24_pml_not_linearizable : ∃ c, Conf.Reach (CPml.exec c120) (Conf.initPml : Conf Nat Nat) c ∧ LosesWrite c.hist ∧
    ¬ Linearizable c.hist := by
  have h := pmlStale_hist
  rw [Option.map_eq_some_iff] at h
  obtain ⟨c, h1, h2⟩ := h
  exact ⟨c, Conf.cmds_reach .refl h1, by rw [h2]; exact pmlStaleHist_loses, by rw [h2]; exact pmlStaleHist_loses.not_linearizable⟩

end BT
