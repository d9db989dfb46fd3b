import Verif.LockOml
import Verif.Props.PmlGood
import Verif.Props.PslGood
import Verif.Props.OslBad

/-!
# Who waits for whom (C47, C48, C49)

`c.WaitsFor t u`: thread `t` wants a lock that it cannot get at the moment because thread `u` holds it.  `Pending c.hist u op`: thread
`u` has called `op`, and the call has not returned.
-/

set_option linter.unusedSectionVars false

namespace BT
open Spec Relation
variable {K V : Type} [LinearOrder K] {cfg : Cfg K} {L : Nat} {c : Conf K V} {junk : Node K V → Node K V → K} {t u : Tid}

/-! ## C47: locks end with the call -/

/-- C47 for PSL: whoever is waited for is in the middle of a call. -/
theorem C47_psl_locks_released (hr : Roomy cfg L) (hb : cfg.blink = true) (hc : Conf.Reach (CPsl.execS cfg) Conf.init c)
    (hw : c.WaitsFor t u) : ∃ op, Pending c.hist u op := by
  have hv : VInv (bp cfg false) (fun _ => False) c := VInv.reach (adm := fun _ => True)
    (fun fuel op _ => CPsl.exec_vwp hr hb fuel op (fun h => by cases h)) (fun _ _ h => h.elim) (VInv.init (SizeW.empty _)) hc (fun _ _ _ => trivial)
  obtain ⟨op, q, h, -⟩ := hv.waits hw
  exact ⟨op, h⟩

theorem osl_inv (hr : Roomy cfg L) (hb : cfg.blink = true) {c0 : Conf K V} (h0 : VInv (bp cfg false) (fun op => ¬ Writes op) c0)
    (hc : Conf.Reach (COsl.execS cfg) c0 c) :
    VInv (bp cfg false) (fun op => ¬ Writes op) c := by
  refine VInv.reach (adm := fun _ => True) (fun fuel op _ => COsl.exec_vwp hr hb fuel op (fun h => by cases h)) ?_ h0 hc
    (fun _ _ _ => trivial)
  intro fuel op ho
  cases op with
  | read k => exact Prog.Lockfree.bind COsl.read_lf fun _ => trivial
  | scan b e => exact Prog.Lockfree.bind COsl.scan_lf fun _ => trivial
  | _ => exact absurd trivial ho

theorem oml_inv {c0 : Conf K V} (h0 : VInv omlP (fun op => ¬ Writes op) c0) (hc : Conf.Reach (COml.execS cfg junk) c0 c) : VInv omlP (fun op => ¬ Writes op) c := by
  refine VInv.reach (adm := fun _ => True) (fun fuel op _ => COml.exec_g fuel op) ?_ h0 hc (fun _ _ _ => trivial)
  intro fuel op ho
  cases op with
  | read k => exact Prog.Lockfree.bind COml.read_lf fun _ => trivial
  | scan b e => exact Prog.Lockfree.bind COml.scan_lf fun _ => trivial
  | _ => exact absurd trivial ho

/-- C47 for OSL. -/
theorem C47_osl_locks_released (hr : Roomy cfg L) (hb : cfg.blink = true) (hc : Conf.Reach (COsl.execS cfg) Conf.init c)
    (hw : c.WaitsFor t u) : ∃ op, Pending c.hist u op := by
  obtain ⟨op, q, h, -⟩ := (osl_inv hr hb (VInv.init (SizeW.empty _)) hc).waits hw
  exact ⟨op, h⟩

/-- C47 for OML. -/
theorem C47_oml_locks_released (hc : Conf.Reach (COml.execS cfg junk) Conf.init c) (hw : c.WaitsFor t u) : ∃ op, Pending c.hist u op := by
  obtain ⟨op, q, h, -⟩ := (oml_inv (VInv.init trivial) hc).waits hw
  exact ⟨op, h⟩

/-- C47 for PML.  Missing: as for C30. -/
theorem C47_pml_locks_released_partial (hr : Roomy cfg L) (hmf : L + cfg.maxPayLen + cfg.mlen ≤ cfg.minFree)
    (hc : Conf.Reach (CPml.exec cfg) Conf.initPml c) (hn : c.mem.raced = false) (hw : c.WaitsFor t u) : ∃ op, Pending c.hist u op := by
  obtain ⟨w, hs⟩ := PL.sim hr hmf hc hn
  refine Conf.Reach.calling (fun _ => rfl) hc fun h => ?_
  rcases PL.waits_runs hs hw with ⟨_, _, _, e, _⟩ | e | ⟨_, _, _, _, _, e, _⟩
  · rw [h] at e; cases e
  · rw [h] at e; cases e
  · rw [h] at e; cases e

/-- C47 for PML and executions of `Write`, `Insert`, `Update` and `Delete` by any number of threads. -/
theorem C47_pml_writers_locks_released (hr : Roomy cfg L) (hmf : L + cfg.maxPayLen + cfg.mlen ≤ cfg.minFree)
    (hc : Conf.Reach (CPml.exec cfg) Conf.initPml c) (hn : ∀ t k, Ev.inv t (.read k) ∉ c.hist)
    (hsc : ∀ t b e, Ev.inv t (.scan b e) ∉ c.hist) (hw : c.WaitsFor t u) : ∃ op, Pending c.hist u op := by
  obtain ⟨⟨w, hs⟩, -⟩ := PL.no_readers hr hmf (PL.sim0 cfg) (fun _ => rfl) (fun _ => rfl) hc hn hsc
  refine Conf.Reach.calling (fun _ => rfl) hc fun h => ?_
  rcases PL.waits_runs hs hw with ⟨_, _, _, e, _⟩ | e | ⟨_, _, _, _, _, e, _⟩
  · rw [h] at e; cases e
  · rw [h] at e; cases e
  · rw [h] at e; cases e

/-! ## C48: readers of the optimistic trees block nobody -/

/-- C48 for OSL: a call of `Read` or `Scan` never makes another one wait. -/
theorem C48_osl_readers_block_nobody (hr : Roomy cfg L) (hb : cfg.blink = true) (hc : Conf.Reach (COsl.execS cfg) Conf.init c)
    {op : Op K V} (hp : Pending c.hist u op) (ho : ¬ Writes op) (t : Tid) : ¬ c.WaitsFor t u := by
  intro hw
  obtain ⟨op', q, h, h', -⟩ := (osl_inv hr hb (VInv.init (SizeW.empty _)) hc).waits hw
  rw [(hc.pend rfl u).2 _ _ hp h] at ho
  exact h' ho

/-- C48 for OML. -/
theorem C48_oml_readers_block_nobody (hc : Conf.Reach (COml.execS cfg junk) Conf.init c)
    {op : Op K V} (hp : Pending c.hist u op) (ho : ¬ Writes op) (t : Tid) : ¬ c.WaitsFor t u := by
  intro hw
  obtain ⟨op', q, h, h', -⟩ := (oml_inv (VInv.init trivial) hc).waits hw
  rw [(hc.pend rfl u).2 _ _ hp h] at ho
  exact h' ho

/-! ## C49: no deadlocks without `Delete` -/

theorem psl_ord (hr : Roomy cfg L) (hb : cfg.blink = true) {c0 : Conf K V} (h0 : VInv (bp cfg true) (fun _ => False) c0)
    (hc : Conf.Reach (CPsl.execS cfg) c0 c)
    (hd : ∀ t k, .inv t (.delete k) ∉ c.hist) : VInv (bp cfg true) (fun _ => False) c :=
  VInv.reach (adm := fun op => ∀ k, op ≠ .delete k) (fun fuel op ho => CPsl.exec_vwp hr hb fuel op (fun _ => ho)) (fun _ _ h => h.elim)
    h0 hc (fun t _ h k e => hd t k (e ▸ h))

theorem osl_ord (hr : Roomy cfg L) (hb : cfg.blink = true) {c0 : Conf K V} (h0 : VInv (bp cfg true) (fun _ => False) c0)
    (hc : Conf.Reach (COsl.execS cfg) c0 c)
    (hd : ∀ t k, .inv t (.delete k) ∉ c.hist) : VInv (bp cfg true) (fun _ => False) c :=
  VInv.reach (adm := fun op => ∀ k, op ≠ .delete k) (fun fuel op ho => COsl.exec_vwp hr hb fuel op (fun _ => ho)) (fun _ _ h => h.elim)
    h0 hc (fun t _ h k e => hd t k (e ▸ h))

/-- C49 for PSL: threads never wait for each other in a cycle, and whoever waits, waits (directly or through others) for a thread that is in the
middle of a call and need not wait.  Missing: executions with `Delete` (false, `C28_psl_merge_blocks_itself`). -/
theorem C49_psl_no_deadlock_partial (hr : Roomy cfg L) (hb : cfg.blink = true) (hc : Conf.Reach (CPsl.execS cfg) Conf.init c)
    (hd : ∀ t k, .inv t (.delete k) ∉ c.hist) (t : Tid) :
    ¬ TransGen c.WaitsFor t t ∧ (c.Waiting t → ∃ u op, TransGen c.WaitsFor t u ∧ Pending c.hist u op ∧ ¬ c.Waiting u) :=
  ⟨((psl_ord hr hb (VInv.init (SizeW.empty _)) hc hd).ranked rfl rfl).acyclic, (psl_ord hr hb (VInv.init (SizeW.empty _)) hc hd).progress ((psl_ord hr hb (VInv.init (SizeW.empty _)) hc hd).ranked rfl rfl)⟩

/-- C49 for OSL.  Missing: executions with `Delete` (false, `C28_osl_merge_blocks_itself`). -/
theorem C49_osl_no_deadlock_partial (hr : Roomy cfg L) (hb : cfg.blink = true) (hc : Conf.Reach (COsl.execS cfg) Conf.init c)
    (hd : ∀ t k, .inv t (.delete k) ∉ c.hist) (t : Tid) :
    ¬ TransGen c.WaitsFor t t ∧ (c.Waiting t → ∃ u op, TransGen c.WaitsFor t u ∧ Pending c.hist u op ∧ ¬ c.Waiting u) :=
  ⟨((osl_ord hr hb (VInv.init (SizeW.empty _)) hc hd).ranked rfl rfl).acyclic, (osl_ord hr hb (VInv.init (SizeW.empty _)) hc hd).progress ((osl_ord hr hb (VInv.init (SizeW.empty _)) hc hd).ranked rfl rfl)⟩

/-! ## Examples -/

instance Act.heldDec {β : Type} (m : Mem K V) (u : Tid) : (a : Act K V β) → Decidable (a.HeldBy m u)
  | .lockS p | .getVer p => inferInstanceAs (Decidable ((m.lk p).x = some u))
  | .lockSIX p | .tryLockSIX p _ => inferInstanceAs (Decidable ((m.lk p).x = some u ∨ (m.lk p).six = some u))
  | .lockX p | .tryLockX p _ => inferInstanceAs (Decidable ((m.lk p).x = some u ∨ (m.lk p).six = some u ∨ u ∈ (m.lk p).s))
  | .upgradeX p => inferInstanceAs (Decidable (u ∈ (m.lk p).s))
  | .getRoot => isFalse id
  | .setRoot _ _ => isFalse id
  | .isInner _ => isFalse id
  | .load _ => isFalse id
  | .peek _ => isFalse id
  | .store _ _ => isFalse id
  | .poke _ _ => isFalse id
  | .alloc _ => isFalse id
  | .retire _ => isFalse id
  | .unlockS _ => isFalse id
  | .unlockSIX _ => isFalse id
  | .unlockX _ => isFalse id
  | .unlockXVer _ => isFalse id
  | .downgradeSIX _ => isFalse id
  | .same _ _ => isFalse id
  | .tryLockS _ _ => isFalse id
  | .note _ => isFalse id
  | .free _ => isFalse id

/-- Whether thread `t` waits for thread `u`. -/
def Conf.blocks (c : Conf K V) (t u : Tid) : Bool :=
  match c.thr t with
  | some (.act a _) =>
    match a.run t c.mem with
    | .wait => decide (a.HeldBy c.mem u)
    | _ => false
  | _ => false

theorem Conf.waitsFor_of_blocks (h : c.blocks t u = true) : c.WaitsFor t u := by
  unfold Conf.blocks at h
  split at h
  · next e =>
    split at h
    · next e' => exact ⟨_, _, _, e, e', of_decide_eq_true h⟩
    · cases h
  · cases h

/-- The history ends in a call of `t` that is running. -/
theorem pending_at {h : List (Ev Nat Nat)} {op : Op Nat Nat} (n : Nat) (e : h[n]? = some (.inv t op))
    (hn : (h.drop (n + 1)).all (fun x => match x with | .res t' _ => t' != t | _ => true) = true) : Pending h t op := by
  obtain ⟨hl, e⟩ := List.getElem?_eq_some_iff.1 e
  refine ⟨h.take n, h.drop (n + 1), ?_, fun out hm => ?_⟩
  · rw [← e, ← List.drop_eq_getElem_cons hl, List.take_append_drop]
  · have := List.all_eq_true.1 hn _ hm
    simp at this

/-- PSL: thread 1 scans, thread 0 splits the leaf and waits for thread 1, thread 2 waits for thread 0. -/
def pslQueue : List (Sched Nat Nat) :=
  [.inv 0 (.write 0 0), .go 0 9, .res 0, .inv 0 (.write 20 20), .go 0 9, .res 0, .inv 0 (.write 40 40), .go 0 9, .res 0,
   .inv 0 (.write 60 60), .go 0 9, .res 0, .inv 1 (.scan none none), .go 1 4, .inv 0 (.write 80 80), .go 0 12, .inv 2 (.write 5 5), .go 2 2]

theorem psl_queue : ∃ c : Conf Nat Nat, Conf.Reach (CPsl.execS c200) Conf.init c ∧ c.WaitsFor 2 0 ∧ c.WaitsFor 0 1 ∧
    Pending c.hist 1 (.scan none none) ∧ ∀ t k, .inv t (.delete k) ∉ c.hist := by
  have h : (Conf.trace (CPsl.execS c200) 20 pslQueue).map (fun c => decide (c.blocks 2 0 = true ∧ c.blocks 0 1 = true ∧
      c.hist[8]? = some (.inv 1 (.scan none none)) ∧
      (c.hist.drop 9).all (fun x => match x with | .res t' _ => t' != 1 | _ => true) = true ∧
      c.hist.all (fun x => match x with | .inv _ (.delete _) => false | _ => true) = true)) = some true := by decide +kernel
  rw [Option.map_eq_some_iff] at h
  obtain ⟨c, h1, h2⟩ := h
  obtain ⟨h2, h3, h4, h5, h6⟩ := of_decide_eq_true h2
  refine ⟨c, Conf.trace_reach h1, Conf.waitsFor_of_blocks h2, Conf.waitsFor_of_blocks h3, pending_at 8 h4 h5, fun t k hm => ?_⟩
  simpa using List.all_eq_true.1 h6 _ hm

/-- C48 is false of PSL: a thread that scans makes a writer wait. -/
theorem C48_psl_scan_blocks_writer : ∃ (c : Conf Nat Nat) (t u : Tid), Conf.Reach (CPsl.execS c200) Conf.init c ∧
    Pending c.hist u (.scan none none) ∧ c.WaitsFor t u := by
  obtain ⟨c, h, -, h1, h2, -⟩ := psl_queue
  exact ⟨c, 0, 1, h, h2, h1⟩

/-- The hypotheses of C47 and C49 for PSL hold at a configuration in which one thread waits for another, that waits for a third. -/
example : ∃ c : Conf Nat Nat, Roomy c200 8 ∧ c200.blink = true ∧ Conf.Reach (CPsl.execS c200) Conf.init c ∧ c.WaitsFor 2 0 ∧ c.WaitsFor 0 1 ∧
    ∀ t k, .inv t (.delete k) ∉ c.hist := by
  obtain ⟨c, h, h0, h1, -, h3⟩ := psl_queue
  exact ⟨c, c200_roomy, rfl, h, h0, h1, h3⟩

/-- C49 is false with `Delete`: a call can wait for itself. -/
theorem C49_psl_delete_waits_for_itself : ∃ (c : Conf Nat Nat) (t : Tid), Conf.Reach (CPsl.execS c200) Conf.init c ∧ c.WaitsFor t t := by
  have h : (Conf.trace (CPsl.execS c200) 20 selfBlock).map (fun c => c.blocks 2 2) = some true := by decide +kernel
  rw [Option.map_eq_some_iff] at h
  obtain ⟨c, h1, h2⟩ := h
  exact ⟨c, 2, Conf.trace_reach h1, Conf.waitsFor_of_blocks h2⟩

theorem C49_osl_delete_waits_for_itself : ∃ (c : Conf Nat Nat) (t : Tid), Conf.Reach (COsl.execS c200) Conf.init c ∧ c.WaitsFor t t := by
  have h : (Conf.trace (COsl.execS c200) 20 oSelfBlock).map (fun c => c.blocks 2 2) = some true := by decide +kernel
  rw [Option.map_eq_some_iff] at h
  obtain ⟨c, h1, h2⟩ := h
  exact ⟨c, 2, Conf.trace_reach h1, Conf.waitsFor_of_blocks h2⟩

/-- OSL: thread 0 splits the leaf, thread 2 waits for it, thread 1 scans next to both. -/
def oslQueue : List (Sched Nat Nat) :=
  [.inv 0 (.write 0 0), .go 0 11, .res 0, .inv 0 (.write 20 20), .go 0 11, .res 0, .inv 0 (.write 40 40), .go 0 11, .res 0,
   .inv 0 (.write 60 60), .go 0 11, .res 0, .inv 1 (.scan none none), .go 1 4, .inv 0 (.write 80 80), .go 0 14, .inv 2 (.write 5 5), .go 2 5]

/-- The hypotheses of C47, C48 and C49 for OSL. -/
example : ∃ c : Conf Nat Nat, Roomy c200 8 ∧ c200.blink = true ∧ Conf.Reach (COsl.execS c200) Conf.init c ∧ c.WaitsFor 2 0 ∧
    Pending c.hist 1 (.scan none none) ∧ ¬ Writes (.scan none none : Op Nat Nat) ∧ ∀ t k, .inv t (.delete k) ∉ c.hist := by
  have h : (Conf.trace (COsl.execS c200) 20 oslQueue).map (fun c => decide (c.blocks 2 0 = true ∧
      c.hist[8]? = some (.inv 1 (.scan none none)) ∧
      (c.hist.drop 9).all (fun x => match x with | .res t' _ => t' != 1 | _ => true) = true ∧
      c.hist.all (fun x => match x with | .inv _ (.delete _) => false | _ => true) = true)) = some true := by decide +kernel
  rw [Option.map_eq_some_iff] at h
  obtain ⟨c, h1, h2⟩ := h
  obtain ⟨h2, h4, h5, h6⟩ := of_decide_eq_true h2
  refine ⟨c, c200_roomy, rfl, Conf.trace_reach h1, Conf.waitsFor_of_blocks h2, pending_at 8 h4 h5, id, fun t k hm => ?_⟩
  simpa using List.all_eq_true.1 h6 _ hm

/-- OML: thread 0 holds the leaf to write into it, thread 2 waits for it, thread 1 scans. -/
def omlQueue : List (Sched Nat Nat) :=
  [.inv 0 (.write 0 0), .go 0 22, .res 0, .inv 0 (.write 20 20), .go 0 21, .res 0, .inv 0 (.write 40 40), .go 0 21, .res 0,
   .inv 0 (.write 60 60), .go 0 21, .res 0, .inv 1 (.scan none none), .go 1 4, .inv 0 (.write 80 80), .go 0 18, .inv 2 (.write 5 5), .go 2 16]

/-- The hypotheses of C47 and C48 for OML. -/
example : ∃ c : Conf Nat Nat, Conf.Reach (COml.execS c120 (fun _ _ => 0)) Conf.init c ∧ c.WaitsFor 2 0 ∧
    Pending c.hist 1 (.scan none none) ∧ ¬ Writes (.scan none none : Op Nat Nat) := by
  have h : (Conf.trace (COml.execS c120 (fun _ _ => 0)) 20 omlQueue).map (fun c => decide (c.blocks 2 0 = true ∧
      c.hist[8]? = some (.inv 1 (.scan none none)) ∧
      (c.hist.drop 9).all (fun x => match x with | .res t' _ => t' != 1 | _ => true) = true)) = some true := by decide +kernel
  rw [Option.map_eq_some_iff] at h
  obtain ⟨c, h1, h2⟩ := h
  obtain ⟨h2, h4, h5⟩ := of_decide_eq_true h2
  exact ⟨c, Conf.trace_reach h1, Conf.waitsFor_of_blocks h2, pending_at 8 h4 h5, id⟩

/-- The hypotheses of `C47_pml_writers_locks_released`. -/
example : ∃ c : Conf Nat Nat, Conf.Reach (CPml.exec c120) Conf.initPml c ∧ (∀ t k, Ev.inv t (.read k) ∉ c.hist) ∧
    (∀ t b e, Ev.inv t (.scan b e) ∉ c.hist) ∧ c.WaitsFor 0 1 := by
  have h : (Conf.cmds (CPml.exec c120) 20 [.inv 0 (.write 0 0), .go 0 13, .res 0, .inv 1 (.write 10 10), .go 1 4, .inv 0 (.delete 0)]
      Conf.initPml).map (fun c => decide (c.blocks 0 1 = true ∧
      c.hist = [.inv 0 (.write 0 0), .res 0 (.code .success), .inv 1 (.write 10 10), .inv 0 (.delete 0)])) = some true := by decide +kernel
  rw [Option.map_eq_some_iff] at h
  obtain ⟨c, h1, h2⟩ := h
  obtain ⟨h2, h3⟩ := of_decide_eq_true h2
  exact ⟨c, Conf.cmds_reach .refl h1, by simp [h3], by simp [h3], Conf.waitsFor_of_blocks h2⟩

/-- C48 is false of PML: a scan makes a writer wait.  The hypotheses of C47 for PML hold here. -/
theorem C48_pml_scan_blocks_writer : ∃ (c : Conf Nat Nat) (t u : Tid), Conf.Reach (CPml.exec c120) Conf.initPml c ∧
    c.mem.raced = false ∧ Pending c.hist u (.scan none none) ∧ c.WaitsFor t u := by
  have h : (Conf.cmds (CPml.exec c120) 20 [.inv 0 (.write 0 0), .go 0 13, .res 0, .inv 1 (.scan none none), .go 1 4, .inv 0 (.write 20 20), .go 0 9]
      Conf.initPml).map (fun c => decide (c.blocks 0 1 = true ∧ c.mem.raced = false ∧ c.hist[2]? = some (.inv 1 (.scan none none)) ∧
      (c.hist.drop 3).all (fun x => match x with | .res t' _ => t' != 1 | _ => true) = true)) = some true := by decide +kernel
  rw [Option.map_eq_some_iff] at h
  obtain ⟨c, h1, h2⟩ := h
  obtain ⟨h2, h3, h4, h5⟩ := of_decide_eq_true h2
  exact ⟨c, 0, 1, Conf.cmds_reach .refl h1, h3, pending_at 2 h4 h5, Conf.waitsFor_of_blocks h2⟩

end BT
