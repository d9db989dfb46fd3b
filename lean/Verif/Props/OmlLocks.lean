import Verif.OmlLive
import Verif.Props.Locks
import Verif.Props.Loaded

/-!
# C55: OML does not deadlock

The words of the claim are those of C49: `WaitsFor`, `Waiting` and `Pending` (`Conc.lean`, `SpecConc.lean`).
-/

namespace BT
open Spec Relation
variable {K V : Type} [LinearOrder K] {cfg : Cfg K} {L : Nat} {junk : Node K V → Node K V → K} {c : Conf K V} {key : Option K}
  {bc : BulkCfg} {s : St K V} {m : Map K V}

theorem oml_lockfree (fuel : Nat) (op : Op K V) (ho : ¬ Writes op) : (COml.execS cfg junk fuel op : Prog K V _).Lockfree := by
  cases op with
  | read k => exact Prog.Lockfree.bind COml.read_lf fun _ => trivial
  | scan b e => exact Prog.Lockfree.bind COml.scan_lf fun _ => trivial
  | _ => exact absurd trivial ho

/-- C55: threads never wait for each other in a cycle, in particular no call waits for itself, and whoever waits, waits (directly or through
others) for a thread that is in the middle of a call and need not wait.  Missing: executions that merge pages, remove the root, or overwrite
the root pointer. -/
theorem C55_oml_no_deadlock_partial (hr : Roomy cfg L) (hb : cfg.blink = false) (hc : Conf.Reach (COml.execS cfg junk) Conf.init c)
    (hn : c.mem.raced = false) (t : Tid) :
    ¬ TransGen c.WaitsFor t t ∧ (c.Waiting t → ∃ u op, TransGen c.WaitsFor t u ∧ Pending c.hist u op ∧ ¬ c.Waiting u) := by
  obtain ⟨hv, hk⟩ := COml.ranked hr hb (sim_start cfg) (VInv.init trivial) oml_lockfree (fun _ => rfl) hc hn
  exact ⟨hk.acyclic, hv.progress hk⟩

/-- C55 on trees that earlier calls and bulkloads have built.  Missing: as above. -/
theorem C55_oml_loaded_no_deadlock_partial (ha : (Variant.oml key).Admissible cfg) (hb : cfg.blink = false) (hbk : BulkRoomy cfg bc)
    (hs : Built (.oml key) cfg bc s m) (hc : Conf.Reach (COml.execS cfg junk) (Conf.start s) c) (hn : c.mem.raced = false) (t : Tid) :
    ¬ TransGen c.WaitsFor t t ∧ (c.Waiting t → ∃ u op, TransGen c.WaitsFor t u ∧ Pending c.hist u op ∧ ¬ c.Waiting u) := by
  have hi := hs.inv ha hbk
  obtain ⟨L, hr, -⟩ := ha
  obtain ⟨hv, hk⟩ := COml.ranked hr hb hi.sim hi.locksO oml_lockfree (fun _ => rfl) hc hn
  exact ⟨hk.acyclic, hv.progress hk⟩

/-! ## Examples -/

/-- The hypotheses of C55 are met while thread 2 waits for thread 0 and thread 1 scans. -/
example : ∃ c : Conf Nat Nat, Roomy c120 8 ∧ c120.blink = false ∧ Conf.Reach (COml.execS c120 (fun _ _ => 0)) Conf.init c ∧
    c.mem.raced = false ∧ c.WaitsFor 2 0 ∧ Pending c.hist 1 (.scan none none) := by
  have h : (Conf.trace (COml.execS c120 (fun _ _ => 0)) 20 omlQueue).map (fun c => decide (c.mem.raced = false ∧ c.blocks 2 0 = true ∧
      c.hist[8]? = some (.inv 1 (.scan none none)) ∧
      (c.hist.drop 9).all (fun x => match x with | .res t' _ => t' != 1 | _ => true) = true)) = some true := by decide +kernel
  rw [Option.map_eq_some_iff] at h
  obtain ⟨c, h1, h2⟩ := h
  obtain ⟨h2, h3, h4, h5⟩ := of_decide_eq_true h2
  exact ⟨c, c120_roomy, rfl, Conf.trace_reach h1, h2, Conf.waitsFor_of_blocks h3, pending_at 8 h4 h5⟩

/-- The same on a loaded tree: thread 0 splits a leaf, thread 2 wants to delete from it and waits, thread 1 scans. -/
example : ∃ (s : St Nat Nat) (m : Map Nat Nat) (c : Conf Nat Nat), (Variant.oml none : Variant Nat).Admissible c120 ∧ c120.blink = false ∧ BulkRoomy c120 bulk8 ∧
    Built (.oml none : Variant Nat) c120 bulk8 s m ∧ Conf.Reach (COml.execS c120 (fun _ _ => 0)) (Conf.start s) c ∧ c.mem.raced = false ∧
    c.WaitsFor 2 0 ∧ Pending c.hist 1 (.scan none none) := by
  have h : (loadTrace (.oml none) c120 (COml.execS c120 (fun _ _ => 0)) [.inv 1 (.scan none none), .go 1 5, .inv 0 (.write 76 76), .go 0 34,
      .res 0, .inv 0 (.write 77 77), .go 0 34, .res 0, .inv 0 (.write 78 78), .go 0 24, .inv 2 (.delete 75), .go 2 18]).map
      (fun c => decide (c.mem.raced = false ∧ c.blocks 2 0 = true ∧ c.hist[0]? = some (.inv 1 (.scan none none)) ∧
      (c.hist.drop 1).all (fun x => match x with | .res t' _ => t' != 1 | _ => true) = true)) = some true := by decide +kernel
  rw [Option.map_eq_some_iff] at h
  obtain ⟨c, h1, h2⟩ := h
  obtain ⟨h2, h3, h4, h5⟩ := of_decide_eq_true h2
  have ha : (Variant.oml none : Variant Nat).Admissible c120 := ⟨8, c120_roomy, c120_room⟩
  obtain ⟨s, m, b1, b2⟩ := loadTrace_reach ha c120_bulk h1
  exact ⟨s, m, c, ha, rfl, c120_bulk, b1, b2, h2, Conf.waitsFor_of_blocks h3, pending_at 0 h4 h5⟩

end BT
