import Verif.DropScans
import Verif.PslScanOk
import Verif.Props.Locks
import Verif.Props.Solo

/-!
# One writer at a time does not deadlock (C50)

Calls that can change the map do not overlap; any number of `Read`s and `Scan`s run at the same time.  `Delete`s are allowed.
-/

set_option linter.unusedSectionVars false

namespace BT
open Spec Relation
variable {K V : Type} [LinearOrder K] {cfg : Cfg K} {L : Nat} {c : Conf K V} {t u : Tid}

theorem psl_solo (hr : Roomy cfg L) (hb : cfg.blink = true) {m0 : Map K V} {c0 : Conf K V} (h0 : SoloSim cfg m0 c0)
    (hv : VInv (bp cfg false) (fun _ => False) c0) (ht : ∀ t, c0.thr t = none)
    (hc : Conf.Reach (CPsl.execS cfg) c0 c) (ho : OneWriter c.hist) : c.Ranked :=
  solo_ranked (CPsl.idleS hr hb hv hc) rfl
    (solo_sim (CPsl.execS_ok hr hb) h0 (fun _ h => (CPsl.idleS hr hb hv h).idleFree) hc ho).asking
    (Conf.Readers.reach CPsl.execS_sh ht (fun _ h => (CPsl.idleS hr hb hv h).idleFree) hc) ho

theorem osl_solo (hr : Roomy cfg L) (hb : cfg.blink = true) {m0 : Map K V} {c0 : Conf K V} (h0 : SoloSim cfg m0 c0)
    (hi : ∀ ro, VInv (bp cfg false) ro c0) (ht : ∀ t, c0.thr t = none) (hh : c0.hist = [])
    (hc : Conf.Reach (COsl.execS cfg) c0 c) (ho : OneWriter c.hist) : c.Ranked := by
  obtain ⟨c', h1, h2, h3⟩ := drop_scans COsl.adds ht hh hc
  have hv : ∀ {c : Conf K V}, Conf.Reach (COsl.execS cfg) c0 c → _ := fun h => osl_inv hr hb (hi _) h
  refine solo_ranked (cfg := cfg) (hv hc) rfl (h1.asking ?_) (Conf.Readers.reach (fun fuel op h => ?_) ht (fun _ h => (hv h).idleFree) hc) ho
  · exact (solo_sim (COsl.exec_ok hr hb) h0 (fun _ h => (COsl.idle hr hb (hi _) h).idleFree) h2 (h3 ho)).asking
  · cases op with
    | read k => exact Prog.Sharing.bind (.of COsl.read_lf) fun _ => trivial
    | scan b e => exact Prog.Sharing.bind (.of COsl.scan_lf) fun _ => trivial
    | _ => exact absurd trivial h

/-- C50 for PSL: threads never wait for each other in a circle, and whoever waits, waits (directly or through others) for a thread that is in
the middle of a call and need not wait. -/
theorem C50_psl_one_writer_no_deadlock (hr : Roomy cfg L) (hb : cfg.blink = true) (hc : Conf.Reach (CPsl.execS cfg) Conf.init c)
    (ho : OneWriter c.hist) (t : Tid) :
    ¬ TransGen c.WaitsFor t t ∧ (c.Waiting t → ∃ u op, TransGen c.WaitsFor t u ∧ Pending c.hist u op ∧ ¬ c.Waiting u) :=
  ⟨(psl_solo hr hb (SoloSim.start hb) (VInv.init (SizeW.empty _)) (fun _ => rfl) hc ho).acyclic, (CPsl.idleS hr hb (VInv.init (SizeW.empty _)) hc).progress (psl_solo hr hb (SoloSim.start hb) (VInv.init (SizeW.empty _)) (fun _ => rfl) hc ho)⟩

/-- C50 for OSL. -/
theorem C50_osl_one_writer_no_deadlock (hr : Roomy cfg L) (hb : cfg.blink = true) (hc : Conf.Reach (COsl.execS cfg) Conf.init c)
    (ho : OneWriter c.hist) (t : Tid) :
    ¬ TransGen c.WaitsFor t t ∧ (c.Waiting t → ∃ u op, TransGen c.WaitsFor t u ∧ Pending c.hist u op ∧ ¬ c.Waiting u) :=
  ⟨(osl_solo hr hb (SoloSim.start hb) (fun _ => VInv.init (SizeW.empty _)) (fun _ => rfl) rfl hc ho).acyclic, (osl_inv hr hb (VInv.init (SizeW.empty _)) hc).progress (osl_solo hr hb (SoloSim.start hb) (fun _ => VInv.init (SizeW.empty _)) (fun _ => rfl) rfl hc ho)⟩

/-- C44 for OSL, with scans: scans do not disturb the other calls.  The history without the scans is linearizable, and nothing but a scan runs
into undefined behaviour. -/
theorem C44_osl_one_writer_next_to_scans (hr : Roomy cfg L) (hb : cfg.blink = true) (hc : Conf.Reach (COsl.execS cfg) Conf.init c)
    (ho : OneWriter c.hist) : Linearizable (c.hist.filter Ev.point) ∧ ∀ t, c.thr t = some .ub → ∃ b e, Pending c.hist t (.scan b e) := by
  obtain ⟨c', h1, h2, h3⟩ := drop_scans COsl.adds (fun _ => rfl) rfl hc
  refine ⟨?_, fun t => h1.bad (C44_osl_one_writer_no_crash hr hb h2 (h3 ho))⟩
  rw [← h1.hist]
  exact C44_osl_one_writer_linearizable hr hb h2 (h3 ho)

/-- C28 for PSL: a thread that merges does not wait for itself.  Missing: executions with several writers (false,
`C28_psl_merge_blocks_itself`). -/
theorem C28_psl_no_self_wait_partial (hr : Roomy cfg L) (hb : cfg.blink = true) (hc : Conf.Reach (CPsl.execS cfg) Conf.init c)
    (ho : OneWriter c.hist) (t : Tid) : ¬ c.WaitsFor t t :=
  fun h => (psl_solo hr hb (SoloSim.start hb) (VInv.init (SizeW.empty _)) (fun _ => rfl) hc ho).acyclic (.single h)

/-- C28 for OSL.  Missing: executions with several writers (false, `C28_osl_merge_blocks_itself`). -/
theorem C28_osl_no_self_wait_partial (hr : Roomy cfg L) (hb : cfg.blink = true) (hc : Conf.Reach (COsl.execS cfg) Conf.init c)
    (ho : OneWriter c.hist) (t : Tid) : ¬ c.WaitsFor t t :=
  fun h => (osl_solo hr hb (SoloSim.start hb) (fun _ => VInv.init (SizeW.empty _)) (fun _ => rfl) rfl hc ho).acyclic (.single h)

/-! Configurations that meet the hypotheses. -/

/-- PSL: thread 0 deletes key 20 and merges the left leaf with the right one, in which the scan of thread 1 is. -/
example : ∃ c : Conf Nat Nat, Roomy c200 8 ∧ c200.blink = true ∧ Conf.Reach (CPsl.execS c200) Conf.init c ∧ OneWriter c.hist ∧
    c.WaitsFor 0 1 ∧ Pending c.hist 0 (.delete 20) := by
  have h : (Conf.trace (CPsl.execS c200) 20 [.inv 0 (.write 0 0), .go 0 9, .res 0, .inv 0 (.write 20 20), .go 0 9, .res 0,
      .inv 0 (.write 40 40), .go 0 9, .res 0, .inv 0 (.write 60 60), .go 0 9, .res 0, .inv 0 (.write 80 80), .go 0 27, .res 0,
      .inv 0 (.delete 0), .go 0 13, .res 0, .inv 1 (.scan (some (60, true)) none), .go 1 7, .inv 0 (.delete 20), .go 0 27]).map
      (fun c => decide (oneWriterFrom none c.hist = true ∧ c.blocks 0 1 = true ∧ c.hist[13]? = some (.inv 0 (.delete 20)) ∧
      (c.hist.drop 14).all (fun x => match x with | .res t' _ => t' != 0 | _ => true) = true)) = some true := by decide +kernel
  rw [Option.map_eq_some_iff] at h
  obtain ⟨c, h1, h2⟩ := h
  obtain ⟨h2, h3, h4, h5⟩ := of_decide_eq_true h2
  exact ⟨c, c200_roomy, rfl, Conf.trace_reach h1, oneWriter_of_check h2, Conf.waitsFor_of_blocks h3, pending_at 13 h4 h5⟩

/-- OSL: thread 2 waits for thread 0, which deletes key 20, while thread 1 scans. -/
example : ∃ c : Conf Nat Nat, Roomy c200 8 ∧ c200.blink = true ∧ Conf.Reach (COsl.execS c200) Conf.init c ∧ OneWriter c.hist ∧
    c.WaitsFor 2 0 ∧ Pending c.hist 0 (.delete 20) ∧ Pending c.hist 1 (.scan (some (60, true)) none) := by
  have h : (Conf.trace (COsl.execS c200) 20 [.inv 0 (.write 0 0), .go 0 11, .res 0, .inv 0 (.write 20 20), .go 0 11, .res 0,
      .inv 0 (.write 40 40), .go 0 11, .res 0, .inv 0 (.write 60 60), .go 0 11, .res 0, .inv 0 (.write 80 80), .go 0 28, .res 0,
      .inv 0 (.delete 0), .go 0 18, .res 0, .inv 1 (.scan (some (60, true)) none), .go 1 4, .inv 0 (.delete 20), .go 0 17,
      .inv 2 (.read 20), .go 2 9]).map
      (fun c => decide (oneWriterFrom none c.hist = true ∧ c.blocks 2 0 = true ∧ c.hist[13]? = some (.inv 0 (.delete 20)) ∧
      (c.hist.drop 14).all (fun x => match x with | .res t' _ => t' != 0 | _ => true) = true ∧
      c.hist[12]? = some (.inv 1 (.scan (some (60, true)) none)) ∧
      (c.hist.drop 13).all (fun x => match x with | .res t' _ => t' != 1 | _ => true) = true)) = some true := by decide +kernel
  rw [Option.map_eq_some_iff] at h
  obtain ⟨c, h1, h2⟩ := h
  obtain ⟨h2, h3, h4, h5, h6, h7⟩ := of_decide_eq_true h2
  exact ⟨c, c200_roomy, rfl, Conf.trace_reach h1, oneWriter_of_check h2, Conf.waitsFor_of_blocks h3, pending_at 13 h4 h5, pending_at 12 h6 h7⟩

end BT
