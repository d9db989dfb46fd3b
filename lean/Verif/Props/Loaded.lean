import Verif.LoadRun
import Verif.SpecLoad
import Verif.Props.OmlGood
import Verif.Props.OptScan
import Verif.Props.PslScan
import Verif.Props.SoloLocks
import Verif.Props.Bulk

/-!
# An index that has been loaded before the threads start (C51, C52)

`Built v cfg bc s m`: one thread has called the index `v` any number of times (bulkloads among the calls), the memory is `s` now, and a map has
the contents `m` after these calls.  Then any number of threads start.  The trees are of any height and size, pages that a bulkload has
leaked are still around.
-/

set_option linter.unusedSectionVars false

namespace BT
open Spec Relation
variable {K V : Type} [LinearOrder K] {cfg : Cfg K} {bc : BulkCfg} {s : St K V} {m : Map K V} {c : Conf K V} {key : Option K}
  {junk : Node K V → Node K V → K}

/-! ## C51 -/

/-- C51 for PSL, without scans.  Missing: executions with one of the situations of `C22_psl_linearizable_partial`. -/
theorem C51_psl_loaded_partial (ha : Variant.psl.Admissible cfg) (hbk : BulkRoomy cfg bc) (hs : Built .psl cfg bc s m)
    (hc : Conf.Reach (CPsl.exec cfg) (Conf.start s) c) (hn : c.mem.raced = false) :
    LinearizableFrom m c.hist ∧ ¬ c.Bad ∧ ¬ LosesWrite c.hist ∧ ¬ Forgets m c.hist := by
  have hi := hs.inv ha hbk
  obtain ⟨L, hr, hb⟩ := ha
  obtain ⟨h1, h2⟩ := CPsl.linearizable hr hb hi.sim (fun _ => rfl) rfl hc hn
  exact ⟨h2, h1, fun h => h.not_linearizable h2, h2.partwise.remembers.1⟩

/-- C51 for OSL, without scans.  Missing: executions with one of the situations of `C23_osl_linearizable_partial`. -/
theorem C51_osl_loaded_partial (ha : (Variant.osl key).Admissible cfg) (hbk : BulkRoomy cfg bc) (hs : Built (.osl key) cfg bc s m)
    (hc : Conf.Reach (COsl.exec cfg) (Conf.start s) c) (hn : c.mem.raced = false) :
    LinearizableFrom m c.hist ∧ ¬ c.Bad ∧ ¬ LosesWrite c.hist ∧ ¬ Forgets m c.hist := by
  have hi := hs.inv ha hbk
  obtain ⟨L, hr, hb⟩ := ha
  obtain ⟨h1, h2⟩ := COsl.linearizable hr hb hi.sim (fun _ => rfl) rfl hc hn
  exact ⟨h2, h1, fun h => h.not_linearizable h2, h2.partwise.remembers.1⟩

/-- C51 for OML, without scans.  Missing: executions with one of the situations of `C25_oml_linearizable_partial`. -/
theorem C51_oml_loaded_partial (ha : (Variant.oml key).Admissible cfg) (hb : cfg.blink = false) (hbk : BulkRoomy cfg bc)
    (hs : Built (.oml key) cfg bc s m) (hc : Conf.Reach (COml.exec cfg junk) (Conf.start s) c) (hn : c.mem.raced = false) :
    LinearizableFrom m c.hist ∧ ¬ c.Bad ∧ ¬ LosesWrite c.hist ∧ ¬ Forgets m c.hist := by
  have hi := hs.inv ha hbk
  obtain ⟨L, hr, -⟩ := ha
  obtain ⟨h1, h2⟩ := COml.linearizable hr hb hi.sim (fun _ => rfl) rfl hc hn
  exact ⟨h2, h1, fun h => h.not_linearizable h2, h2.partwise.remembers.1⟩

/-- C51 for PSL, with scans.  Missing: executions with one of the situations of `C34_psl_scans_partial`. -/
theorem C51_psl_loaded_scans_partial (ha : Variant.psl.Admissible cfg) (hbk : BulkRoomy cfg bc) (hs : Built .psl cfg bc s m)
    (hc : Conf.Reach (CPsl.execS cfg) (Conf.start s) c) (hn : c.mem.raced = false) :
    PartwiseLinearizableFrom m c.hist ∧ ¬ c.Bad ∧ (¬ LosesWrite c.hist ∧ ¬ ScanMisses c.hist ∧ ¬ ScanRepeats c.hist) ∧
      ¬ Forgets m c.hist ∧ ¬ ScanForgets m c.hist := by
  have hi := hs.inv ha hbk
  obtain ⟨L, hr, hb⟩ := ha
  obtain ⟨h1, h2⟩ := CPsl.partwise hr hb hi.sim hc hn
  exact ⟨h2, h1, h2.facts, h2.remembers⟩

/-- C51 for OSL, with scans.  Missing: executions with one of the situations of `C34_osl_scans_partial`. -/
theorem C51_osl_loaded_scans_partial (ha : (Variant.osl key).Admissible cfg) (hbk : BulkRoomy cfg bc) (hs : Built (.osl key) cfg bc s m)
    (hc : Conf.Reach (COsl.execS cfg) (Conf.start s) c) (hn : c.mem.raced = false) :
    PartwiseLinearizableFrom m c.hist ∧ ¬ c.Bad ∧ (¬ LosesWrite c.hist ∧ ¬ ScanMisses c.hist ∧ ¬ ScanRepeats c.hist) ∧
      ¬ Forgets m c.hist ∧ ¬ ScanForgets m c.hist := by
  have hi := hs.inv ha hbk
  obtain ⟨L, hr, hb⟩ := ha
  obtain ⟨h1, h2⟩ := COsl.partwise hr hb hi.sim hc hn
  exact ⟨h2, h1, h2.facts, h2.remembers⟩

/-- C51 for OML, with scans.  Missing: executions with one of the situations of `C34_oml_scans_partial`. -/
theorem C51_oml_loaded_scans_partial (ha : (Variant.oml key).Admissible cfg) (hb : cfg.blink = false) (hbk : BulkRoomy cfg bc)
    (hs : Built (.oml key) cfg bc s m) (hc : Conf.Reach (COml.execS cfg junk) (Conf.start s) c) (hn : c.mem.raced = false) :
    PartwiseLinearizableFrom m c.hist ∧ ¬ c.Bad ∧ (¬ LosesWrite c.hist ∧ ¬ ScanMisses c.hist ∧ ¬ ScanRepeats c.hist) ∧
      ¬ Forgets m c.hist ∧ ¬ ScanForgets m c.hist := by
  have hi := hs.inv ha hbk
  obtain ⟨L, hr, -⟩ := ha
  obtain ⟨h1, h2⟩ := COml.partwise hr hb hi.sim hc hn
  exact ⟨h2, h1, h2.facts, h2.remembers⟩

/-- C51 for PSL: threads do not wait for each other in a cycle.  Missing: executions with `Delete` (false, `C28_psl_merge_blocks_itself`). -/
theorem C51_psl_loaded_no_deadlock_partial (ha : Variant.psl.Admissible cfg) (hbk : BulkRoomy cfg bc) (hs : Built .psl cfg bc s m)
    (hc : Conf.Reach (CPsl.execS cfg) (Conf.start s) c) (hd : ∀ t k, .inv t (.delete k) ∉ c.hist) (t : Tid) :
    ¬ TransGen c.WaitsFor t t ∧ (c.Waiting t → ∃ u op, TransGen c.WaitsFor t u ∧ Pending c.hist u op ∧ ¬ c.Waiting u) := by
  have hi := hs.inv ha hbk
  obtain ⟨L, hr, hb⟩ := ha
  have hv := psl_ord hr hb hi.locks hc hd
  exact ⟨(hv.ranked rfl rfl).acyclic, hv.progress (hv.ranked rfl rfl)⟩

/-- C51 for OSL: threads do not wait for each other in a cycle.  Missing: executions with `Delete` (false, `C28_osl_merge_blocks_itself`). -/
theorem C51_osl_loaded_no_deadlock_partial (ha : (Variant.osl key).Admissible cfg) (hbk : BulkRoomy cfg bc) (hs : Built (.osl key) cfg bc s m)
    (hc : Conf.Reach (COsl.execS cfg) (Conf.start s) c) (hd : ∀ t k, .inv t (.delete k) ∉ c.hist) (t : Tid) :
    ¬ TransGen c.WaitsFor t t ∧ (c.Waiting t → ∃ u op, TransGen c.WaitsFor t u ∧ Pending c.hist u op ∧ ¬ c.Waiting u) := by
  have hi := hs.inv ha hbk
  obtain ⟨L, hr, hb⟩ := ha
  have hv := osl_ord hr hb hi.locks hc hd
  exact ⟨(hv.ranked rfl rfl).acyclic, hv.progress (hv.ranked rfl rfl)⟩

/-! ## C52: one writer at a time -/

/-- C52 for PSL: with one writer at a time, and any number of threads that read and scan, nothing has to be excluded. -/
theorem C52_psl_loaded_one_writer (ha : Variant.psl.Admissible cfg) (hbk : BulkRoomy cfg bc) (hs : Built .psl cfg bc s m)
    (hc : Conf.Reach (CPsl.execS cfg) (Conf.start s) c) (ho : OneWriter c.hist) :
    PartwiseLinearizableFrom m c.hist ∧ ¬ c.Bad ∧ (¬ LosesWrite c.hist ∧ ¬ ScanMisses c.hist ∧ ¬ ScanRepeats c.hist) ∧
      ¬ Forgets m c.hist ∧ ¬ ScanForgets m c.hist := by
  have hi := hs.inv ha hbk
  obtain ⟨L, hr, hb⟩ := ha
  obtain ⟨-, h1, h2⟩ := solo_partwise (CPsl.execS_ok hr hb) (hi.solo hb) (fun _ h => (CPsl.idleS hr hb hi.locks h).idleFree) hc ho
  exact ⟨h2, h1, h2.facts, h2.remembers⟩

/-- C52 for PSL: without scans the histories are linearizable. -/
theorem C52_psl_loaded_one_writer_linearizable (ha : Variant.psl.Admissible cfg) (hbk : BulkRoomy cfg bc) (hs : Built .psl cfg bc s m)
    (hc : Conf.Reach (CPsl.exec cfg) (Conf.start s) c) (ho : OneWriter c.hist) : LinearizableFrom m c.hist ∧ ¬ c.Bad := by
  have hi := hs.inv ha hbk
  obtain ⟨L, hr, hb⟩ := ha
  obtain ⟨-, h1, h2⟩ := solo_ok (CPsl.exec_ok hr hb) (CPsl.exec_noRecs cfg) (hi.solo hb) (fun _ => rfl) rfl
    (fun _ h => (CPsl.idle hr hb hi.locks h).idleFree) hc ho
  exact ⟨h2, h1⟩

theorem osl_loaded (ha : (Variant.osl key).Admissible cfg) (hbk : BulkRoomy cfg bc) (hs : Built (.osl key) cfg bc s m)
    (hc : Conf.Reach (COsl.exec cfg) (Conf.start s) c) (ho : OneWriter c.hist) : LinearizableFrom m c.hist ∧ ¬ c.Bad := by
  have hi := hs.inv ha hbk
  obtain ⟨L, hr, hb⟩ := ha
  obtain ⟨-, h1, h2⟩ := solo_ok (COsl.exec_ok hr hb) (COsl.exec_noRecs cfg) (hi.solo hb) (fun _ => rfl) rfl
    (fun _ h => (COsl.idle hr hb hi.locks h).idleFree) hc ho
  exact ⟨h2, h1⟩

/-- C52 for OSL: with one writer at a time, and any number of threads that read and scan, the history without the scans is linearizable, no
write and no record that was there at first is lost, and nothing but a scan runs into undefined behaviour. -/
theorem C52_osl_loaded_one_writer (ha : (Variant.osl key).Admissible cfg) (hbk : BulkRoomy cfg bc) (hs : Built (.osl key) cfg bc s m)
    (hc : Conf.Reach (COsl.execS cfg) (Conf.start s) c) (ho : OneWriter c.hist) :
    LinearizableFrom m (c.hist.filter Ev.point) ∧ ¬ LosesWrite (c.hist.filter Ev.point) ∧ ¬ Forgets m (c.hist.filter Ev.point) ∧
      ∀ t, c.thr t = some .ub → ∃ b e, Pending c.hist t (.scan b e) := by
  obtain ⟨c', h1, h2, h3⟩ := drop_scans COsl.adds (fun _ => rfl) rfl hc
  obtain ⟨h4, h5⟩ := osl_loaded ha hbk hs h2 (h3 ho)
  rw [h1.hist] at h4
  exact ⟨h4, fun h => h.not_linearizable h4, h4.partwise.remembers.1, fun t => h1.bad h5⟩

/-- C52 for PSL: threads do not wait for each other in a cycle. -/
theorem C52_psl_loaded_one_writer_no_deadlock (ha : Variant.psl.Admissible cfg) (hbk : BulkRoomy cfg bc) (hs : Built .psl cfg bc s m)
    (hc : Conf.Reach (CPsl.execS cfg) (Conf.start s) c) (ho : OneWriter c.hist) (t : Tid) :
    ¬ TransGen c.WaitsFor t t ∧ (c.Waiting t → ∃ u op, TransGen c.WaitsFor t u ∧ Pending c.hist u op ∧ ¬ c.Waiting u) := by
  have hi := hs.inv ha hbk
  obtain ⟨L, hr, hb⟩ := ha
  have h := psl_solo hr hb (hi.solo hb) hi.locks (fun _ => rfl) hc ho
  exact ⟨h.acyclic, (CPsl.idleS hr hb hi.locks hc).progress h⟩

/-- C52 for OSL: threads do not wait for each other in a cycle. -/
theorem C52_osl_loaded_one_writer_no_deadlock (ha : (Variant.osl key).Admissible cfg) (hbk : BulkRoomy cfg bc)
    (hs : Built (.osl key) cfg bc s m) (hc : Conf.Reach (COsl.execS cfg) (Conf.start s) c) (ho : OneWriter c.hist) (t : Tid) :
    ¬ TransGen c.WaitsFor t t ∧ (c.Waiting t → ∃ u op, TransGen c.WaitsFor t u ∧ Pending c.hist u op ∧ ¬ c.Waiting u) := by
  have hi := hs.inv ha hbk
  obtain ⟨L, hr, hb⟩ := ha
  have h := osl_solo hr hb (hi.solo hb) (fun _ => hi.locks) (fun _ => rfl) rfl hc ho
  exact ⟨h.acyclic, (osl_inv hr hb hi.locks hc).progress h⟩

/-! ## Configurations that meet the hypotheses

One thread writes, bulkloads (which leaks the page of the first write), deletes and writes again.  Then three threads start: one deletes what is
left in the left leaf, and OSL and PSL merge the leaves under the two others, which read and scan. -/

theorem c200_bulk : BulkRoomy c200 bulk8 where
  cap := by simp [bulk8, c200, fixCfg]
  key k := by simp [Cfg.klen, c200, fixCfg]
  leaf k := by simp [bulkRec, Cfg.klen, Cfg.plen, Cfg.mlen, c200, fixCfg, bulk8]
  inner k k' := by simp [bulkRec, Cfg.klen, Cfg.plen, Cfg.mlen, c200, fixCfg, bulk8]
  innerCap := by simp [bulk8]

theorem c120_bulk : BulkRoomy c120 bulk8 where
  cap := by simp [bulk8, c120, fixCfg]
  key k := by simp [Cfg.klen, c120, fixCfg]
  leaf k := by simp [bulkRec, Cfg.klen, Cfg.plen, Cfg.mlen, c120, fixCfg, bulk8]
  inner k k' := by simp [bulkRec, Cfg.klen, Cfg.plen, Cfg.mlen, c120, fixCfg, bulk8]
  innerCap := by simp [bulk8]

def loadCmds : List (Cmd Nat Nat) :=
  [.call (.write 5 5), .bulkload [(0, 0), (10, 10), (20, 20), (30, 30), (40, 40), (50, 50), (60, 60), (70, 70)] 2, .call (.delete 0),
   .call (.write 75 75)]

/-- The memory after `loadCmds`, and then the schedule `sched`. -/
def loadTrace (v : Variant Nat) (cfg : Cfg Nat) (I : CImpl Nat Nat) (sched : List (Sched Nat Nat)) : Option (Conf Nat Nat) :=
  match (v.impl cfg).runB cfg bulk8 40 loadCmds initSt with
  | .ok (_, s) => Conf.cmds I 20 sched (Conf.start s)
  | _ => none

theorem loadTrace_reach {v : Variant Nat} {cfg : Cfg Nat} {I : CImpl Nat Nat} {sched : List (Sched Nat Nat)} {c : Conf Nat Nat}
    (ha : v.Admissible cfg) (hb : BulkRoomy cfg bulk8) (h : loadTrace v cfg I sched = some c) :
    ∃ s m, Built v cfg bulk8 s m ∧ Conf.Reach I (Conf.start s) c := by
  unfold loadTrace at h
  split at h
  · next o s e =>
    have hok : ∀ x ∈ loadCmds, Cmd.Ok cfg bulk8 x := by
      intro x hx
      simp only [loadCmds, List.mem_cons, List.not_mem_nil, or_false] at hx
      rcases hx with rfl | rfl | rfl | rfl
      · trivial
      · exact .inr ⟨by simp [Spec.Ascending], .inl (by decide)⟩
      · trivial
      · trivial
    obtain ⟨N, outs, s', m', h1, h2⟩ := C17_bulkload ha hb loadCmds hok
    have e' := (Impl.runB_mono (V := Nat) (Variant.callsOk (v := v) ha).fuelOk cfg bulk8 loadCmds 40 (max 40 N) (le_max_left _ _)).le _ _ e
    have e' := (h1 _ (le_max_right 40 N)).symm.trans e'
    simp only [Res.ok.injEq, Prod.mk.injEq] at e'
    obtain ⟨rfl, rfl⟩ := e'
    exact ⟨_, m', ⟨40, loadCmds, _, hok, e, h2⟩, Conf.cmds_reach .refl h⟩
  · cases h

def loadHist : List (Ev Nat Nat) :=
  [.inv 0 (.delete 30), .res 0 (.code .success), .res 1 (.payload (some 40)),
   .res 2 (.recs [(50, 50), (60, 60), (70, 70), (75, 75)]), .inv 0 (.write 100 100), .res 0 (.code .success), .inv 0 (.write 110 110),
   .res 0 (.code .success)]

/-- PSL -/
example : ∃ s m c, (Variant.psl : Variant Nat).Admissible c200 ∧ BulkRoomy c200 bulk8 ∧ Built (.psl : Variant Nat) c200 bulk8 s m ∧
    Conf.Reach (CPsl.execS c200) (Conf.start s) c ∧ OneWriter c.hist ∧ c.mem.raced = false ∧ c.mem.gc = [2] ∧
    .res 2 (.recs [(50, 50), (60, 60), (70, 70), (75, 75)]) ∈ c.hist := by
  have h : (loadTrace .psl c200 (CPsl.execS c200) [.inv 1 (.read 40), .go 1 3, .inv 0 (.delete 10), .go 0 13, .res 0, .inv 0 (.delete 20),
      .go 0 13, .res 0, .inv 2 (.scan (some (50, true)) none), .go 2 9, .go 1 8, .res 1, .inv 0 (.delete 30), .go 0 27, .go 2 8, .res 2,
      .go 0 7, .res 0, .inv 0 (.write 100 100), .go 0 14, .res 0, .inv 0 (.write 110 110), .go 0 36, .res 0]).map
      (fun c => decide (oneWriterFrom none c.hist = true ∧ c.mem.raced = false ∧ c.mem.gc = [2] ∧
      .res 2 (.recs [(50, 50), (60, 60), (70, 70), (75, 75)]) ∈ c.hist)) = some true := by decide +kernel
  rw [Option.map_eq_some_iff] at h
  obtain ⟨c, h1, h2⟩ := h
  obtain ⟨a1, a2, a3, a4⟩ := of_decide_eq_true h2
  have ha : (Variant.psl : Variant Nat).Admissible c200 := ⟨8, c200_roomy, rfl⟩
  obtain ⟨s, m, b1, b2⟩ := loadTrace_reach ha c200_bulk h1
  exact ⟨s, m, c, ha, c200_bulk, b1, b2, oneWriter_of_check a1, a2, a3, a4⟩

/-- OSL -/
example : ∃ s m c, (Variant.osl none : Variant Nat).Admissible c200 ∧ BulkRoomy c200 bulk8 ∧ Built (.osl none : Variant Nat) c200 bulk8 s m ∧
    Conf.Reach (COsl.execS c200) (Conf.start s) c ∧ OneWriter c.hist ∧ c.mem.raced = false ∧ c.mem.gc = [2] ∧ c.hist.drop 6 = loadHist := by
  have h : (loadTrace (.osl none) c200 (COsl.execS c200) [.inv 1 (.read 40), .go 1 3, .inv 0 (.delete 10), .go 0 18, .res 0,
      .inv 0 (.delete 20), .go 0 18, .res 0, .inv 2 (.scan (some (50, true)) none), .go 2 9, .inv 0 (.delete 30), .go 0 41, .res 0, .go 1 16,
      .res 1, .go 2 29, .res 2, .inv 0 (.write 100 100), .go 0 18, .res 0, .inv 0 (.write 110 110), .go 0 41, .res 0]).map
      (fun c => decide (oneWriterFrom none c.hist = true ∧ c.mem.raced = false ∧ c.mem.gc = [2] ∧ c.hist.drop 6 = loadHist)) = some true := by
    decide +kernel
  rw [Option.map_eq_some_iff] at h
  obtain ⟨c, h1, h2⟩ := h
  obtain ⟨a1, a2, a3, a4⟩ := of_decide_eq_true h2
  have ha : (Variant.osl none : Variant Nat).Admissible c200 := ⟨8, c200_roomy, rfl⟩
  obtain ⟨s, m, b1, b2⟩ := loadTrace_reach ha c200_bulk h1
  exact ⟨s, m, c, ha, c200_bulk, b1, b2, oneWriter_of_check a1, a2, a3, a4⟩

/-- OML -/
example : ∃ s m c, (Variant.oml none : Variant Nat).Admissible c120 ∧ c120.blink = false ∧ BulkRoomy c120 bulk8 ∧
    Built (.oml none : Variant Nat) c120 bulk8 s m ∧ Conf.Reach (COml.execS c120 (fun _ _ => 0)) (Conf.start s) c ∧ c.mem.raced = false ∧
    c.hist.drop 6 = loadHist := by
  have h : (loadTrace (.oml none) c120 (COml.execS c120 (fun _ _ => 0)) [.inv 1 (.read 40), .go 1 3, .inv 0 (.delete 10), .go 0 30, .res 0,
      .inv 0 (.delete 20), .go 0 30, .res 0, .inv 2 (.scan (some (50, true)) none), .go 2 9, .inv 0 (.delete 30), .go 0 30, .res 0, .go 1 11,
      .res 1, .go 2 14, .res 2, .inv 0 (.write 100 100), .go 0 34, .res 0, .inv 0 (.write 110 110), .go 0 34, .res 0]).map
      (fun c => decide (c.mem.raced = false ∧ c.hist.drop 6 = loadHist)) = some true := by decide +kernel
  rw [Option.map_eq_some_iff] at h
  obtain ⟨c, h1, h2⟩ := h
  obtain ⟨a2, a4⟩ := of_decide_eq_true h2
  have ha : (Variant.oml none : Variant Nat).Admissible c120 := ⟨8, c120_roomy, c120_room⟩
  obtain ⟨s, m, b1, b2⟩ := loadTrace_reach ha c120_bulk h1
  exact ⟨s, m, c, ha, rfl, c120_bulk, b1, b2, a2, a4⟩

end BT
