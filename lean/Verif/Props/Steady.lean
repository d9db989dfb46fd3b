import Verif.Mild
import Verif.Props.Loaded
import Verif.Props.Torn

/-!
# Workloads that leave the shape of the tree as it is (C53, C54)

`Built` as in `Loaded.lean`.  The situations that the theorems of C22, C23, C25 and C34 exclude do not occur as long as all calls are `Read`, `Update`
and `Scan` (PSL, OSL), or `Read` and `Scan` (OSL, OML).  So there is nothing to exclude, and any number of threads may update at the same time.
-/

set_option linter.unusedSectionVars false

namespace BT
open Spec Relation
variable {K V : Type} [LinearOrder K] {cfg : Cfg K} {bc : BulkCfg} {s : St K V} {m : Map K V} {c : Conf K V} {key : Option K}
  {junk : Node K V → Node K V → K}

/-! ## C53: reads and updates -/

/-- C53 for PSL: any number of threads read, update and scan a loaded index.  Every history is linearizable (scans part by part), nothing is
undefined, and nothing that was loaded or written is lost. -/
theorem C53_psl_updates (ha : Variant.psl.Admissible cfg) (hbk : BulkRoomy cfg bc) (hs : Built .psl cfg bc s m)
    (hc : Conf.Reach (CPsl.execS cfg) (Conf.start s) c)
    (hu : ∀ t op, .inv t op ∈ c.hist → (∃ k, op = .read k) ∨ (∃ k v, op = .update k v) ∨ ∃ b e, op = .scan b e) :
    PartwiseLinearizableFrom m c.hist ∧ ¬ c.Bad ∧ ¬ Forgets m c.hist ∧ ¬ ScanForgets m c.hist ∧ ¬ ScanRepeats c.hist := by
  have hn : c.mem.raced = false := by
    refine (Conf.mild (w := true) (adm := fun op => (∃ k, op = .read k) ∨ (∃ k v, op = .update k v) ∨ ∃ b e, op = .scan b e)
      (fun fuel op ho => ?_) (hs.inv ha hbk).mild (fun _ => rfl) hc hu).raced
    rcases ho with ⟨k, rfl⟩ | ⟨k, v, rfl⟩ | ⟨b, e, rfl⟩
    · exact Prog.Mild.bind CPsl.read_m fun _ _ => trivial
    · exact Prog.Mild.bind CPsl.update_m fun _ _ => trivial
    · exact Prog.Mild.bind CPsl.scan_m fun _ _ => trivial
  obtain ⟨h1, h2, h3, h4, h5⟩ := C51_psl_loaded_scans_partial ha hbk hs hc hn
  exact ⟨h1, h2, h4, h5, h3.2.2⟩

theorem osl_steady (ha : (Variant.osl key).Admissible cfg) (hbk : BulkRoomy cfg bc) (hs : Built (.osl key) cfg bc s m)
    (hc : Conf.Reach (COsl.exec cfg) (Conf.start s) c)
    (hu : ∀ t op, .inv t op ∈ c.hist → (∃ k, op = .read k) ∨ ∃ k v, op = .update k v) : c.mem.raced = false := by
  refine (Conf.mild (w := true) (adm := fun op => (∃ k, op = .read k) ∨ ∃ k v, op = .update k v)
    (fun fuel op ho => ?_) (hs.inv ha hbk).mild (fun _ => rfl) hc hu).raced
  rcases ho with ⟨k, rfl⟩ | ⟨k, v, rfl⟩
  · exact Prog.Mild.bind COsl.read_m fun _ _ => trivial
  · exact Prog.Mild.bind COsl.update_m fun _ _ => trivial

/-- C53 for OSL: any number of threads read, update and scan a loaded index.  The history without the scans is linearizable, nothing but a scan
is undefined, and nothing that was loaded is lost. -/
theorem C53_osl_updates (ha : (Variant.osl key).Admissible cfg) (hbk : BulkRoomy cfg bc) (hs : Built (.osl key) cfg bc s m)
    (hc : Conf.Reach (COsl.execS cfg) (Conf.start s) c)
    (hu : ∀ t op, .inv t op ∈ c.hist → (∃ k, op = .read k) ∨ (∃ k v, op = .update k v) ∨ ∃ b e, op = .scan b e) :
    LinearizableFrom m (c.hist.filter Ev.point) ∧ ¬ Forgets m (c.hist.filter Ev.point) ∧
      ∀ t, c.thr t = some .ub → ∃ b e, Pending c.hist t (.scan b e) := by
  obtain ⟨c', h1, h2, -⟩ := drop_scans COsl.adds (fun _ => rfl) rfl hc
  have hn : c'.mem.raced = false := osl_steady ha hbk hs h2 fun t op hm => by
    rw [h1.hist, List.mem_filter] at hm
    rcases hu t op hm.1 with h | h | ⟨b, e, rfl⟩
    · exact .inl h
    · exact .inr h
    · exact absurd hm.2 (by simp [Ev.point])
  obtain ⟨h4, h5, -, h6⟩ := C51_osl_loaded_partial ha hbk hs h2 hn
  rw [h1.hist] at h4 h6
  exact ⟨h4, h6, fun t => h1.bad h5⟩

/-- C53, PSL: no deadlock. -/
theorem C53_psl_updates_no_deadlock (ha : Variant.psl.Admissible cfg) (hbk : BulkRoomy cfg bc) (hs : Built .psl cfg bc s m)
    (hc : Conf.Reach (CPsl.execS cfg) (Conf.start s) c)
    (hu : ∀ t op, .inv t op ∈ c.hist → (∃ k, op = .read k) ∨ (∃ k v, op = .update k v) ∨ ∃ b e, op = .scan b e) (t : Tid) :
    ¬ TransGen c.WaitsFor t t ∧ (c.Waiting t → ∃ u op, TransGen c.WaitsFor t u ∧ Pending c.hist u op ∧ ¬ c.Waiting u) :=
  C51_psl_loaded_no_deadlock_partial ha hbk hs hc (fun t k hm => by rcases hu t _ hm with ⟨_, h⟩ | ⟨_, _, h⟩ | ⟨_, _, h⟩ <;> cases h) t

/-- C53, OSL: no deadlock. -/
theorem C53_osl_updates_no_deadlock (ha : (Variant.osl key).Admissible cfg) (hbk : BulkRoomy cfg bc) (hs : Built (.osl key) cfg bc s m)
    (hc : Conf.Reach (COsl.execS cfg) (Conf.start s) c)
    (hu : ∀ t op, .inv t op ∈ c.hist → (∃ k, op = .read k) ∨ (∃ k v, op = .update k v) ∨ ∃ b e, op = .scan b e) (t : Tid) :
    ¬ TransGen c.WaitsFor t t ∧ (c.Waiting t → ∃ u op, TransGen c.WaitsFor t u ∧ Pending c.hist u op ∧ ¬ c.Waiting u) :=
  C51_osl_loaded_no_deadlock_partial ha hbk hs hc (fun t k hm => by rcases hu t _ hm with ⟨_, h⟩ | ⟨_, _, h⟩ | ⟨_, _, h⟩ <;> cases h) t

/-! ### The hypotheses are met

The index of `loadCmds` (`Loaded.lean`), a root over three leaves. -/

/-- Reads, updates and scans. -/
def updB : Ev Nat Nat → Bool
  | .inv _ (.read _) | .inv _ (.update _ _) | .inv _ (.scan _ _) | .res _ _ => true
  | _ => false

theorem of_updB {h : List (Ev Nat Nat)} (hh : h.all updB = true) (t : Tid) (op : Op Nat Nat) (hm : .inv t op ∈ h) :
    (∃ k, op = .read k) ∨ (∃ k v, op = .update k v) ∨ ∃ b e, op = .scan b e := by
  have := List.all_eq_true.1 hh _ hm
  cases op with
  | read k => exact .inl ⟨k, rfl⟩
  | update k v => exact .inr (.inl ⟨k, v, rfl⟩)
  | scan b e => exact .inr (.inr ⟨b, e, rfl⟩)
  | _ => cases this

/-- PSL: two threads update key 40 at the same time, one reads it and one scans the index. -/
example : ∃ s m c, (.psl : Variant Nat).Admissible c200 ∧ BulkRoomy c200 bulk8 ∧ Built (.psl : Variant Nat) c200 bulk8 s m ∧
    Conf.Reach (CPsl.execS c200) (Conf.start s) c ∧ (∀ t op, .inv t op ∈ c.hist → (∃ k, op = .read k) ∨ (∃ k v, op = .update k v) ∨ ∃ b e, op = .scan b e) ∧
    c.hist.take 8 = [.inv 0 (.update 40 1), .inv 1 (.update 40 2), .inv 2 (.read 40), .inv 3 (.scan none none), .res 0 (.code .success),
      .res 1 (.code .success), .res 2 (.payload (some 40)),
      .res 3 (.recs [(10, 10), (20, 20), (30, 30), (40, 40), (50, 50), (60, 60), (70, 70), (75, 75)])] := by
  have h : (loadTrace (.psl) c200 (CPsl.execS c200) [.inv 0 (.update 40 1), .go 0 10, .inv 1 (.update 40 2), .go 1 7, .inv 2 (.read 40), .go 2 11,
      .inv 3 (.scan none none), .go 3 19, .go 0 3, .go 1 6, .res 0, .res 1, .res 2, .res 3, .inv 0 (.update 10 3),
      .go 0 13, .res 0, .inv 1 (.update 11 4), .go 1 11, .res 1]).map
      (fun c => decide (c.hist.all updB = true ∧ c.hist.take 8 = [.inv 0 (.update 40 1), .inv 1 (.update 40 2), .inv 2 (.read 40), .inv 3 (.scan none none), .res 0 (.code .success),
      .res 1 (.code .success), .res 2 (.payload (some 40)),
      .res 3 (.recs [(10, 10), (20, 20), (30, 30), (40, 40), (50, 50), (60, 60), (70, 70), (75, 75)])])) = some true := by decide +kernel
  rw [Option.map_eq_some_iff] at h
  obtain ⟨c, h1, h2⟩ := h
  obtain ⟨a1, a2⟩ := of_decide_eq_true h2
  have ha : (.psl : Variant Nat).Admissible c200 := ⟨8, c200_roomy, rfl⟩
  obtain ⟨s, m, b1, b2⟩ := loadTrace_reach ha c200_bulk h1
  exact ⟨s, m, c, ha, c200_bulk, b1, b2, of_updB a1, a2⟩

/-- OSL -/
example : ∃ s m c, (.osl none : Variant Nat).Admissible c200 ∧ BulkRoomy c200 bulk8 ∧ Built (.osl none : Variant Nat) c200 bulk8 s m ∧
    Conf.Reach (COsl.execS c200) (Conf.start s) c ∧ (∀ t op, .inv t op ∈ c.hist → (∃ k, op = .read k) ∨ (∃ k v, op = .update k v) ∨ ∃ b e, op = .scan b e) ∧
    c.hist.take 8 = [.inv 0 (.update 40 1), .inv 1 (.update 40 2), .inv 2 (.read 40), .inv 3 (.scan none none), .res 0 (.code .success),
      .res 1 (.code .success), .res 2 (.payload (some 2)),
      .res 3 (.recs [(10, 10), (20, 20), (30, 30), (40, 2), (50, 50), (60, 60), (70, 70), (75, 75)])] := by
  have h : (loadTrace (.osl none) c200 (COsl.execS c200) [.inv 0 (.update 40 1), .go 0 14, .inv 1 (.update 40 2), .go 1 18, .inv 2 (.read 40), .go 2 15,
      .inv 3 (.scan none none), .go 3 43, .go 0 10, .res 0, .res 1, .res 2, .res 3, .inv 0 (.update 10 3), .go 0 18,
      .res 0, .inv 1 (.update 11 4), .go 1 15, .res 1]).map
      (fun c => decide (c.hist.all updB = true ∧ c.hist.take 8 = [.inv 0 (.update 40 1), .inv 1 (.update 40 2), .inv 2 (.read 40), .inv 3 (.scan none none), .res 0 (.code .success),
      .res 1 (.code .success), .res 2 (.payload (some 2)),
      .res 3 (.recs [(10, 10), (20, 20), (30, 30), (40, 2), (50, 50), (60, 60), (70, 70), (75, 75)])])) = some true := by decide +kernel
  rw [Option.map_eq_some_iff] at h
  obtain ⟨c, h1, h2⟩ := h
  obtain ⟨a1, a2⟩ := of_decide_eq_true h2
  have ha : (.osl none : Variant Nat).Admissible c200 := ⟨8, c200_roomy, rfl⟩
  obtain ⟨s, m, b1, b2⟩ := loadTrace_reach ha c200_bulk h1
  exact ⟨s, m, c, ha, c200_bulk, b1, b2, of_updB a1, a2⟩

/-! ## C54: reads and scans -/

theorem noWriter {h : List (Ev K V)} (hr : ∀ t op, .inv t op ∈ h → ¬ Writes op) : OneWriter h ∧ QuietScans h := by
  refine ⟨fun h1 h2 h3 t u op op' e hw _ => absurd hw (hr t op (by rw [e]; simp)), fun h1 h2 t u op b e e' hw hp _ => ?_⟩
  obtain ⟨a, b, rfl, -⟩ := hp
  exact hr t op (by rw [e']; simp) hw

/-- C54 for PSL: threads that only read and scan a loaded index get what was loaded (scans in one instant), nothing is undefined, nobody
waits. -/
theorem C54_psl_readers (ha : Variant.psl.Admissible cfg) (hbk : BulkRoomy cfg bc) (hs : Built .psl cfg bc s m)
    (hc : Conf.Reach (CPsl.execS cfg) (Conf.start s) c) (hr : ∀ t op, .inv t op ∈ c.hist → ¬ Writes op) :
    LinearizableFrom m c.hist ∧ ¬ c.Bad ∧ ∀ t, ¬ c.Waiting t := by
  obtain ⟨h1, h2, -⟩ := C52_psl_loaded_one_writer ha hbk hs hc (noWriter hr).1
  refine ⟨h1.quiet (noWriter hr).2, h2, ?_⟩
  have hi := hs.inv ha hbk
  obtain ⟨L, hR, hb⟩ := ha
  refine Conf.never_waits (Conf.mild (w := false) (adm := fun op => ¬ Writes op) (fun fuel op ho => ?_) hi.mild (fun _ => rfl) hc hr)
    (Conf.Readers.reach CPsl.execS_sh (fun _ => rfl) (fun _ h => (CPsl.idleS hR hb hi.locks h).idleFree) hc) hr
  cases op with
  | read k => exact Prog.Mild.bind CPsl.read_m fun _ _ => trivial
  | scan b e => exact Prog.Mild.bind CPsl.scan_m fun _ _ => trivial
  | _ => exact absurd trivial ho

/-- C54 for OSL. -/
theorem C54_osl_readers (ha : (Variant.osl key).Admissible cfg) (hbk : BulkRoomy cfg bc) (hs : Built (.osl key) cfg bc s m)
    (hc : Conf.Reach (COsl.execS cfg) (Conf.start s) c) (hr : ∀ t op, .inv t op ∈ c.hist → ¬ Writes op) :
    LinearizableFrom m c.hist ∧ ¬ c.Bad ∧ ∀ t, ¬ c.Waiting t := by
  have hi := hs.inv ha hbk
  have hm : c.mem.Mild false := by
    refine Conf.mild (w := false) (adm := fun op => ¬ Writes op) (fun fuel op ho => ?_) hi.mild (fun _ => rfl) hc hr
    cases op with
    | read k => exact Prog.Mild.bind COsl.read_m fun _ _ => trivial
    | scan b e => exact Prog.Mild.bind COsl.scan_m fun _ _ => trivial
    | _ => exact absurd trivial ho
  obtain ⟨h1, h2, -⟩ := C51_osl_loaded_scans_partial ha hbk hs hc hm.raced
  obtain ⟨L, hR, hb⟩ := ha
  refine ⟨h1.quiet (noWriter hr).2, h2, Conf.never_waits hm (Conf.Readers.reach (fun fuel op h => ?_) (fun _ => rfl)
    (fun _ h => (osl_inv hR hb hi.locks h).idleFree) hc) hr⟩
  cases op with
  | read k => exact Prog.Sharing.bind (.of COsl.read_lf) fun _ => trivial
  | scan b e => exact Prog.Sharing.bind (.of COsl.scan_lf) fun _ => trivial
  | _ => exact absurd trivial h

/-- C54 for OML. -/
theorem C54_oml_readers (ha : (Variant.oml key).Admissible cfg) (hb : cfg.blink = false) (hbk : BulkRoomy cfg bc)
    (hs : Built (.oml key) cfg bc s m) (hc : Conf.Reach (COml.execS cfg junk) (Conf.start s) c)
    (hr : ∀ t op, .inv t op ∈ c.hist → ¬ Writes op) : LinearizableFrom m c.hist ∧ ¬ c.Bad ∧ ∀ t, ¬ c.Waiting t := by
  have hi := hs.inv ha hbk
  have hm : c.mem.Mild false := by
    refine Conf.mild (w := false) (adm := fun op => ¬ Writes op) (fun fuel op ho => ?_) hi.mild (fun _ => rfl) hc hr
    cases op with
    | read k => exact Prog.Mild.bind COml.read_m fun _ _ => trivial
    | scan b e => exact Prog.Mild.bind COml.scan_m fun _ _ => trivial
    | _ => exact absurd trivial ho
  obtain ⟨h1, h2, -⟩ := C51_oml_loaded_scans_partial ha hb hbk hs hc hm.raced
  refine ⟨h1.quiet (noWriter hr).2, h2, Conf.never_waits hm (Conf.Readers.reach (fun fuel op h => ?_) (fun _ => rfl)
    (fun _ h => (oml_inv hi.locksO h).idleFree) hc) hr⟩
  cases op with
  | read k => exact Prog.Sharing.bind (.of COml.read_lf) fun _ => trivial
  | scan b e => exact Prog.Sharing.bind (.of COml.scan_lf) fun _ => trivial
  | _ => exact absurd trivial h

/-- Reads and scans. -/
def readB : Ev Nat Nat → Bool
  | .inv _ (.read _) | .inv _ (.scan _ _) | .res _ _ => true
  | _ => false

theorem of_readB {h : List (Ev Nat Nat)} (hh : h.all readB = true) (t : Tid) (op : Op Nat Nat) (hm : .inv t op ∈ h) : ¬ Writes op := by
  have := List.all_eq_true.1 hh _ hm
  cases op with
  | read k => exact id
  | scan b e => exact id
  | _ => cases this

/-- PSL: a read and two scans, interleaved. -/
example : ∃ s m c, (.psl : Variant Nat).Admissible c200 ∧ BulkRoomy c200 bulk8 ∧ Built (.psl : Variant Nat) c200 bulk8 s m ∧
    Conf.Reach (CPsl.execS c200) (Conf.start s) c ∧ (∀ t op, .inv t op ∈ c.hist → ¬ Writes op) ∧
    c.hist = [.inv 2 (.read 40), .inv 3 (.scan none none), .inv 1 (.scan (some (15, true)) (some (30, true))), .res 2 (.payload (some 40)),
      .res 3 (.recs [(10, 10), (20, 20), (30, 30), (40, 40), (50, 50), (60, 60), (70, 70), (75, 75)]), .res 1 (.recs [(20, 20), (30, 30)])] := by
  have h : (loadTrace (.psl) c200 (CPsl.execS c200) [.inv 2 (.read 40), .go 2 4, .inv 3 (.scan none none), .go 3 7,
      .inv 1 (.scan (some (15, true)) (some (30, true))), .go 1 9, .go 2 7, .res 2, .go 3 12, .res 3, .go 1 4, .res 1]).map
      (fun c => decide (c.hist.all readB = true ∧ c.hist = [.inv 2 (.read 40), .inv 3 (.scan none none), .inv 1 (.scan (some (15, true)) (some (30, true))), .res 2 (.payload (some 40)),
      .res 3 (.recs [(10, 10), (20, 20), (30, 30), (40, 40), (50, 50), (60, 60), (70, 70), (75, 75)]), .res 1 (.recs [(20, 20), (30, 30)])])) = some true := by decide +kernel
  rw [Option.map_eq_some_iff] at h
  obtain ⟨c, h1, h2⟩ := h
  obtain ⟨a1, a2⟩ := of_decide_eq_true h2
  have ha : (.psl : Variant Nat).Admissible c200 := ⟨8, c200_roomy, rfl⟩
  obtain ⟨s, m, b1, b2⟩ := loadTrace_reach ha c200_bulk h1
  exact ⟨s, m, c, ha, c200_bulk, b1, b2, of_readB a1, a2⟩

/-- OSL -/
example : ∃ s m c, (.osl none : Variant Nat).Admissible c200 ∧ BulkRoomy c200 bulk8 ∧ Built (.osl none : Variant Nat) c200 bulk8 s m ∧
    Conf.Reach (COsl.execS c200) (Conf.start s) c ∧ (∀ t op, .inv t op ∈ c.hist → ¬ Writes op) ∧
    c.hist = [.inv 2 (.read 40), .inv 3 (.scan none none), .inv 1 (.scan (some (15, true)) (some (30, true))), .res 2 (.payload (some 40)),
      .res 3 (.recs [(10, 10), (20, 20), (30, 30), (40, 40), (50, 50), (60, 60), (70, 70), (75, 75)]), .res 1 (.recs [(20, 20), (30, 30)])] := by
  have h : (loadTrace (.osl none) c200 (COsl.execS c200) [.inv 2 (.read 40), .go 2 4, .inv 3 (.scan none none), .go 3 7,
      .inv 1 (.scan (some (15, true)) (some (30, true))), .go 1 9, .go 2 11, .res 2, .go 3 36, .res 3, .go 1 11,
      .res 1]).map
      (fun c => decide (c.hist.all readB = true ∧ c.hist = [.inv 2 (.read 40), .inv 3 (.scan none none), .inv 1 (.scan (some (15, true)) (some (30, true))), .res 2 (.payload (some 40)),
      .res 3 (.recs [(10, 10), (20, 20), (30, 30), (40, 40), (50, 50), (60, 60), (70, 70), (75, 75)]), .res 1 (.recs [(20, 20), (30, 30)])])) = some true := by decide +kernel
  rw [Option.map_eq_some_iff] at h
  obtain ⟨c, h1, h2⟩ := h
  obtain ⟨a1, a2⟩ := of_decide_eq_true h2
  have ha : (.osl none : Variant Nat).Admissible c200 := ⟨8, c200_roomy, rfl⟩
  obtain ⟨s, m, b1, b2⟩ := loadTrace_reach ha c200_bulk h1
  exact ⟨s, m, c, ha, c200_bulk, b1, b2, of_readB a1, a2⟩

/-- OML -/
example : ∃ s m c, (.oml none : Variant Nat).Admissible c120 ∧ c120.blink = false ∧ BulkRoomy c120 bulk8 ∧ Built (.oml none : Variant Nat) c120 bulk8 s m ∧
    Conf.Reach (COml.execS c120 (fun _ _ => 0)) (Conf.start s) c ∧ (∀ t op, .inv t op ∈ c.hist → ¬ Writes op) ∧
    c.hist = [.inv 2 (.read 40), .inv 3 (.scan none none), .inv 1 (.scan (some (15, true)) (some (30, true))), .res 2 (.payload (some 40)),
      .res 3 (.recs [(10, 10), (20, 20), (30, 30), (40, 40), (50, 50), (60, 60), (70, 70), (75, 75)]), .res 1 (.recs [(20, 20), (30, 30)])] := by
  have h : (loadTrace (.oml none) c120 (COml.execS c120 (fun _ _ => 0)) [.inv 2 (.read 40), .go 2 4, .inv 3 (.scan none none), .go 3 7,
      .inv 1 (.scan (some (15, true)) (some (30, true))), .go 1 9, .go 2 10, .res 2, .go 3 27, .res 3, .go 1 10,
      .res 1]).map
      (fun c => decide (c.hist.all readB = true ∧ c.hist = [.inv 2 (.read 40), .inv 3 (.scan none none), .inv 1 (.scan (some (15, true)) (some (30, true))), .res 2 (.payload (some 40)),
      .res 3 (.recs [(10, 10), (20, 20), (30, 30), (40, 40), (50, 50), (60, 60), (70, 70), (75, 75)]), .res 1 (.recs [(20, 20), (30, 30)])])) = some true := by decide +kernel
  rw [Option.map_eq_some_iff] at h
  obtain ⟨c, h1, h2⟩ := h
  obtain ⟨a1, a2⟩ := of_decide_eq_true h2
  have ha : (.oml none : Variant Nat).Admissible c120 := ⟨8, c120_roomy, c120_room⟩
  obtain ⟨s, m, b1, b2⟩ := loadTrace_reach ha c120_bulk h1
  exact ⟨s, m, c, ha, rfl, c120_bulk, b1, b2, of_readB a1, a2⟩

end BT
