import Verif.PmlLoad
import Verif.Props.PmlGood
import Verif.Props.Steady

/-!
# PML on a tree that earlier calls have built (C51, C54)

`BuiltPml cfg bc s m` (`PmlLoad.lean`): one thread has made calls on a new PML index one after the other (those of the API, with `Bulkload` on
an index without records), `s` is the memory they have left behind, and `m` are the contents a map would have.  Then any number of threads work
with this index: `Conf.startPml s` is the configuration without threads and with memory `s`.
-/

set_option linter.unusedSectionVars false

namespace BT
open Spec Relation
variable {K V : Type} [LinearOrder K] {cfg : Cfg K} {bc : BulkCfg} {s : St K V} {m : Map K V} {c : Conf K V} {w : Bool}

/-! ## C51 -/

theorem pml_loaded (ha : Variant.pml.Admissible cfg) (hbk : BulkRoomy cfg bc) (hs : BuiltPml cfg bc s m)
    (hc : Conf.Reach (CPml.exec cfg) (Conf.startPml s) c) (hn : c.mem.raced = false) :
    ∃ w : PL.World K V, (PL.lg cfg : LLg K V).Sim m c w := by
  obtain ⟨w, hw⟩ := PL.sim_load (hs.inv ha hbk).toQ
  obtain ⟨L, hr, hmf⟩ := ha
  exact LLg.adequate (PL.impl hr hmf) hw hc hn

/-- C51 for PML, without scans.  Missing: executions in which a page is released that another thread has locked, as in
`C24_pml_linearizable_partial`. -/
theorem C51_pml_loaded_partial (ha : Variant.pml.Admissible cfg) (hbk : BulkRoomy cfg bc) (hs : BuiltPml cfg bc s m)
    (hc : Conf.Reach (CPml.exec cfg) (Conf.startPml s) c) (hn : c.mem.raced = false) (hsc : ∀ t b e, Ev.inv t (.scan b e) ∉ c.hist) :
    LinearizableFrom m c.hist ∧ ¬ c.Bad ∧ ¬ LosesWrite c.hist ∧ ¬ Forgets m c.hist := by
  obtain ⟨w, hw⟩ := pml_loaded ha hbk hs hc hn
  have h := hw.past.partwise
  exact ⟨h.noScan hsc, hw.not_bad, h.facts.1, h.remembers.1⟩

/-- C51 for PML, with scans.  Missing: as above. -/
theorem C51_pml_loaded_scans_partial (ha : Variant.pml.Admissible cfg) (hbk : BulkRoomy cfg bc) (hs : BuiltPml cfg bc s m)
    (hc : Conf.Reach (CPml.exec cfg) (Conf.startPml s) c) (hn : c.mem.raced = false) :
    PartwiseLinearizableFrom m c.hist ∧ ¬ c.Bad ∧ (¬ LosesWrite c.hist ∧ ¬ ScanMisses c.hist ∧ ¬ ScanRepeats c.hist) ∧
      ¬ Forgets m c.hist ∧ ¬ ScanForgets m c.hist := by
  obtain ⟨w, hw⟩ := pml_loaded ha hbk hs hc hn
  have h := hw.past.partwise
  exact ⟨h, hw.not_bad, h.facts, h.remembers⟩

/-- C51 for PML: threads do not wait for each other in a cycle, and a thread that waits, waits in the end for one that does not.  Missing: as
above. -/
theorem C51_pml_loaded_no_deadlock_partial (ha : Variant.pml.Admissible cfg) (hbk : BulkRoomy cfg bc) (hs : BuiltPml cfg bc s m)
    (hc : Conf.Reach (CPml.exec cfg) (Conf.startPml s) c) (hn : c.mem.raced = false) (t : Tid) :
    ¬ TransGen c.WaitsFor t t ∧ (c.Waiting t → ∃ u, TransGen c.WaitsFor t u ∧ c.Runs u) := by
  obtain ⟨w, hw⟩ := pml_loaded ha hbk hs hc hn
  exact ⟨PL.acyclic hw, PL.progress hw⟩

/-- C51 for PML and executions of `Write`, `Insert`, `Update` and `Delete`: nothing is excluded. -/
theorem C51_pml_loaded_writers (ha : Variant.pml.Admissible cfg) (hbk : BulkRoomy cfg bc) (hs : BuiltPml cfg bc s m)
    (hc : Conf.Reach (CPml.exec cfg) (Conf.startPml s) c) (hn : ∀ t k, Ev.inv t (.read k) ∉ c.hist)
    (hsc : ∀ t b e, Ev.inv t (.scan b e) ∉ c.hist) :
    LinearizableFrom m c.hist ∧ ¬ c.Bad ∧ (∀ t p, c.Touches t p → p ∉ c.mem.gc) ∧ (∀ t, ¬ TransGen c.WaitsFor t t) ∧
      ∀ t, c.Waiting t → ∃ u, TransGen c.WaitsFor t u ∧ c.Runs u := by
  obtain ⟨w0, h0⟩ := PL.sim_load (hs.inv ha hbk).toQ
  obtain ⟨L, hr, hmf⟩ := ha
  obtain ⟨⟨w, hw⟩, -, -⟩ := PL.no_readers hr hmf h0 (fun _ => rfl) (fun _ => rfl) hc hn hsc
  exact ⟨hw.past.partwise.noScan hsc, hw.not_bad, fun t p h => hw.no_touch h, fun t => PL.acyclic hw, fun t h => PL.progress hw h⟩

/-! ## C54: reads and scans -/

namespace CPml
open Prog

theorem getRootForRead_m : (getRootForRead : Prog K V Ptr).Mild w (fun _ => True) :=
  Mild.lockS (Mild.bind (R := fun _ => True) (Mild.load fun n _ => by
    cases n.getChild 0 <;> trivial) fun _ _ => Mild.lockS (Mild.unlockS trivial))

theorem descendForRead_m {k : K} : ∀ (f : Nat) (p : Ptr), (descendForRead k f p : Prog K V Ptr).Mild w (fun _ => True)
  | 0, _ => trivial
  | f + 1, p => by
    rw [descendForRead]
    refine Mild.load fun n _ => ?_
    split
    · exact Mild.lift fun _ _ => Mild.lift fun q _ => Mild.lockS (Mild.unlockS (descendForRead_m f q))
    · trivial

theorem leftmost_m : ∀ (f : Nat) (p : Ptr), (leftmost f p : Prog K V Ptr).Mild w (fun _ => True)
  | 0, _ => trivial
  | f + 1, p => by
    rw [leftmost]
    refine Mild.load fun n _ => ?_
    split
    · exact Mild.lift fun q _ => Mild.lockS (Mild.unlockS (leftmost_m f q))
    · trivial

theorem iterate_m {e : ScanKey K} : ∀ (f : Nat) (p : Ptr) (pos : Nat), (CScan.iterate e f p pos : Prog K V (List (K × V))).Mild w (fun _ => True)
  | 0, _, _ => trivial
  | f + 1, p, pos => by
    rw [CScan.iterate]
    refine Mild.load fun n hn => Mild.lift fun x _ => Mild.lift fun l _ => ?_
    split
    · exact Mild.unlockS trivial
    · cases h : n.next with
      | none => trivial
      | some q => exact Mild.lockS (Mild.unlockS (Mild.bind (iterate_m f q 0) fun _ _ => trivial))

theorem exec_m (fuel : Nat) (op : Op K V) (h : ¬ Writes op) : (exec cfg fuel op : Prog K V _).Mild w (fun _ => True) := by
  cases op with
  | read k =>
    exact Mild.bind (R := fun _ => True) (Mild.bind getRootForRead_m fun _ _ => Mild.bind (descendForRead_m _ _) fun _ _ =>
      Mild.load fun _ _ => Mild.lift fun _ _ => Mild.unlockS trivial) fun _ _ => trivial
  | scan b e =>
    refine Mild.bind (R := fun _ => True) (Mild.bind getRootForRead_m fun _ _ => Mild.bind (R := fun _ => True) ?_ fun _ _ =>
      Mild.load fun _ _ => Mild.lift fun _ _ => iterate_m _ _ _) fun _ _ => trivial
    cases b with
    | none => exact leftmost_m _ _
    | some x => exact descendForRead_m _ _
  | _ => exact absurd trivial h

/-! `Read` and `Scan` own no page. -/

theorem getRootForRead_sh : (getRootForRead : Prog K V Ptr).Sharing :=
  ⟨trivial, fun _ => Prog.Sharing.bind (c := rootPtr) ⟨trivial, fun n => by
    show (Prog.lift (n.getChild 0) : Prog K V Ptr).Sharing
    cases n.getChild 0 <;> trivial⟩
    fun _ => ⟨trivial, fun _ => ⟨trivial, fun _ => trivial⟩⟩⟩

theorem descendForRead_sh {k : K} : ∀ (f : Nat) (p : Ptr), (descendForRead k f p : Prog K V Ptr).Sharing
  | 0, _ => trivial
  | f + 1, p => by
    rw [descendForRead]
    refine ⟨trivial, fun n => ?_⟩
    show Prog.Sharing (ite _ _ _)
    split
    · exact Prog.Sharing.lift _ fun _ => Prog.Sharing.lift _ fun q => ⟨trivial, fun _ => ⟨trivial, fun _ => descendForRead_sh f q⟩⟩
    · trivial

theorem leftmost_sh : ∀ (f : Nat) (p : Ptr), (leftmost f p : Prog K V Ptr).Sharing
  | 0, _ => trivial
  | f + 1, p => by
    rw [leftmost]
    refine ⟨trivial, fun n => ?_⟩
    show Prog.Sharing (ite _ _ _)
    split
    · exact Prog.Sharing.lift _ fun q => ⟨trivial, fun _ => ⟨trivial, fun _ => leftmost_sh f q⟩⟩
    · trivial

theorem iterate_sh {e : ScanKey K} : ∀ (f : Nat) (p : Ptr) (pos : Nat), (CScan.iterate e f p pos : Prog K V (List (K × V))).Sharing
  | 0, _, _ => trivial
  | f + 1, p, pos => by
    rw [CScan.iterate]
    refine ⟨trivial, fun n => ?_⟩
    refine Prog.Sharing.lift _ fun x => Prog.Sharing.lift _ fun l => ?_
    split
    · exact ⟨trivial, fun _ => trivial⟩
    · cases h : n.next with
      | none => trivial
      | some q => exact ⟨trivial, fun _ => ⟨trivial, fun _ => (Prog.Sharing.bind (iterate_sh f q 0) fun l' => trivial :
          (CScan.iterate e f q 0 >>= fun l' => pure (l ++ l') : Prog K V (List (K × V))).Sharing)⟩⟩

theorem exec_sh (fuel : Nat) (op : Op K V) (h : ¬ Writes op) : (exec cfg fuel op : Prog K V _).Sharing := by
  cases op with
  | read k =>
    exact Prog.Sharing.bind (Prog.Sharing.bind getRootForRead_sh fun _ => Prog.Sharing.bind (descendForRead_sh _ _) fun _ =>
      ⟨trivial, fun _ => Prog.Sharing.lift _ fun _ => ⟨trivial, fun _ => trivial⟩⟩) fun _ => trivial
  | scan b e =>
    refine Prog.Sharing.bind (Prog.Sharing.bind getRootForRead_sh fun _ => Prog.Sharing.bind ?_ fun _ =>
      ⟨trivial, fun _ => Prog.Sharing.lift _ fun _ => iterate_sh _ _ _⟩) fun _ => trivial
    cases b with
    | none => exact leftmost_sh _ _
    | some x => exact descendForRead_sh _ _
  | _ => exact absurd trivial h
end CPml

theorem InvP.mild (h : InvP cfg s m) : (Conf.startPml s).mem.Mild w := by
  refine ⟨rfl, fun p n hp => ?_, fun _ _ => ⟨rfl, rfl⟩⟩
  simp only [Conf.startPml] at hp
  split at hp
  · cases hp; rfl
  · exact h.pages hp

/-- If nobody writes, every thread is in code that owns no page. -/
theorem Conf.sharing {I : CImpl K V} (hI : ∀ fuel op, ¬ Writes op → (I fuel op).Sharing) {c0 : Conf K V} (h0 : ∀ t, c0.thr t = none)
    (hc : Conf.Reach I c0 c) (hr : ∀ t op, .inv t op ∈ c.hist → ¬ Writes op) : ∀ t p, c.thr t = some p → p.Sharing := by
  induction hc with
  | refl => intro t p h; rw [h0] at h; cases h
  | @step c1 c2 h1 h2 ih =>
    cases h2 with
    | inv u op fuel hn =>
      have ih := ih fun t op hm => hr t op (List.mem_append_left _ hm)
      intro t p hp
      simp only [Spec.upd] at hp
      split at hp
      · cases hp; exact hI fuel op (hr u op (by simp))
      · exact ih t p hp
    | act h3 _ =>
      intro t p hp
      simp only [Spec.upd] at hp
      split at hp
      · cases hp; exact (ih hr _ _ h3).2 _
      · exact ih hr t p hp
    | crash _ _ =>
      intro t p hp
      simp only [Spec.upd] at hp
      split at hp
      · cases hp; trivial
      · exact ih hr t p hp
    | res _ =>
      have ih := ih fun t op hm => hr t op (List.mem_append_left _ hm)
      intro t p hp
      simp only [Spec.upd] at hp
      split at hp
      · cases hp
      · exact ih t p hp

/-- C54 for PML: threads that only read and scan a loaded index get what was loaded (scans in one instant), nothing is undefined, nobody
waits. -/
theorem C54_pml_readers (ha : Variant.pml.Admissible cfg) (hbk : BulkRoomy cfg bc) (hs : BuiltPml cfg bc s m)
    (hc : Conf.Reach (CPml.exec cfg) (Conf.startPml s) c) (hr : ∀ t op, .inv t op ∈ c.hist → ¬ Writes op) :
    LinearizableFrom m c.hist ∧ ¬ c.Bad ∧ ∀ t, ¬ c.Waiting t := by
  have hm : c.mem.Mild false := Conf.mild (w := false) (adm := fun op => ¬ Writes op) (fun fuel op ho => CPml.exec_m fuel op ho)
    (hs.inv ha hbk).mild (fun _ => rfl) hc hr
  obtain ⟨h1, h2, -⟩ := C51_pml_loaded_scans_partial ha hbk hs hc hm.raced
  refine ⟨h1.quiet (noWriter hr).2, h2, ?_⟩
  rintro t ⟨β, a, k, h1, h2⟩
  have hx := fun p => (hm.vers rfl p).2
  have hs := (Conf.sharing CPml.exec_sh (fun _ => rfl) hc hr t _ h1).1
  cases a with
  | lockS p => simp only [Act.run, hx] at h2; split at h2 <;> simp at h2
  | getVer p => simp only [Act.run, hx] at h2; split at h2 <;> simp at h2
  | load p => simp only [Act.run] at h2; split at h2 <;> try split at h2
              all_goals cases h2
  | peek p => simp only [Act.run] at h2; split at h2 <;> cases h2
  | isInner p => simp only [Act.run] at h2; split at h2 <;> cases h2
  | same p v => simp only [Act.run] at h2; split at h2 <;> cases h2
  | unlockS p => simp only [Act.run] at h2; split at h2 <;> cases h2
  | getRoot => cases h2
  | note b => cases h2
  | _ => exact hs.elim

/-! ## The hypotheses are met

The index of `loadCmds` (`Loaded.lean`), a root over its leaves. -/

/-- The memory of a PML index after `loadCmds`, and then the schedule `sched`. -/
def loadTracePml (sched : List (Sched Nat Nat)) : Option (Conf Nat Nat) :=
  match ((Variant.pml : Variant Nat).impl c120).runB c120 bulk8 40 loadCmds initSt1 with
  | .ok (_, s) => Conf.cmds (CPml.exec c120) 20 sched (Conf.startPml s)
  | _ => none

theorem loadTracePml_reach {sched : List (Sched Nat Nat)} {c : Conf Nat Nat} (h : loadTracePml sched = some c) :
    ∃ s m, BuiltPml c120 bulk8 s m ∧ Conf.Reach (CPml.exec c120) (Conf.startPml s) c := by
  unfold loadTracePml at h
  split at h
  · next o s e =>
    have ha : (Variant.pml : Variant Nat).Admissible c120 := ⟨8, c120_roomy, c120_room⟩
    obtain ⟨m, hb, -⟩ := BuiltPml.of_run ha c120_bulk (cs := loadCmds) (by
      intro x hx
      simp only [loadCmds, List.mem_cons, List.not_mem_nil, or_false] at hx
      rcases hx with rfl | rfl | rfl | rfl
      · trivial
      · exact .inr ⟨by simp [Spec.Ascending], .inl (by decide)⟩
      · trivial
      · trivial) e
    exact ⟨s, m, hb, Conf.cmds_reach .refl h⟩
  · cases h

/-- C51: one thread reads and another scans while a third one writes, a page is split. -/
example : ∃ (s : St Nat Nat) (m : Map Nat Nat) (c : Conf Nat Nat), (Variant.pml : Variant Nat).Admissible c120 ∧ BulkRoomy c120 bulk8 ∧ BuiltPml c120 bulk8 s m ∧
    Conf.Reach (CPml.exec c120) (Conf.startPml s) c ∧ c.mem.raced = false ∧
    .res 2 (.recs [(50, 50), (60, 60), (70, 70), (75, 75)]) ∈ c.hist ∧ .res 1 (.recs [(70, 70), (75, 75), (100, 100), (110, 110)]) ∈ c.hist := by
  have h : (loadTracePml [.inv 1 (.read 40), .go 1 6, .inv 0 (.delete 10), .go 0 18, .res 0, .inv 2 (.scan (some (50, true)) none), .go 2 7,
      .inv 0 (.delete 20), .go 0 18, .res 0, .go 1 4, .res 1, .inv 0 (.delete 30), .go 0 18, .res 0, .go 2 4, .res 2, .inv 0 (.write 100 100),
      .go 0 18, .res 0, .inv 0 (.write 110 110), .go 0 18, .res 0, .inv 0 (.delete 40), .go 0 32, .res 0, .inv 0 (.delete 50), .go 0 18, .res 0,
      .inv 0 (.delete 60), .go 0 18, .res 0, .inv 1 (.scan none none), .go 1 17, .res 1]).map (fun c => decide (c.mem.raced = false ∧
      .res 2 (.recs [(50, 50), (60, 60), (70, 70), (75, 75)]) ∈ c.hist ∧
      .res 1 (.recs [(70, 70), (75, 75), (100, 100), (110, 110)]) ∈ c.hist)) = some true := by decide +kernel
  rw [Option.map_eq_some_iff] at h
  obtain ⟨c, h1, h2⟩ := h
  obtain ⟨a1, a2, a3⟩ := of_decide_eq_true h2
  obtain ⟨s, m, b1, b2⟩ := loadTracePml_reach h1
  exact ⟨s, m, c, ⟨8, c120_roomy, c120_room⟩, c120_bulk, b1, b2, a1, a2, a3⟩

/-- C51, only writers: thread 1 waits for thread 0, later both are done and thread 0 works again while thread 1 waits once more. -/
example : ∃ (s : St Nat Nat) (m : Map Nat Nat) (c : Conf Nat Nat), (Variant.pml : Variant Nat).Admissible c120 ∧ BulkRoomy c120 bulk8 ∧ BuiltPml c120 bulk8 s m ∧
    Conf.Reach (CPml.exec c120) (Conf.startPml s) c ∧ (∀ t k, Ev.inv t (.read k) ∉ c.hist) ∧ (∀ t b e, Ev.inv t (.scan b e) ∉ c.hist) ∧
    c.Waiting 1 ∧ .res 1 (.code .success) ∈ c.hist := by
  have h : (loadTracePml [.inv 0 (.delete 10), .go 0 9, .inv 1 (.write 100 100), .go 1 2, .go 0 9, .res 0, .go 1 16, .res 1, .inv 0 (.delete 20),
      .go 0 9, .inv 1 (.write 110 110), .go 1 2]).map (fun c => decide (c.hist.map (fun e => match e with
        | .inv _ (.write _ _) | .inv _ (.delete _) | .res _ _ => true
        | _ => false) = [true, true, true, true, true, true] ∧ (c.waitsAt 1).isSome = true ∧ .res 1 (.code .success) ∈ c.hist)) = some true := by decide +kernel
  rw [Option.map_eq_some_iff] at h
  obtain ⟨c, h1, h2⟩ := h
  obtain ⟨a1, a2, a3⟩ := of_decide_eq_true h2
  obtain ⟨s, m, b1, b2⟩ := loadTracePml_reach h1
  obtain ⟨x, hx⟩ := Option.isSome_iff_exists.1 a2
  have key : ∀ e ∈ c.hist, (match e with
        | .inv _ (.write _ _) | .inv _ (.delete _) | .res _ _ => true
        | _ => false) = true := by
    intro e he
    have := List.mem_map_of_mem (f := fun e : Ev Nat Nat => match e with
        | .inv _ (.write _ _) | .inv _ (.delete _) | .res _ _ => true
        | _ => false) he
    rw [a1] at this
    simpa using this
  exact ⟨s, m, c, ⟨8, c120_roomy, c120_room⟩, c120_bulk, b1, b2, fun t k hm => (by cases key _ hm), fun t b e hm => (by cases key _ hm),
    Conf.waiting_of_at hx, a3⟩

/-- C54: four threads read and scan. -/
example : ∃ (s : St Nat Nat) (m : Map Nat Nat) (c : Conf Nat Nat), (Variant.pml : Variant Nat).Admissible c120 ∧ BulkRoomy c120 bulk8 ∧ BuiltPml c120 bulk8 s m ∧
    Conf.Reach (CPml.exec c120) (Conf.startPml s) c ∧ (∀ t op, .inv t op ∈ c.hist → ¬ Writes op) ∧
    c.hist = [.inv 1 (.read 40), .inv 0 (.read 10), .inv 2 (.scan none none), .res 0 (.payload (some 10)), .res 1 (.payload (some 40)),
      .res 2 (.recs [(10, 10), (20, 20), (30, 30), (40, 40), (50, 50), (60, 60), (70, 70), (75, 75)]), .inv 0 (.read 5), .res 0 (.payload none),
      .inv 3 (.scan (some (20, false)) (some (60, true))), .res 3 (.recs [(30, 30), (40, 40), (50, 50), (60, 60)])] := by
  have h : (loadTracePml [.inv 1 (.read 40), .go 1 6, .inv 0 (.read 10), .go 0 3, .inv 2 (.scan none none), .go 2 7, .go 0 7, .res 0, .go 1 4,
      .res 1, .go 2 7, .res 2, .inv 0 (.read 5), .go 0 10, .res 0, .inv 3 (.scan (some (20, false)) (some (60, true))), .go 3 14, .res 3]).map
      (fun c => decide (c.hist = [.inv 1 (.read 40), .inv 0 (.read 10), .inv 2 (.scan none none), .res 0 (.payload (some 10)), .res 1 (.payload (some 40)),
      .res 2 (.recs [(10, 10), (20, 20), (30, 30), (40, 40), (50, 50), (60, 60), (70, 70), (75, 75)]), .inv 0 (.read 5), .res 0 (.payload none),
      .inv 3 (.scan (some (20, false)) (some (60, true))), .res 3 (.recs [(30, 30), (40, 40), (50, 50), (60, 60)])])) = some true := by decide +kernel
  rw [Option.map_eq_some_iff] at h
  obtain ⟨c, h1, h2⟩ := h
  have a1 := of_decide_eq_true h2
  obtain ⟨s, m, b1, b2⟩ := loadTracePml_reach h1
  refine ⟨s, m, c, ⟨8, c120_roomy, c120_room⟩, c120_bulk, b1, b2, fun t op hm => ?_, a1⟩
  rw [a1] at hm
  simp at hm
  rcases hm with ⟨_, rfl⟩ | ⟨_, rfl⟩ | ⟨_, rfl⟩ | ⟨_, rfl⟩ | ⟨_, rfl⟩ <;> simp [Writes]

end BT
