import Verif.RetiredOk
import Verif.Props.Loaded

/-!
# When may a page be reused? (C31)

`p ∈ c.mem.gc`: page `p` has been handed to the garbage collector.  Epoch-based reclamation reuses the page when every thread has been between
two calls since then (`d.thr t = none`).  `c'.mem.Reaches p` (`SpecReach`): a search that starts now can come to `p`.
`C31_psl_retired_page_reached` and `C31_osl_retired_page_reached` show that a page can still be reached when it is handed over, which is what C31
excludes (the root, when the tree shrinks); the theorems below say for how long: not after every thread has been idle once.  Leaves are out
of reach when they are handed over.
-/

set_option linter.unusedSectionVars false

namespace BT
open Spec
variable {K V : Type} [LinearOrder K] {cfg : Cfg K} {bc : BulkCfg} {s : St K V} {m : Map K V} {c c' : Conf K V} {key : Option K} {p : Ptr}

/-- C31 for PSL.  Missing: the page is out of reach at once (false, `C31_psl_retired_page_reached`), and executions with one of the situations of
`C22_psl_linearizable_partial`. -/
theorem C31_psl_retired_unreachable_partial (ha : Variant.psl.Admissible cfg) (hbk : BulkRoomy cfg bc) (hs : Built .psl cfg bc s m)
    (hc : Conf.Reach (CPsl.execS cfg) (Conf.start s) c) (hp : p ∈ c.mem.gc)
    (hg : ∀ t, ∃ d, Conf.Reach (CPsl.execS cfg) c d ∧ Conf.Reach (CPsl.execS cfg) d c' ∧ d.thr t = none) (hn : c'.mem.raced = false) :
    ¬ c'.mem.Reaches p := by
  have hi := hs.inv ha hbk
  obtain ⟨L, hr, hb⟩ := ha
  obtain h0 | ⟨w, h0⟩ := hi.sim
  · cases h0
  have hS := sims_sim (cfg := cfg) (I := CPsl.execS cfg) (m0 := m) (fun t fuel op w a b d =>
    (CPsl.execS_ok hr hb t fuel op w a b.1 (fun _ => World.Wr.of b.2.1) b.2.2.2 (World.Bare.of b.2.1) d).mono
      fun _ _ h => ⟨h.1, h.2.1, h.2.2.2.trans b.2.1, (fun e => by rw [hb] at e; cases e), h.2.2.1⟩)
  obtain ⟨w, h1, h2⟩ := hS.grace (CPsl.execS_pays cfg) h0 (fun _ => rfl) rfl hc hp hg hn
  rw [← hS.mem h1]
  exact h2.unreachable hb (hS.inv h1)

/-- C31 for OSL.  Missing: the page is out of reach at once (false, `C31_osl_retired_page_reached`), and executions with one of the situations of
`C23_osl_linearizable_partial`. -/
theorem C31_osl_retired_unreachable_partial (ha : (Variant.osl key).Admissible cfg) (hbk : BulkRoomy cfg bc) (hs : Built (.osl key) cfg bc s m)
    (hc : Conf.Reach (COsl.execS cfg) (Conf.start s) c) (hp : p ∈ c.mem.gc)
    (hg : ∀ t, ∃ d, Conf.Reach (COsl.execS cfg) c d ∧ Conf.Reach (COsl.execS cfg) d c' ∧ d.thr t = none) (hn : c'.mem.raced = false) :
    ¬ c'.mem.Reaches p := by
  have hi := hs.inv ha hbk
  obtain ⟨L, hr, hb⟩ := ha
  obtain h0 | ⟨w, h0⟩ := hi.sim
  · cases h0
  have hS := sims_sim (cfg := cfg) (I := COsl.execS cfg) (m0 := m) (fun t fuel op w a b d =>
    (COsl.execS_ok hr hb t fuel op w a b.2.1 b.2.2.2 b.1 d).mono fun _ _ h => ⟨h.1, h.2.1, h.2.2.2.trans b.2.1, (fun e => by rw [hb] at e; cases e), h.2.2.1⟩)
  obtain ⟨w, h1, h2⟩ := hS.grace (COsl.execS_pays cfg) h0 (fun _ => rfl) rfl hc hp hg hn
  rw [← hS.mem h1]
  exact h2.unreachable hb (hS.inv h1)

/-- C31 for PSL with one writer at a time and any number of threads that read and scan.  Missing: the page is out of reach at once. -/
theorem C31_psl_one_writer_retired_unreachable_partial (ha : Variant.psl.Admissible cfg) (hbk : BulkRoomy cfg bc) (hs : Built .psl cfg bc s m)
    (hc : Conf.Reach (CPsl.execS cfg) (Conf.start s) c) (hp : p ∈ c.mem.gc)
    (hg : ∀ t, ∃ d, Conf.Reach (CPsl.execS cfg) c d ∧ Conf.Reach (CPsl.execS cfg) d c' ∧ d.thr t = none) (ho : OneWriter c'.hist) :
    ¬ c'.mem.Reaches p := by
  have hi := hs.inv ha hbk
  obtain ⟨L, hr, hb⟩ := ha
  obtain ⟨w, h0⟩ := hi.solo hb
  have hS := sims_solo (m0 := m) (CPsl.execS_ok hr hb) (fun _ h => (CPsl.idleS hr hb hi.locks h).idleFree)
  obtain ⟨w, h1, h2⟩ := hS.grace (CPsl.execS_pays cfg) ⟨.refl, h0⟩ (fun _ => rfl) rfl hc hp hg ho
  rw [← hS.mem h1]
  exact h2.unreachable hb (hS.inv h1)

/-- C31 for OSL with one writer at a time and any number of threads that read.  Missing: the page is out of reach at once. -/
theorem C31_osl_one_writer_retired_unreachable_partial (ha : (Variant.osl key).Admissible cfg) (hbk : BulkRoomy cfg bc)
    (hs : Built (.osl key) cfg bc s m) (hc : Conf.Reach (COsl.exec cfg) (Conf.start s) c) (hp : p ∈ c.mem.gc)
    (hg : ∀ t, ∃ d, Conf.Reach (COsl.exec cfg) c d ∧ Conf.Reach (COsl.exec cfg) d c' ∧ d.thr t = none) (ho : OneWriter c'.hist) :
    ¬ c'.mem.Reaches p := by
  have hi := hs.inv ha hbk
  obtain ⟨L, hr, hb⟩ := ha
  obtain ⟨w, h0⟩ := hi.solo hb
  have hS := sims_solo (m0 := m) (COsl.exec_ok hr hb) (fun _ h => (COsl.idle hr hb hi.locks h).idleFree)
  obtain ⟨w, h1, h2⟩ := hS.grace (COsl.exec_pays cfg) ⟨.refl, h0⟩ (fun _ => rfl) rfl hc hp hg ho
  rw [← hS.mem h1]
  exact h2.unreachable hb (hS.inv h1)

/-! ## Leaves -/

theorem leaf_unreachable {I : CImpl K V} {P : Conf K V → Prop} {R : Conf K V → World K V → Prop} {c0 : Conf K V} {w0 : World K V} (hb : cfg.blink = true)
    (hS : Sims cfg I P R) (h0 : R c0 w0) (hg : c0.mem.gc = []) (hc : Conf.Reach I c0 c) (hn : P c) (hp : p ∈ c.mem.gc) {n : Node K V}
    (he : c.mem.heap p = some n) (hl : n.isInner = false) : ¬ c.mem.Reaches p := by
  obtain ⟨w, h1, h2⟩ := hS.run (F := Leaves) (fun l _ a => l.leaves a) h0 (fun p hp => by rw [hg] at hp; cases hp) hc hn
  obtain ⟨hpub, hm⟩ := h2 p hp
  have hi := hS.inv h1
  rw [← hS.mem h1] at he ⊢
  have hk := hi.kind hpub he
  rw [hl] at hk
  obtain ⟨τ, q, e⟩ := hm (by simpa using hk.symm)
  exact (hi.merged_lost e).unreachable hb hi

/-- C31 for PSL and leaves: a leaf is out of reach from the moment at which it is handed over.  Missing: inner pages, and executions with one of
the situations of `C22_psl_linearizable_partial`. -/
theorem C31_psl_retired_leaf_unreachable_partial (ha : Variant.psl.Admissible cfg) (hbk : BulkRoomy cfg bc) (hs : Built .psl cfg bc s m)
    (hc : Conf.Reach (CPsl.execS cfg) (Conf.start s) c) (hn : c.mem.raced = false) (hp : p ∈ c.mem.gc) {n : Node K V}
    (he : c.mem.heap p = some n) (hl : n.isInner = false) : ¬ c.mem.Reaches p := by
  have hi := hs.inv ha hbk
  obtain ⟨L, hr, hb⟩ := ha
  obtain h0 | ⟨w, h0⟩ := hi.sim
  · cases h0
  have hS := sims_sim (cfg := cfg) (I := CPsl.execS cfg) (m0 := m) (fun t fuel op w a b d =>
    (CPsl.execS_ok hr hb t fuel op w a b.1 (fun _ => World.Wr.of b.2.1) b.2.2.2 (World.Bare.of b.2.1) d).mono
      fun _ _ h => ⟨h.1, h.2.1, h.2.2.2.trans b.2.1, (fun e => by rw [hb] at e; cases e), h.2.2.1⟩)
  exact leaf_unreachable hb hS h0 rfl hc hn hp he hl

/-- C31 for OSL and leaves.  Missing: inner pages, and executions with one of the situations of `C23_osl_linearizable_partial`. -/
theorem C31_osl_retired_leaf_unreachable_partial (ha : (Variant.osl key).Admissible cfg) (hbk : BulkRoomy cfg bc)
    (hs : Built (.osl key) cfg bc s m) (hc : Conf.Reach (COsl.execS cfg) (Conf.start s) c) (hn : c.mem.raced = false) (hp : p ∈ c.mem.gc)
    {n : Node K V} (he : c.mem.heap p = some n) (hl : n.isInner = false) : ¬ c.mem.Reaches p := by
  have hi := hs.inv ha hbk
  obtain ⟨L, hr, hb⟩ := ha
  obtain h0 | ⟨w, h0⟩ := hi.sim
  · cases h0
  have hS := sims_sim (cfg := cfg) (I := COsl.execS cfg) (m0 := m) (fun t fuel op w a b d =>
    (COsl.execS_ok hr hb t fuel op w a b.2.1 b.2.2.2 b.1 d).mono fun _ _ h => ⟨h.1, h.2.1, h.2.2.2.trans b.2.1, (fun e => by rw [hb] at e; cases e), h.2.2.1⟩)
  exact leaf_unreachable hb hS h0 rfl hc hn hp he hl

/-- C31 for PSL and leaves, with one writer at a time and any number of threads that read and scan.  Missing: inner pages. -/
theorem C31_psl_one_writer_retired_leaf_unreachable_partial (ha : Variant.psl.Admissible cfg) (hbk : BulkRoomy cfg bc) (hs : Built .psl cfg bc s m)
    (hc : Conf.Reach (CPsl.execS cfg) (Conf.start s) c) (ho : OneWriter c.hist) (hp : p ∈ c.mem.gc) {n : Node K V}
    (he : c.mem.heap p = some n) (hl : n.isInner = false) : ¬ c.mem.Reaches p := by
  have hi := hs.inv ha hbk
  obtain ⟨L, hr, hb⟩ := ha
  obtain ⟨w, h0⟩ := hi.solo hb
  have hS := sims_solo (m0 := m) (CPsl.execS_ok hr hb) (fun _ h => (CPsl.idleS hr hb hi.locks h).idleFree)
  exact leaf_unreachable hb hS ⟨.refl, h0⟩ rfl hc ho hp he hl

/-- C31 for OSL and leaves, with one writer at a time and any number of threads that read.  Missing: inner pages. -/
theorem C31_osl_one_writer_retired_leaf_unreachable_partial (ha : (Variant.osl key).Admissible cfg) (hbk : BulkRoomy cfg bc)
    (hs : Built (.osl key) cfg bc s m) (hc : Conf.Reach (COsl.exec cfg) (Conf.start s) c) (ho : OneWriter c.hist) (hp : p ∈ c.mem.gc)
    {n : Node K V} (he : c.mem.heap p = some n) (hl : n.isInner = false) : ¬ c.mem.Reaches p := by
  have hi := hs.inv ha hbk
  obtain ⟨L, hr, hb⟩ := ha
  obtain ⟨w, h0⟩ := hi.solo hb
  have hS := sims_solo (m0 := m) (COsl.exec_ok hr hb) (fun _ h => (COsl.idle hr hb hi.locks h).idleFree)
  exact leaf_unreachable hb hS ⟨.refl, h0⟩ rfl hc ho hp he hl

/-! ## Configurations that meet the hypotheses

Two merges of leaves hand the pages 2 and 4 over; then the root 3 has one child left, and is handed over while it can still be reached.  A
reader runs meanwhile. -/

/-- Every call of the history has returned. -/
def allBack : List (Ev Nat Nat) → Bool
  | [] => true
  | .inv t _ :: h => h.any (fun x => match x with | .res u _ => decide (u = t) | _ => false) && allBack h
  | .res _ _ :: h => allBack h

theorem allBack_idle {h : List (Ev Nat Nat)} (hb : allBack h = true) {t : Tid} {op : Op Nat Nat} : ¬ Pending h t op := by
  rintro ⟨h1, h2, rfl, h3⟩
  induction h1 with
  | nil =>
    simp only [List.nil_append, allBack, Bool.and_eq_true, List.any_eq_true] at hb
    obtain ⟨⟨x, hx, hy⟩, -⟩ := hb
    cases x with
    | inv => cases hy
    | res u out => exact h3 out (by simpa [of_decide_eq_true hy] using hx)
  | cons x h1 ih =>
    refine ih ?_
    cases x <;> simp [allBack] at hb
    · exact hb.2
    · exact hb

theorem grace_of_idle {I : CImpl Nat Nat} {s : St Nat Nat} {c : Conf Nat Nat} (hc : Conf.Reach I (Conf.start s) c) (hb : allBack c.hist = true) (t : Tid) :
    ∃ d, Conf.Reach I c d ∧ Conf.Reach I d c ∧ d.thr t = none := by
  refine ⟨c, .refl, .refl, ?_⟩
  by_contra h
  obtain ⟨op, ho⟩ := hc.calling (fun _ => rfl) h
  exact allBack_idle hb ho

/-- PSL: the reader has loaded `root_` before the root is removed, and follows the removed page -/
example : ∃ (s : St Nat Nat) (m : Map Nat Nat) (c : Conf Nat Nat), (Variant.psl : Variant Nat).Admissible c200 ∧ BulkRoomy c200 bulk8 ∧ Built (Variant.psl : Variant Nat) c200 bulk8 s m ∧
    Conf.Reach (CPsl.execS c200) (Conf.start s) c ∧ c.mem.gc = [3, 4, 2] ∧
    (∀ t, ∃ d, Conf.Reach (CPsl.execS c200) c d ∧ Conf.Reach (CPsl.execS c200) d c ∧ d.thr t = none) ∧ OneWriter c.hist ∧ c.mem.raced = false ∧
    ∃ n, c.mem.heap 2 = some n ∧ n.isInner = false := by
  have h : (loadTrace (Variant.psl) c200 (CPsl.execS c200) [.inv 1 (.read 40), .go 1 1, .inv 0 (.delete 10), .go 0 13, .res 0, .inv 0 (.delete 20), .go 0 13, .res 0, .inv 0 (.delete 30), .go 0 34, .res 0,
      .inv 0 (.delete 40), .go 0 13, .res 0, .inv 0 (.delete 50), .go 0 43, .res 0, .inv 0 (.delete 60), .go 0 8, .res 0, .go 1 9, .res 1]).map
      (fun c => decide (oneWriterFrom none c.hist = true ∧ c.mem.raced = false ∧ c.mem.gc = [3, 4, 2] ∧ allBack c.hist = true ∧
      (c.mem.heap 2).map (fun n => n.isInner) = some false)) = some true := by
    decide +kernel
  rw [Option.map_eq_some_iff] at h
  obtain ⟨c, h1, h2⟩ := h
  obtain ⟨a1, a2, a3, a4, a5⟩ := of_decide_eq_true h2
  rw [Option.map_eq_some_iff] at a5
  have ha : (Variant.psl : Variant Nat).Admissible c200 := ⟨8, c200_roomy, rfl⟩
  obtain ⟨s, m, b1, b2⟩ := loadTrace_reach ha c200_bulk h1
  exact ⟨s, m, c, ha, c200_bulk, b1, b2, a3, grace_of_idle b2 a4, oneWriter_of_check a1, a2, a5⟩

/-- OSL -/
example : ∃ (s : St Nat Nat) (m : Map Nat Nat) (c : Conf Nat Nat), (Variant.osl none : Variant Nat).Admissible c200 ∧ BulkRoomy c200 bulk8 ∧ Built (Variant.osl none : Variant Nat) c200 bulk8 s m ∧
    Conf.Reach (COsl.execS c200) (Conf.start s) c ∧ c.mem.gc = [3, 4, 2] ∧
    (∀ t, ∃ d, Conf.Reach (COsl.execS c200) c d ∧ Conf.Reach (COsl.execS c200) d c ∧ d.thr t = none) ∧ OneWriter c.hist ∧ c.mem.raced = false ∧
    ∃ n, c.mem.heap 2 = some n ∧ n.isInner = false := by
  have h : (loadTrace (Variant.osl none) c200 (COsl.execS c200) [.inv 1 (.read 40), .go 1 3, .inv 0 (.delete 10), .go 0 18, .res 0, .inv 0 (.delete 20), .go 0 18, .res 0, .inv 0 (.delete 30), .go 0 41, .res 0,
      .inv 0 (.delete 40), .go 0 18, .res 0, .inv 0 (.delete 50), .go 0 50, .res 0, .inv 0 (.delete 60), .go 0 11, .res 0, .go 1 17, .res 1]).map
      (fun c => decide (oneWriterFrom none c.hist = true ∧ c.mem.raced = false ∧ c.mem.gc = [3, 4, 2] ∧ allBack c.hist = true ∧
      (c.mem.heap 2).map (fun n => n.isInner) = some false)) = some true := by
    decide +kernel
  rw [Option.map_eq_some_iff] at h
  obtain ⟨c, h1, h2⟩ := h
  obtain ⟨a1, a2, a3, a4, a5⟩ := of_decide_eq_true h2
  rw [Option.map_eq_some_iff] at a5
  have ha : (Variant.osl none : Variant Nat).Admissible c200 := ⟨8, c200_roomy, rfl⟩
  obtain ⟨s, m, b1, b2⟩ := loadTrace_reach ha c200_bulk h1
  exact ⟨s, m, c, ha, c200_bulk, b1, b2, a3, grace_of_idle b2 a4, oneWriter_of_check a1, a2, a5⟩

/-- OSL, without scans -/
example : ∃ (s : St Nat Nat) (m : Map Nat Nat) (c : Conf Nat Nat), (Variant.osl none : Variant Nat).Admissible c200 ∧ BulkRoomy c200 bulk8 ∧ Built (Variant.osl none : Variant Nat) c200 bulk8 s m ∧
    Conf.Reach (COsl.exec c200) (Conf.start s) c ∧ c.mem.gc = [3, 4, 2] ∧
    (∀ t, ∃ d, Conf.Reach (COsl.exec c200) c d ∧ Conf.Reach (COsl.exec c200) d c ∧ d.thr t = none) ∧ OneWriter c.hist ∧ c.mem.raced = false ∧
    ∃ n, c.mem.heap 2 = some n ∧ n.isInner = false := by
  have h : (loadTrace (Variant.osl none) c200 (COsl.exec c200) [.inv 1 (.read 40), .go 1 3, .inv 0 (.delete 10), .go 0 18, .res 0, .inv 0 (.delete 20), .go 0 18, .res 0, .inv 0 (.delete 30), .go 0 41, .res 0,
      .inv 0 (.delete 40), .go 0 18, .res 0, .inv 0 (.delete 50), .go 0 50, .res 0, .inv 0 (.delete 60), .go 0 11, .res 0, .go 1 17, .res 1]).map
      (fun c => decide (oneWriterFrom none c.hist = true ∧ c.mem.raced = false ∧ c.mem.gc = [3, 4, 2] ∧ allBack c.hist = true ∧
      (c.mem.heap 2).map (fun n => n.isInner) = some false)) = some true := by
    decide +kernel
  rw [Option.map_eq_some_iff] at h
  obtain ⟨c, h1, h2⟩ := h
  obtain ⟨a1, a2, a3, a4, a5⟩ := of_decide_eq_true h2
  rw [Option.map_eq_some_iff] at a5
  have ha : (Variant.osl none : Variant Nat).Admissible c200 := ⟨8, c200_roomy, rfl⟩
  obtain ⟨s, m, b1, b2⟩ := loadTrace_reach ha c200_bulk h1
  exact ⟨s, m, c, ha, c200_bulk, b1, b2, a3, grace_of_idle b2 a4, oneWriter_of_check a1, a2, a5⟩

end BT
