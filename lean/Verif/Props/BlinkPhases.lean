import Verif.BlinkPhase
import Verif.Props.Loaded
import Verif.Props.PmlPhases

/-!
# PSL and OSL used in phases (C56)

As in `PmlPhases.lean`.  In a phase of many threads there is one writer at a time (no execution of this kind is excluded), or there are many
and none of the known races has happened.
-/

set_option linter.unusedSectionVars false

namespace BT
open Spec Relation
variable {K V : Type} [LinearOrder K] {cfg : Cfg K} {bc : BulkCfg} {s : St K V} {m : Map K V} {c : Conf K V} {o : List (Phased K V)} {key : Option K}

/-- A PSL index has been used in phases, `o` is what the callers have seen, and `s` is the memory.  A phase of many threads begins without
locks; calls that write do not overlap in it, or (`overlapping`) none of the situations of `C34_psl_scans_partial` has come up. -/
inductive UsedPsl (cfg : Cfg K) (bc : BulkCfg) : List (Phased K V) → St K V → Prop
  | new : UsedPsl cfg bc [] initSt
  | calls {o s s' fuel cs outs} : UsedPsl cfg bc o s → (∀ x ∈ cs, Cmd.Ok cfg bc x) →
      ((Variant.psl : Variant K).impl cfg).runB cfg bc fuel cs s = .ok (outs, s') → UsedPsl cfg bc (o ++ [.calls cs outs]) s'
  | threads {o : List (Phased K V)} {s : St K V} {c : Conf K V} : UsedPsl cfg bc o s → Conf.Reach (CPsl.execS cfg) (Conf.start s) c → OneWriter c.hist →
      (∀ t, c.thr t = none) → UsedPsl cfg bc (o ++ [.threads c.hist]) c.state
  | overlapping {o : List (Phased K V)} {s : St K V} {c : Conf K V} : UsedPsl cfg bc o s → Conf.Reach (CPsl.execS cfg) (Conf.start s) c →
      c.mem.raced = false → (∀ t, c.thr t = none) → UsedPsl cfg bc (o ++ [.threads c.hist]) c.state

/-- The same for OSL.  Of a phase of many threads with one writer at a time `o` has the calls other than scans (scans:
`C45_osl_one_writer_scan_misses`), of one without the situations of `C34_osl_scans_partial` it has all; `key` is what an earlier scan has left
behind in the thread that makes the calls. -/
inductive UsedOsl (cfg : Cfg K) (bc : BulkCfg) : List (Phased K V) → St K V → Prop
  | new : UsedOsl cfg bc [] initSt
  | calls {o s s' fuel cs outs} {key : Option K} : UsedOsl cfg bc o s → (∀ x ∈ cs, Cmd.Ok cfg bc x) →
      ((Variant.osl key).impl cfg).runB cfg bc fuel cs s = .ok (outs, s') → UsedOsl cfg bc (o ++ [.calls cs outs]) s'
  | threads {o : List (Phased K V)} {s : St K V} {c : Conf K V} : UsedOsl cfg bc o s → Conf.Reach (COsl.execS cfg) (Conf.start s) c → OneWriter c.hist →
      (∀ t, c.thr t = none) → UsedOsl cfg bc (o ++ [.threads (c.hist.filter Ev.point)]) c.state
  | overlapping {o : List (Phased K V)} {s : St K V} {c : Conf K V} : UsedOsl cfg bc o s → Conf.Reach (COsl.execS cfg) (Conf.start s) c →
      c.mem.raced = false → (∀ t, c.thr t = none) → UsedOsl cfg bc (o ++ [.threads c.hist]) c.state

theorem UsedPsl.inv (ha : (Variant.psl : Variant K).Admissible cfg) (hbk : BulkRoomy cfg bc) (h : UsedPsl cfg bc o s) :
    ∃ m, Explained Spec.empty o m ∧ InvD cfg s m := by
  induction h with
  | new => exact ⟨_, .nil _, (InvC.of (inv_init cfg)).toD⟩
  | calls _ hok hrun ih =>
    obtain ⟨m, h1, h2⟩ := ih
    obtain ⟨m', h3, h4⟩ := h2.ran ha hbk hok hrun
    exact ⟨m', .calls h1 h3, h4⟩
  | threads _ hc ho ht ih =>
    obtain ⟨m, h1, h2⟩ := ih
    obtain ⟨L, hr, hb⟩ := ha
    obtain ⟨m', h3, h4⟩ := (solo_sim (CPsl.execS_ok hr hb) (h2.solo hb) (fun _ h => (CPsl.idleS hr hb h2.locks h).idleFree) hc ho).stopped
      (CPsl.idleS hr hb h2.locks hc).wf ht
    exact ⟨m', .threads h1 h3, h4⟩
  | overlapping _ hc hn ht ih =>
    obtain ⟨m, h1, h2⟩ := ih
    obtain ⟨L, hr, hb⟩ := ha
    have hsim := Lg.sim_reach (Lo := blg V cfg) h2.sim (fun t fuel op w a b d => (CPsl.execS_ok hr hb t fuel op w a b.1
      (fun _ => World.Wr.of b.2.1) b.2.2.2 (World.Bare.of b.2.1) d).mono fun _ _ h =>
        ⟨h.1, h.2.1, h.2.2.2.trans b.2.1, (fun e => by rw [hb] at e; cases e), h.2.2.1⟩) hc hn
    obtain ⟨m', h3, h4⟩ := sim_stopped hsim hn (CPsl.idleS hr hb h2.locks hc).wf ht
    exact ⟨m', .threads h1 h3, h4⟩

theorem UsedOsl.inv (ha : (Variant.osl key).Admissible cfg) (hbk : BulkRoomy cfg bc) (h : UsedOsl cfg bc o s) :
    ∃ m, Explained (V := V) Spec.empty o m ∧ InvD cfg s m := by
  induction h with
  | new => exact ⟨_, .nil _, (InvC.of (inv_init cfg)).toD⟩
  | @calls o s s' fuel cs outs key' _ hok hrun ih =>
    obtain ⟨m, h1, h2⟩ := ih
    have ha' : (Variant.osl key').Admissible cfg := ha
    obtain ⟨m', h3, h4⟩ := h2.ran ha' hbk hok hrun
    exact ⟨m', .calls h1 h3, h4⟩
  | @threads o s c _ hc ho ht ih =>
    obtain ⟨m, h1, h2⟩ := ih
    obtain ⟨L, hr, hb⟩ := ha
    obtain ⟨c', d1, d2, d3⟩ := drop_scans COsl.adds (fun _ => rfl) rfl hc
    have ht' : ∀ t, c'.thr t = none := fun t => by
      rcases d1.thr t with ⟨e, -⟩ | ⟨e, -⟩
      · rw [e]; exact ht t
      · exact e
    obtain ⟨m', h3, h4⟩ := (solo_sim (COsl.exec_ok hr hb) (h2.solo hb) (fun _ h => (COsl.idle hr hb h2.locks h).idleFree) d2 (d3 ho)).stopped
      (COsl.idle hr hb h2.locks d2).wf ht'
    rw [d1.hist] at h3
    have e : c'.state = c.state := by
      obtain ⟨r, e⟩ := d1.mem
      simp only [Conf.state, e]
    rw [e] at h4
    exact ⟨m', .threads h1 h3, h4⟩
  | overlapping _ hc hn ht ih =>
    obtain ⟨m, h1, h2⟩ := ih
    obtain ⟨L, hr, hb⟩ := ha
    have hsim := Lg.sim_reach (Lo := blg V cfg) h2.sim (fun t fuel op w a b d => (COsl.execS_ok hr hb t fuel op w a b.2.1 b.2.2.2 b.1 d).mono
      fun _ _ h => ⟨h.1, h.2.1, h.2.2.2.trans b.2.1, (fun e => by rw [hb] at e; cases e), h.2.2.1⟩) hc hn
    obtain ⟨m', h3, h4⟩ := sim_stopped hsim hn (osl_inv hr hb h2.locks hc).wf ht
    exact ⟨m', .threads h1 h3, h4⟩

/-- C56 for PSL: one map explains all answers in all phases.  Missing: phases in which calls that write overlap and one of the
situations of `C34_psl_scans_partial` comes up (false, `C26_psl_write_lost`). -/
theorem C56_psl_phases_partial (ha : (Variant.psl : Variant K).Admissible cfg) (hbk : BulkRoomy cfg bc) (hu : UsedPsl cfg bc o s) :
    ∃ m, Explained Spec.empty o m := by
  obtain ⟨m, h, -⟩ := hu.inv ha hbk
  exact ⟨m, h⟩

/-- C56 for OSL: one map explains all answers in all phases, but for scans in phases with one writer at a time.  Missing: as above, and these scans
(false, `C45_osl_one_writer_scan_misses`). -/
theorem C56_osl_phases_partial (ha : (Variant.osl key).Admissible cfg) (hbk : BulkRoomy cfg bc) (hu : UsedOsl cfg bc o s) :
    ∃ m, Explained (V := V) Spec.empty o m := by
  obtain ⟨m, h, -⟩ := hu.inv ha hbk
  exact ⟨m, h⟩

/-- C56 for PSL: a further phase goes well: the calls of one thread return; the calls of many threads run into nothing undefined and, with one
writer at a time, do not wait for each other in a cycle.  Missing: as above; cycles with many writers (`C28_psl_merge_blocks_itself`). -/
theorem C56_psl_next_phase_partial (ha : (Variant.psl : Variant K).Admissible cfg) (hbk : BulkRoomy cfg bc) (hu : UsedPsl cfg bc o s) :
    (∀ cs, (∀ x ∈ cs, Cmd.Ok cfg bc x) → ∃ fuel outs s', ((Variant.psl : Variant K).impl cfg).runB cfg bc fuel cs s = .ok (outs, s')) ∧
    (∀ c, Conf.Reach (CPsl.execS cfg) (Conf.start s) c → OneWriter c.hist →
      ¬ c.Bad ∧ ∀ t, ¬ TransGen c.WaitsFor t t ∧ (c.Waiting t → ∃ u op, TransGen c.WaitsFor t u ∧ Pending c.hist u op ∧ ¬ c.Waiting u)) ∧
    ∀ c, Conf.Reach (CPsl.execS cfg) (Conf.start s) c → c.mem.raced = false → ¬ c.Bad := by
  obtain ⟨m, -, hi⟩ := hu.inv ha hbk
  refine ⟨fun cs hok => ?_, fun c hc ho => ?_, fun c hc hn => ?_⟩
  · obtain ⟨N, outs, s', m', h1, -⟩ := InvD.run ha hbk cs s m hi hok
    exact ⟨N, outs, s', h1⟩
  · obtain ⟨L, hr, hb⟩ := ha
    have h := psl_solo hr hb (hi.solo hb) hi.locks (fun _ => rfl) hc ho
    exact ⟨(solo_partwise (CPsl.execS_ok hr hb) (hi.solo hb) (fun _ h => (CPsl.idleS hr hb hi.locks h).idleFree) hc ho).2.1,
      fun t => ⟨h.acyclic, (CPsl.idleS hr hb hi.locks hc).progress h⟩⟩
  · obtain ⟨L, hr, hb⟩ := ha
    exact (CPsl.partwise hr hb hi.sim hc hn).1

/-- C56 for OSL: a further phase goes well; with one writer at a time nothing but a scan may run into undefined behaviour.  Missing: as above. -/
theorem C56_osl_next_phase_partial (ha : (Variant.osl key).Admissible cfg) (hbk : BulkRoomy cfg bc) {s : St K V} (hu : UsedOsl cfg bc o s) :
    (∀ cs, (∀ x ∈ cs, Cmd.Ok cfg bc x) → ∃ fuel outs s', ((Variant.osl key).impl cfg).runB cfg bc fuel cs s = .ok (outs, s')) ∧
    (∀ c, Conf.Reach (COsl.execS cfg) (Conf.start s) c → OneWriter c.hist →
      (∀ t, c.thr t = some .ub → ∃ b e, Pending c.hist t (.scan b e)) ∧
      ∀ t, ¬ TransGen c.WaitsFor t t ∧ (c.Waiting t → ∃ u op, TransGen c.WaitsFor t u ∧ Pending c.hist u op ∧ ¬ c.Waiting u)) ∧
    ∀ c, Conf.Reach (COsl.execS cfg) (Conf.start s) c → c.mem.raced = false → ¬ c.Bad := by
  obtain ⟨m, -, hi⟩ := hu.inv ha hbk
  refine ⟨fun cs hok => ?_, fun c hc ho => ?_, fun c hc hn => ?_⟩
  · obtain ⟨N, outs, s', m', h1, -⟩ := InvD.run ha hbk cs s m hi hok
    exact ⟨N, outs, s', h1⟩
  · obtain ⟨L, hr, hb⟩ := ha
    have h := osl_solo hr hb (hi.solo hb) (fun _ => hi.locks) (fun _ => rfl) rfl hc ho
    obtain ⟨c', d1, d2, d3⟩ := drop_scans COsl.adds (fun _ => rfl) rfl hc
    have h5 := (solo_partwise (COsl.exec_ok hr hb) (hi.solo hb) (fun _ h => (COsl.idle hr hb hi.locks h).idleFree) d2 (d3 ho)).2.1
    exact ⟨fun t => d1.bad h5, fun t => ⟨h.acyclic, (osl_inv hr hb hi.locks hc).progress h⟩⟩
  · obtain ⟨L, hr, hb⟩ := ha
    exact (COsl.partwise hr hb hi.sim hc hn).1

/-! ## The hypotheses are met -/

theorem lastCmds_ok200 : ∀ x ∈ lastCmds, Cmd.Ok c200 bulk8 x := by
  intro x hx
  simp only [lastCmds, List.mem_cons, List.not_mem_nil, or_false] at hx
  rcases hx with rfl | rfl | rfl | rfl | rfl
  · trivial
  · trivial
  · trivial
  · exact .inr ⟨by simp [Spec.Ascending], .inl (by decide)⟩
  · trivial

theorem loadCmds_ok200 : ∀ x ∈ loadCmds, Cmd.Ok c200 bulk8 x := by
  intro x hx
  simp only [loadCmds, List.mem_cons, List.not_mem_nil, or_false] at hx
  rcases hx with rfl | rfl | rfl | rfl
  · trivial
  · exact .inr ⟨by simp [Spec.Ascending], .inl (by decide)⟩
  · trivial
  · trivial

def lastOuts : List (Out Nat Nat) := [.payload (some 110), .code .success,
  .recs [(1, 1), (40, 40), (50, 50), (60, 60), (70, 70), (75, 75), (100, 100), (110, 110)], .code .success,
  .recs [(0, 0), (10, 10), (20, 20), (30, 30), (40, 40), (50, 50), (60, 60), (70, 70)]]

/-- The history has ended. -/
def Conf.quiet (c : Conf Nat Nat) : Bool := c.hist.all (fun e => match e with | .inv t _ => (c.thr t).isNone | .res _ _ => true)

theorem Conf.quiet_thr {I : CImpl Nat Nat} {s : St Nat Nat} {c : Conf Nat Nat} (hc : Conf.Reach I (Conf.start s) c) (h : c.quiet = true) (t : Tid) :
    c.thr t = none := by
  by_contra hne
  obtain ⟨op, h', h'', e', -⟩ := Conf.Reach.calling (fun _ => rfl) hc hne
  have hm : Ev.inv t op ∈ c.hist := by rw [e']; simp
  exact hne (Option.isNone_iff_eq_none.1 (List.all_eq_true.1 h _ hm))

/-- PSL: one thread loads the index; three threads read, scan and write at the same time (pages are merged and split); one thread reads, writes,
scans and loads again. -/
example : ∃ (o : List (Phased Nat Nat)) (s : St Nat Nat) (h : List (Ev Nat Nat)) (outs : List (Out Nat Nat)),
    (Variant.psl : Variant Nat).Admissible c200 ∧ BulkRoomy c200 bulk8 ∧ UsedPsl c200 bulk8 o s ∧
    o = [.calls loadCmds outs, .threads h, .calls lastCmds lastOuts] ∧ .res 2 (.recs [(50, 50), (60, 60), (70, 70), (75, 75)]) ∈ h := by
  have h : (loadTrace .psl c200 (CPsl.execS c200) [.inv 1 (.read 40), .go 1 3, .inv 0 (.delete 10), .go 0 13, .res 0, .inv 0 (.delete 20),
      .go 0 13, .res 0, .inv 2 (.scan (some (50, true)) none), .go 2 9, .go 1 8, .res 1, .inv 0 (.delete 30), .go 0 27, .go 2 8, .res 2,
      .go 0 7, .res 0, .inv 0 (.write 100 100), .go 0 14, .res 0, .inv 0 (.write 110 110), .go 0 36, .res 0]).map
      (fun c => decide (oneWriterFrom none c.hist = true ∧ c.quiet = true ∧ .res 2 (.recs [(50, 50), (60, 60), (70, 70), (75, 75)]) ∈ c.hist ∧
      (match ((Variant.psl : Variant Nat).impl c200).runB c200 bulk8 40 lastCmds c.state with
        | .ok x => some x.1
        | _ => none) = some lastOuts)) = some true := by decide +kernel
  rw [Option.map_eq_some_iff] at h
  obtain ⟨c, h1, h2⟩ := h
  obtain ⟨a1, a2, a3, a4⟩ := of_decide_eq_true h2
  unfold loadTrace at h1
  split at h1
  · next outs s e =>
    have hc : Conf.Reach (CPsl.execS c200) (Conf.start s) c := Conf.cmds_reach .refl h1
    split at a4
    · next x e5 =>
      obtain ⟨o5, s5⟩ := x
      simp only [Option.some.injEq] at a4
      subst a4
      have u1 : UsedPsl c200 bulk8 ([] ++ [.calls loadCmds outs]) s := .calls .new loadCmds_ok200 e
      have u2 := UsedPsl.threads u1 hc (oneWriter_of_check a1) (Conf.quiet_thr hc a2)
      have u3 := UsedPsl.calls u2 lastCmds_ok200 e5
      exact ⟨_, _, c.hist, outs, ⟨8, c200_roomy, rfl⟩, c200_bulk, u3, rfl, a3⟩
    · cases a4
  · cases h1

/-- OSL: the same. -/
example : ∃ (o : List (Phased Nat Nat)) (s : St Nat Nat) (h : List (Ev Nat Nat)) (outs : List (Out Nat Nat)),
    (Variant.osl none : Variant Nat).Admissible c200 ∧ BulkRoomy c200 bulk8 ∧ UsedOsl c200 bulk8 o s ∧
    o = [.calls loadCmds outs, .threads h, .calls lastCmds lastOuts] ∧
    h.drop 5 = [.inv 0 (.delete 30), .res 0 (.code .success), .res 1 (.payload (some 40)), .inv 0 (.write 100 100), .res 0 (.code .success),
      .inv 0 (.write 110 110), .res 0 (.code .success)] := by
  have h : (loadTrace (.osl none) c200 (COsl.execS c200) [.inv 1 (.read 40), .go 1 3, .inv 0 (.delete 10), .go 0 18, .res 0,
      .inv 0 (.delete 20), .go 0 18, .res 0, .inv 2 (.scan (some (50, true)) none), .go 2 9, .inv 0 (.delete 30), .go 0 41, .res 0, .go 1 16,
      .res 1, .go 2 29, .res 2, .inv 0 (.write 100 100), .go 0 18, .res 0, .inv 0 (.write 110 110), .go 0 41, .res 0]).map
      (fun c => decide (oneWriterFrom none c.hist = true ∧ c.quiet = true ∧ (c.hist.filter Ev.point).drop 5 = [.inv 0 (.delete 30),
      .res 0 (.code .success), .res 1 (.payload (some 40)), .inv 0 (.write 100 100), .res 0 (.code .success), .inv 0 (.write 110 110),
      .res 0 (.code .success)] ∧
      (match ((Variant.osl none : Variant Nat).impl c200).runB c200 bulk8 40 lastCmds c.state with
        | .ok x => some x.1
        | _ => none) = some lastOuts)) = some true := by decide +kernel
  rw [Option.map_eq_some_iff] at h
  obtain ⟨c, h1, h2⟩ := h
  obtain ⟨a1, a2, a3, a4⟩ := of_decide_eq_true h2
  unfold loadTrace at h1
  split at h1
  · next outs s e =>
    have hc : Conf.Reach (COsl.execS c200) (Conf.start s) c := Conf.cmds_reach .refl h1
    split at a4
    · next x e5 =>
      obtain ⟨o5, s5⟩ := x
      simp only [Option.some.injEq] at a4
      subst a4
      have u1 : UsedOsl c200 bulk8 ([] ++ [.calls loadCmds outs]) s := .calls .new loadCmds_ok200 e
      have u2 := UsedOsl.threads u1 hc (oneWriter_of_check a1) (Conf.quiet_thr hc a2)
      have u3 := UsedOsl.calls u2 lastCmds_ok200 e5
      exact ⟨_, _, c.hist.filter Ev.point, outs, ⟨8, c200_roomy, rfl⟩, c200_bulk, u3, rfl, a3⟩
    · cases a4
  · cases h1

/-- PSL: the same, but two threads write at the same time; the last page is split. -/
example : ∃ (o : List (Phased Nat Nat)) (s : St Nat Nat) (h : List (Ev Nat Nat)) (outs : List (Out Nat Nat)),
    (Variant.psl : Variant Nat).Admissible c200 ∧ BulkRoomy c200 bulk8 ∧ UsedPsl c200 bulk8 o s ∧
    o = [.calls loadCmds outs, .threads h, .calls lastCmds lastOuts] ∧ .res 2 (.recs [(50, 50), (60, 60), (70, 70), (75, 75)]) ∈ h ∧
    h.drop 10 = [.inv 0 (.write 100 100), .inv 3 (.write 110 110), .res 3 (.code .success), .res 0 (.code .success)] := by
  have h : (loadTrace .psl c200 (CPsl.execS c200) [.inv 1 (.read 40), .go 1 3, .inv 0 (.delete 10), .go 0 13, .res 0, .inv 0 (.delete 20),
      .go 0 13, .res 0, .inv 2 (.scan (some (50, true)) none), .go 2 9, .go 1 8, .res 1, .inv 0 (.delete 30), .go 0 27, .go 2 8, .res 2,
      .go 0 7, .res 0, .inv 0 (.write 100 100), .go 0 4, .inv 3 (.write 110 110), .go 3 14, .res 3, .go 0 32, .res 0]).map
      (fun c => decide (c.mem.raced = false ∧ c.quiet = true ∧ (.res 2 (.recs [(50, 50), (60, 60), (70, 70), (75, 75)]) ∈ c.hist ∧
      c.hist.drop 10 = [.inv 0 (.write 100 100), .inv 3 (.write 110 110), .res 3 (.code .success), .res 0 (.code .success)]) ∧
      (match ((Variant.psl : Variant Nat).impl c200).runB c200 bulk8 40 lastCmds c.state with
        | .ok x => some x.1
        | _ => none) = some lastOuts)) = some true := by decide +kernel
  rw [Option.map_eq_some_iff] at h
  obtain ⟨c, h1, h2⟩ := h
  obtain ⟨a1, a2, a3, a4⟩ := of_decide_eq_true h2
  unfold loadTrace at h1
  split at h1
  · next outs s e =>
    have hc : Conf.Reach (CPsl.execS c200) (Conf.start s) c := Conf.cmds_reach .refl h1
    split at a4
    · next x e5 =>
      obtain ⟨o5, s5⟩ := x
      simp only [Option.some.injEq] at a4
      subst a4
      have u1 : UsedPsl c200 bulk8 ([] ++ [.calls loadCmds outs]) s := .calls .new loadCmds_ok200 e
      have u2 := UsedPsl.overlapping u1 hc a1 (Conf.quiet_thr hc a2)
      have u3 := UsedPsl.calls u2 lastCmds_ok200 e5
      exact ⟨_, _, c.hist, outs, ⟨8, c200_roomy, rfl⟩, c200_bulk, u3, rfl, a3⟩
    · cases a4
  · cases h1

/-- OSL: the same; two threads write at the same time and the last page is split. -/
example : ∃ (o : List (Phased Nat Nat)) (s : St Nat Nat) (h : List (Ev Nat Nat)) (outs : List (Out Nat Nat)),
    (Variant.osl none : Variant Nat).Admissible c200 ∧ BulkRoomy c200 bulk8 ∧ UsedOsl c200 bulk8 o s ∧
    o = [.calls loadCmds outs, .threads h, .calls lastCmds lastOuts] ∧ .res 2 (.recs [(50, 50), (60, 60), (70, 70), (75, 75)]) ∈ h ∧
    h.drop 10 = [.inv 0 (.write 100 100), .inv 3 (.write 110 110), .res 3 (.code .success), .res 0 (.code .success)] := by
  have h : (loadTrace (.osl none) c200 (COsl.execS c200) [.inv 1 (.read 40), .go 1 3, .inv 0 (.delete 10), .go 0 18, .res 0,
      .inv 0 (.delete 20), .go 0 18, .res 0, .inv 2 (.scan (some (50, true)) none), .go 2 9, .inv 0 (.delete 30), .go 0 41, .res 0, .go 1 16,
      .res 1, .go 2 29, .res 2, .inv 0 (.write 100 100), .go 0 4, .inv 3 (.write 110 110), .go 3 18, .res 3, .go 0 37, .res 0]).map
      (fun c => decide (c.mem.raced = false ∧ c.quiet = true ∧ (.res 2 (.recs [(50, 50), (60, 60), (70, 70), (75, 75)]) ∈ c.hist ∧
      c.hist.drop 10 = [.inv 0 (.write 100 100), .inv 3 (.write 110 110), .res 3 (.code .success), .res 0 (.code .success)]) ∧
      (match ((Variant.osl none : Variant Nat).impl c200).runB c200 bulk8 40 lastCmds c.state with
        | .ok x => some x.1
        | _ => none) = some lastOuts)) = some true := by decide +kernel
  rw [Option.map_eq_some_iff] at h
  obtain ⟨c, h1, h2⟩ := h
  obtain ⟨a1, a2, a3, a4⟩ := of_decide_eq_true h2
  unfold loadTrace at h1
  split at h1
  · next outs s e =>
    have hc : Conf.Reach (COsl.execS c200) (Conf.start s) c := Conf.cmds_reach .refl h1
    split at a4
    · next x e5 =>
      obtain ⟨o5, s5⟩ := x
      simp only [Option.some.injEq] at a4
      subst a4
      have u1 : UsedOsl c200 bulk8 ([] ++ [.calls loadCmds outs]) s := .calls .new loadCmds_ok200 e
      have u2 := UsedOsl.overlapping u1 hc a1 (Conf.quiet_thr hc a2)
      have u3 := UsedOsl.calls u2 lastCmds_ok200 e5
      exact ⟨_, _, c.hist, outs, ⟨8, c200_roomy, rfl⟩, c200_bulk, u3, rfl, a3⟩
    · cases a4
  · cases h1

end BT
