import Verif.Props.BlinkPhases
import Verif.Props.OmlLocks

/-!
# OML used in phases (C56)

As in `PmlPhases.lean`, for phases of many threads in which none of the known races has happened.
-/

set_option linter.unusedSectionVars false

namespace BT
open Spec Relation
variable {K V : Type} [LinearOrder K] {cfg : Cfg K} {bc : BulkCfg} {s : St K V} {m : Map K V} {c : Conf K V} {o : List (Phased K V)} {key : Option K}
  {junk : Node K V → Node K V → K}

/-- An OML index has been used in phases, `o` is what the callers have seen, and `s` is the memory.  A phase of many threads begins without
locks, and none of the situations of `C34_oml_scans_partial` has come up in it; `key` is what an earlier scan has left behind in the thread that
makes the calls. -/
inductive UsedOml (cfg : Cfg K) (bc : BulkCfg) (junk : Node K V → Node K V → K) : List (Phased K V) → St K V → Prop
  | new : UsedOml cfg bc junk [] initSt
  | calls {o s s' fuel cs outs} {key : Option K} : UsedOml cfg bc junk o s → (∀ x ∈ cs, Cmd.Ok cfg bc x) →
      ((Variant.oml key).impl cfg).runB cfg bc fuel cs s = .ok (outs, s') → UsedOml cfg bc junk (o ++ [.calls cs outs]) s'
  | threads {o : List (Phased K V)} {s : St K V} {c : Conf K V} : UsedOml cfg bc junk o s → Conf.Reach (COml.execS cfg junk) (Conf.start s) c →
      c.mem.raced = false → (∀ t, c.thr t = none) → UsedOml cfg bc junk (o ++ [.threads c.hist]) c.state

theorem UsedOml.inv (ha : (Variant.oml key).Admissible cfg) (hb : cfg.blink = false) (hbk : BulkRoomy cfg bc) (h : UsedOml cfg bc junk o s) :
    ∃ m, Explained (V := V) Spec.empty o m ∧ InvB cfg s m := by
  induction h with
  | new => exact ⟨_, .nil _, InvB.of (inv_init cfg)⟩
  | @calls o s s' fuel cs outs key' _ hok hrun ih =>
    obtain ⟨m, h1, h2⟩ := ih
    have ha' : (Variant.oml key').Admissible cfg := ha
    obtain ⟨m', h3, h4⟩ := h2.ran ha' hbk hok hrun
    exact ⟨m', .calls h1 h3, h4⟩
  | threads _ hc hn ht ih =>
    obtain ⟨m, h1, h2⟩ := ih
    obtain ⟨L, hr, -⟩ := ha
    obtain ⟨m', h3, h4⟩ := sim_stoppedO (COml.simS hr hb h2.sim hc hn) hn
      (COml.ranked hr hb h2.sim h2.locksO oml_lockfree (fun _ => rfl) hc hn).1.wf.al ht
    exact ⟨m', .threads h1 h3, h4⟩

/-- C56 for OML: one map explains all answers in all phases.  Missing: phases with one of the situations of `C34_oml_scans_partial` (false,
`C32_oml_stale_read`). -/
theorem C56_oml_phases_partial (ha : (Variant.oml key).Admissible cfg) (hb : cfg.blink = false) (hbk : BulkRoomy cfg bc)
    (hu : UsedOml cfg bc junk o s) : ∃ m, Explained (V := V) Spec.empty o m := by
  obtain ⟨m, h, -⟩ := hu.inv ha hb hbk
  exact ⟨m, h⟩

/-- C56 for OML: a further phase goes well: the calls of one thread return; the calls of many threads run into nothing undefined and do not wait
for each other in a cycle.  Missing: as above. -/
theorem C56_oml_next_phase_partial (ha : (Variant.oml key).Admissible cfg) (hb : cfg.blink = false) (hbk : BulkRoomy cfg bc)
    (hu : UsedOml cfg bc junk o s) :
    (∀ cs, (∀ x ∈ cs, Cmd.Ok cfg bc x) → ∃ fuel outs s', ((Variant.oml key).impl cfg).runB cfg bc fuel cs s = .ok (outs, s')) ∧
    ∀ c, Conf.Reach (COml.execS cfg junk) (Conf.start s) c → c.mem.raced = false →
      ¬ c.Bad ∧ ∀ t, ¬ TransGen c.WaitsFor t t ∧ (c.Waiting t → ∃ u op, TransGen c.WaitsFor t u ∧ Pending c.hist u op ∧ ¬ c.Waiting u) := by
  obtain ⟨m, -, hi⟩ := hu.inv ha hb hbk
  refine ⟨fun cs hok => ?_, fun c hc hn => ?_⟩
  · obtain ⟨N, outs, s', m', h1, -⟩ := InvB.run ha hbk cs s m hi hok
    exact ⟨N, outs, s', h1 N (le_refl _)⟩
  · obtain ⟨L, hr, -⟩ := ha
    obtain ⟨hv, hk⟩ := COml.ranked hr hb hi.sim hi.locksO oml_lockfree (fun _ => rfl) hc hn
    exact ⟨(COml.partwise hr hb hi.sim hc hn).1, fun t => ⟨hk.acyclic, hv.progress hk⟩⟩

/-! ## The hypotheses are met -/

def lastOutsOml : List (Out Nat Nat) := [.payload none, .code .success,
  .recs [(1, 1), (10, 10), (20, 20), (30, 30), (40, 40), (50, 50), (60, 60), (70, 70), (75, 75), (76, 76), (77, 77), (78, 78), (79, 79)],
  .code .success, .recs [(0, 0), (10, 10), (20, 20), (30, 30), (40, 40), (50, 50), (60, 60), (70, 70)]]

/-- One thread loads the index; one thread scans while two others write at the same time and a leaf is split; one thread reads, writes, scans
and loads again. -/
example : ∃ (o : List (Phased Nat Nat)) (s : St Nat Nat) (h : List (Ev Nat Nat)) (outs : List (Out Nat Nat)),
    (Variant.oml none : Variant Nat).Admissible c120 ∧ c120.blink = false ∧ BulkRoomy c120 bulk8 ∧ UsedOml c120 bulk8 (fun _ _ => 0) o s ∧
    o = [.calls loadCmds outs, .threads h, .calls lastCmds lastOutsOml] ∧
    h.drop 5 = [.inv 3 (.write 79 79), .inv 0 (.write 78 78), .res 0 (.code .success),
      .res 1 (.recs [(50, 50), (60, 60), (70, 70), (75, 75), (76, 76), (77, 77), (78, 78)]), .res 3 (.code .success)] := by
  have h : (loadTrace (.oml none) c120 (COml.execS c120 (fun _ _ => 0)) [.inv 1 (.scan (some (50, true)) none), .go 1 9, .inv 0 (.write 76 76),
      .go 0 34, .res 0, .inv 0 (.write 77 77), .go 0 34, .res 0, .inv 3 (.write 79 79), .go 3 4, .inv 0 (.write 78 78), .go 0 47, .res 0,
      .go 1 33, .res 1, .go 3 34, .res 3]).map
      (fun c => decide (c.mem.raced = false ∧ c.quiet = true ∧ c.hist.drop 5 = [.inv 3 (.write 79 79), .inv 0 (.write 78 78), .res 0 (.code .success),
      .res 1 (.recs [(50, 50), (60, 60), (70, 70), (75, 75), (76, 76), (77, 77), (78, 78)]), .res 3 (.code .success)] ∧
      (match ((Variant.oml none : Variant Nat).impl c120).runB c120 bulk8 40 lastCmds c.state with
        | .ok x => some x.1
        | _ => none) = some lastOutsOml)) = some true := by decide +kernel
  rw [Option.map_eq_some_iff] at h
  obtain ⟨c, h1, h2⟩ := h
  obtain ⟨a1, a2, a3, a4⟩ := of_decide_eq_true h2
  unfold loadTrace at h1
  split at h1
  · next outs s e =>
    have hc : Conf.Reach (COml.execS c120 (fun _ _ => 0)) (Conf.start s) c := Conf.cmds_reach .refl h1
    split at a4
    · next x e5 =>
      obtain ⟨o5, s5⟩ := x
      simp only [Option.some.injEq] at a4
      subst a4
      have u1 : UsedOml c120 bulk8 (fun _ _ => 0) ([] ++ [.calls loadCmds outs]) s := .calls .new loadCmds_ok e
      have u2 := UsedOml.threads u1 hc a1 (Conf.quiet_thr hc a2)
      have u3 := UsedOml.calls u2 lastCmds_ok e5
      exact ⟨_, _, c.hist, outs, ⟨8, c120_roomy, c120_room⟩, rfl, c120_bulk, u3, rfl, a3⟩
    · cases a4
  · cases h1

end BT
