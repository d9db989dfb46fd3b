import Verif.PmlPhase
import Verif.Props.PmlLoaded

/-!
# PML used in phases (C56)

Phases in which one thread makes calls one after the other (`Bulkload` among them) and phases in which any number of threads use the index at
the same time may alternate any number of times.  A phase ends when all threads have returned.
-/

set_option linter.unusedSectionVars false

namespace BT
open Spec Relation
variable {K V : Type} [LinearOrder K] {cfg : Cfg K} {bc : BulkCfg} {s : St K V} {m : Map K V} {c : Conf K V} {o : List (Phased K V)}

/-- No page was released that another thread had locked (see `C24_pml_linearizable_partial`), or there were no readers. -/
def Conf.Orderly (c : Conf K V) : Prop :=
  c.mem.raced = false ∨ (∀ t k, Ev.inv t (.read k) ∉ c.hist) ∧ ∀ t b e, Ev.inv t (.scan b e) ∉ c.hist

/-- A PML index has been used in phases, `o` is what the callers have seen, and `s` is the memory.  At the beginning of a phase of many threads
no page is locked; released pages are not referred to any more. -/
inductive UsedPml (cfg : Cfg K) (bc : BulkCfg) : List (Phased K V) → St K V → Prop
  | new : UsedPml cfg bc [] initSt1
  | calls {o s s' fuel cs outs} : UsedPml cfg bc o s → (∀ x ∈ cs, Cmd.Ok cfg bc x) →
      ((Variant.pml : Variant K).impl cfg).runB cfg bc fuel cs s = .ok (outs, s') → UsedPml cfg bc (o ++ [.calls cs outs]) s'
  | threads {o s s'} {c : Conf K V} : UsedPml cfg bc o s → Conf.Reach (CPml.exec cfg) (Conf.startPml s) c → c.Orderly → c.Stopped s' →
      UsedPml cfg bc (o ++ [.threads c.hist]) s'

theorem InvQ.threads (ha : (Variant.pml : Variant K).Admissible cfg) (h : InvQ cfg s m) (hc : Conf.Reach (CPml.exec cfg) (Conf.startPml s) c)
    (ho : c.Orderly) : ∃ w : PL.World K V, (PL.lg cfg : LLg K V).Sim m c w := by
  obtain ⟨w0, h0⟩ := PL.sim_load h
  obtain ⟨L, hr, hmf⟩ := ha
  rcases ho with hn | ⟨h1, h2⟩
  · exact LLg.adequate (PL.impl hr hmf) h0 hc hn
  · exact (PL.no_readers hr hmf h0 (fun _ => rfl) (fun _ => rfl) hc h1 h2).1

theorem UsedPml.inv (ha : (Variant.pml : Variant K).Admissible cfg) (hbk : BulkRoomy cfg bc) (h : UsedPml cfg bc o s) :
    ∃ m, Explained Spec.empty o m ∧ InvQ cfg s m := by
  induction h with
  | new => exact ⟨_, .nil _, InvP.init.toQ⟩
  | calls _ hok hrun ih =>
    obtain ⟨m, h1, h2⟩ := ih
    obtain ⟨m', h3, h4⟩ := h2.ran ha hbk hok hrun
    exact ⟨m', .calls h1 h3, h4⟩
  | threads _ hc ho hs ih =>
    obtain ⟨m, h1, h2⟩ := ih
    obtain ⟨w, hw⟩ := h2.threads ha hc ho
    obtain ⟨m', h3, h4⟩ := PL.stopped hw (Conf.tight h2.tight hc) hs
    exact ⟨m', .threads h1 h3, h4⟩

/-- C56: one map explains all answers in all phases.  Missing: executions in which a page is released that another thread has locked (false,
`C24_pml_not_linearizable`). -/
theorem C56_pml_phases_partial (ha : (Variant.pml : Variant K).Admissible cfg) (hbk : BulkRoomy cfg bc) (hu : UsedPml cfg bc o s) :
    ∃ m, Explained Spec.empty o m := by
  obtain ⟨m, h, -⟩ := hu.inv ha hbk
  exact ⟨m, h⟩

/-- C56: a further phase goes well: the calls of one thread return; the calls of many threads run into nothing undefined and do not wait for each
other in a cycle, and when all have returned, the phase is over.  Missing: as above. -/
theorem C56_pml_next_phase_partial (ha : (Variant.pml : Variant K).Admissible cfg) (hbk : BulkRoomy cfg bc) (hu : UsedPml cfg bc o s) :
    (∀ cs, (∀ x ∈ cs, Cmd.Ok cfg bc x) → ∃ fuel outs s', ((Variant.pml : Variant K).impl cfg).runB cfg bc fuel cs s = .ok (outs, s')) ∧
    ∀ c, Conf.Reach (CPml.exec cfg) (Conf.startPml s) c → c.Orderly →
      ¬ c.Bad ∧ (∀ t, ¬ TransGen c.WaitsFor t t) ∧ (∀ t, c.Waiting t → ∃ u, TransGen c.WaitsFor t u ∧ c.Runs u) ∧
      ((∀ t, c.thr t = none) → ∃ s', c.Stopped s') := by
  obtain ⟨m, -, h⟩ := hu.inv ha hbk
  refine ⟨fun cs hok => ?_, fun c hc ho => ?_⟩
  · obtain ⟨N, outs, s', m', h1, -⟩ := InvQ.run ha hbk cs s m h hok
    exact ⟨N, outs, s', h1⟩
  · obtain ⟨w, hw⟩ := h.threads ha hc ho
    refine ⟨hw.not_bad, fun t => PL.acyclic hw, fun t ht => PL.progress hw ht, fun ht => ?_⟩
    have hi : PL.PInv cfg w := hw.inv
    have hts : ∀ t, PL.TS w t [] [] [] [] := fun t => (hw.idle t (ht t)).2
    have hne : w.cells 0 ≠ none := by simp [PL.World.cells]
    have ho : w.own 0 = none := by
      cases e : w.own 0 with
      | none => rfl
      | some t =>
        have := ((hts t).own 0 fun hg => hne (hi.gc 0 hg).1).1 e
        cases this
    have h0 := hi.clean 0 ho hne
    rw [show w.mem = c.mem from hw.mem] at h0
    exact ⟨⟨c.mem.heap, c.mem.fresh, w.root⟩, ht, rfl, rfl, by rw [h0]; simp [PL.World.cells]⟩

/-! ## The hypotheses are met -/

theorem loadCmds_ok : ∀ x ∈ loadCmds, Cmd.Ok c120 bulk8 x := by
  intro x hx
  simp only [loadCmds, List.mem_cons, List.not_mem_nil, or_false] at hx
  rcases hx with rfl | rfl | rfl | rfl
  · trivial
  · exact .inr ⟨by simp [Spec.Ascending], .inl (by decide)⟩
  · trivial
  · trivial

/-- The calls of the third phase. -/
def lastCmds : List (Cmd Nat Nat) := [.call (.read 110), .call (.write 1 1), .call (.scan none none),
  .bulkload [(0, 0), (10, 10), (20, 20), (30, 30), (40, 40), (50, 50), (60, 60), (70, 70)] 2, .call (.scan none none)]

theorem lastCmds_ok : ∀ x ∈ lastCmds, Cmd.Ok c120 bulk8 x := by
  intro x hx
  simp only [lastCmds, List.mem_cons, List.not_mem_nil, or_false] at hx
  rcases hx with rfl | rfl | rfl | rfl | rfl
  · trivial
  · trivial
  · trivial
  · exact .inr ⟨by simp [Spec.Ascending], .inl (by decide)⟩
  · trivial

/-- Three phases: one thread loads the index; three threads read, scan and write at the same time (a page is split); one thread reads, writes,
scans and loads again. -/
example : ∃ (o : List (Phased Nat Nat)) (s : St Nat Nat) (h : List (Ev Nat Nat)) (outs : List (Out Nat Nat)),
    (Variant.pml : Variant Nat).Admissible c120 ∧ BulkRoomy c120 bulk8 ∧ UsedPml c120 bulk8 o s ∧
    o = [.calls loadCmds outs, .threads h, .calls lastCmds [.payload (some 110), .code .success,
      .recs [(1, 1), (20, 20), (30, 30), (50, 50), (60, 60), (70, 70), (75, 75), (100, 100), (110, 110)], .code .success,
      .recs [(0, 0), (10, 10), (20, 20), (30, 30), (40, 40), (50, 50), (60, 60), (70, 70)]]] ∧
    h.take 6 = [.inv 1 (.read 40), .inv 0 (.delete 10), .res 0 (.code .success), .inv 2 (.scan (some (50, true)) none), .res 1 (.payload (some 40)),
      .res 2 (.recs [(50, 50), (60, 60), (70, 70), (75, 75)])] := by
  have h : (loadTracePml [.inv 1 (.read 40), .go 1 6, .inv 0 (.delete 10), .go 0 18, .res 0, .inv 2 (.scan (some (50, true)) none), .go 2 7,
      .go 1 4, .res 1, .go 2 4, .res 2, .inv 0 (.write 100 100), .go 0 18, .res 0, .inv 0 (.write 110 110), .go 0 18, .res 0,
      .inv 0 (.delete 40), .go 0 32, .res 0]).map (fun c => decide (c.mem.raced = false ∧
      c.hist.all (fun e => match e with | .inv t _ => (c.thr t).isNone | .res _ _ => true) = true ∧
      c.mem.heap 0 = some (treePage 4) ∧
      c.hist.take 6 = [.inv 1 (.read 40), .inv 0 (.delete 10), .res 0 (.code .success), .inv 2 (.scan (some (50, true)) none), .res 1 (.payload (some 40)),
      .res 2 (.recs [(50, 50), (60, 60), (70, 70), (75, 75)])] ∧
      (match ((Variant.pml : Variant Nat).impl c120).runB c120 bulk8 40 lastCmds ⟨c.mem.heap, c.mem.fresh, 4⟩ with
        | .ok x => some x.1
        | _ => none) = some [.payload (some 110), .code .success,
      .recs [(1, 1), (20, 20), (30, 30), (50, 50), (60, 60), (70, 70), (75, 75), (100, 100), (110, 110)], .code .success,
      .recs [(0, 0), (10, 10), (20, 20), (30, 30), (40, 40), (50, 50), (60, 60), (70, 70)]])) = some true := by decide +kernel
  rw [Option.map_eq_some_iff] at h
  obtain ⟨c, h1, h2⟩ := h
  obtain ⟨a1, a2, a3, a4, a5⟩ := of_decide_eq_true h2
  unfold loadTracePml at h1
  split at h1
  · next outs s e =>
    have hc : Conf.Reach (CPml.exec c120) (Conf.startPml s) c := Conf.cmds_reach .refl h1
    have hidle : ∀ t, c.thr t = none := by
      intro t
      by_contra hne
      obtain ⟨op, h', h'', e', -⟩ := Conf.Reach.calling (fun _ => rfl) hc hne
      have hm : Ev.inv t op ∈ c.hist := by rw [e']; simp
      have := List.all_eq_true.1 a2 _ hm
      exact hne (Option.isNone_iff_eq_none.1 this)
    split at a5
    · next x e5 =>
      obtain ⟨o5, s5⟩ := x
      simp only [Option.some.injEq] at a5
      subst a5
      have u1 : UsedPml c120 bulk8 ([] ++ [.calls loadCmds outs]) s := .calls .new loadCmds_ok e
      have u2 := UsedPml.threads u1 hc (.inl a1) (s' := ⟨c.mem.heap, c.mem.fresh, 4⟩) ⟨hidle, rfl, rfl, a3⟩
      have u3 := UsedPml.calls u2 lastCmds_ok e5
      exact ⟨_, _, c.hist, outs, ⟨8, c120_roomy, c120_room⟩, c120_bulk, u3, rfl, a4⟩
    · cases a5
  · cases h1

end BT
