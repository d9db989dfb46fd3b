import Verif.ConcRest
import Verif.OmlLive
import Verif.DropScans
import Verif.SpecPhases
import Verif.LockSolo

/-!
# PSL and OSL: when all threads have returned, the memory is a tree again
-/

set_option linter.unusedSectionVars false

namespace BT
open Spec
variable {K V : Type} [LinearOrder K] {cfg : Cfg K} {bc : BulkCfg} {v : Variant K} {s : St K V} {m : Map K V} {c : Conf K V}

/-- The memory without the locks: the pages, the allocation counter and the root. -/
def Conf.state (c : Conf K V) : St K V := ⟨c.mem.heap, c.mem.fresh, c.mem.root⟩

/-- `InvB`, and the pages outside of the tree keep to their size. -/
def InvD (cfg : Cfg K) (s : St K V) (m : Map K V) : Prop :=
  ∃ s0 J, s = s0.plus J ∧ Apart J s0 ∧ Inv cfg s0 m ∧ ∀ p n, J p = some n → SizeW cfg n

theorem InvC.toD (h : InvC cfg s m) : InvD cfg s m := by
  obtain ⟨s0, J, h1, h2, h3, h4⟩ := h
  exact ⟨s0, J, h1, h2, h3, fun p n e => (h4 p n e).1⟩

theorem InvD.toB (h : InvD cfg s m) : InvB cfg s m := by
  obtain ⟨s0, J, h1, h2, h3, -⟩ := h
  exact ⟨s0, J, h1, h2, h3⟩

theorem InvD.size (h : InvD cfg s m) {p : Ptr} {n : Node K V} (hp : s.heap p = some n) : SizeW cfg n := by
  obtain ⟨s0, J, rfl, ha, ⟨H, gr, g, -⟩, hj⟩ := h
  cases h0 : s0.heap p with
  | none => exact hj p n (by simpa [St.plus, h0] using hp)
  | some n' =>
    have : n' = n := by simpa [St.plus, h0] using hp
    subst this
    exact (g.wf.at_heap h0).2.ok.size.weak

theorem InvD.step (ha : v.Admissible cfg) (hb : BulkRoomy cfg bc) (h : InvD cfg s m)
    {c : Cmd K V} (hc : c.Ok cfg bc) : ∃ out s' m', ReturnsB (v.impl cfg) cfg bc s c out s' ∧ Spec.StepB m c out m' ∧ InvD cfg s' m' := by
  have hs := fun p n => h.size (p := p) (n := n)
  have hbel := InvB.below h.toB
  cases c with
  | call op =>
    obtain ⟨s0, J, rfl, hap, hi, hj⟩ := h
    obtain ⟨out, s', m', ⟨N, h1⟩, h2, h3⟩ := (Variant.callsOk ha).step hi op
    refine ⟨out, s'.plus J, m', ⟨N, fun f hf => ?_⟩, .call h2, s', J, rfl, ?_, h3, hj⟩
    · exact (((v.frameOk cfg).exec f op).run J s0 out s' hap (h1 f hf)).1
    · exact (((v.frameOk cfg).exec N op).run J s0 out s' hap (h1 N (le_refl _))).2
  | bulkload es t =>
    by_cases hes : es = []
    · subst hes
      exact ⟨_, s, m, ⟨0, fun _ _ => rfl⟩, .bulkloadNone t, h⟩
    · obtain ⟨hsd, hsp⟩ := hc.resolve_left hes
      obtain ⟨s0, m', h1, h2, h3, h4⟩ := bulkload_returns hb hbel hes hsd hsp
      exact ⟨_, _, m', h1 _, .bulkload hes h4, s0, s.heap, rfl, h2, h3, hs⟩

/-- A phase of calls by one thread. -/
theorem InvD.run (ha : v.Admissible cfg) (hb : BulkRoomy cfg bc) : ∀ (cs : List (Cmd K V)) (s : St K V) (m : Map K V),
    InvD cfg s m → (∀ c ∈ cs, c.Ok cfg bc) →
    ∃ N outs s' m', (v.impl cfg).runB cfg bc N cs s = .ok (outs, s') ∧ Spec.RunB m cs outs m' ∧ InvD cfg s' m' := by
  intro cs
  induction cs with
  | nil => intro s m h _; exact ⟨0, [], s, m, rfl, .nil m, h⟩
  | cons c cs ih =>
    intro s m h hok
    obtain ⟨out, s1, m1, ⟨N1, a1⟩, a2, a3⟩ := h.step ha hb (hok c (by simp))
    obtain ⟨N, outs, s2, m2, b1, b2, b3⟩ := ih s1 m1 a3 (fun x hx => hok x (by simp [hx]))
    refine ⟨max N1 N, out :: outs, s2, m2, ?_, .cons a2 b2, b3⟩
    have b1 := (Impl.runB_mono (Variant.callsOk ha).fuelOk cfg bc cs N (max N1 N) (le_max_right _ _)).le _ _ b1
    unfold Impl.runB
    rw [M.bind_ok (a1 _ (le_max_left _ _)), M.bind_ok b1]
    rfl

theorem InvD.ran (ha : v.Admissible cfg) (hb : BulkRoomy cfg bc) (h : InvD cfg s m) {cs : List (Cmd K V)}
    (hok : ∀ c ∈ cs, c.Ok cfg bc) {fuel : Nat} {outs : List (Out K V)} {s' : St K V}
    (hrun : (v.impl cfg).runB cfg bc fuel cs s = .ok (outs, s')) : ∃ m', Spec.RunB m cs outs m' ∧ InvD cfg s' m' := by
  obtain ⟨N, outs', s'', m', h1, h2, h3⟩ := InvD.run ha hb cs s m h hok
  have mono := Impl.runB_mono (V := V) (Variant.callsOk (v := v) ha).fuelOk cfg bc cs
  have e1 := (mono fuel (max fuel N) (le_max_left _ _)).le _ _ hrun
  have e2 := (mono N (max fuel N) (le_max_right _ _)).le _ _ h1
  have e := e1.symm.trans e2
  simp only [Res.ok.injEq, Prod.mk.injEq] at e
  obtain ⟨rfl, rfl⟩ := e
  exact ⟨m', h2, h3⟩

/-! ## A phase of many threads -/

theorem InvD.solo (hb : cfg.blink = true) (h : InvD cfg s m) : SoloSim cfg m (Conf.start s) := by
  obtain ⟨s0, J, rfl, ha, ⟨H, gr, g, rfl⟩, -⟩ := h
  refine ⟨World.load s0 (s0.plus J) H gr (mapOf (contents s0 gr)) (!cfg.blink) true, rfl, rfl, CInv.load g (Holding.plus g ha) true (fun _ => hb),
    Past.init _ rfl, fun u h => (by cases h), fun t => ⟨fun _ => ⟨rfl, ?_, ?_⟩, fun p hp => by cases hp⟩⟩
  · refine ⟨fun p τ q h => ?_, fun h => (by cases h)⟩
    rcases World.load_st (s0 := s0) (s := s0.plus J) (H := H) (gr := gr) (m := mapOf (contents s0 gr)) (b := !cfg.blink) (so := true) p
      with ⟨e, -⟩ | ⟨e, -⟩ | ⟨e, -⟩ <;> rw [h] at e <;> cases e
  · intro q h
    cases h

theorem InvD.sim (h : InvD cfg s m) : (blg V cfg).Sim m (Conf.start s) := by
  obtain ⟨s0, J, rfl, ha, ⟨H, gr, g, rfl⟩, -⟩ := h
  exact sim_load g (Holding.plus g ha)

theorem InvD.locks (h : InvD cfg s m) {d : Bool} {ro : Op K V → Prop} : VInv (bp cfg d) ro (Conf.start s) :=
  VInv.start (fun p n hp => ⟨InvB.below h.toB p (by rw [show s.heap p = some n from hp]; simp), h.size hp⟩) (fun _ => rfl) (fun _ => rfl)

/-- The memory at the end of the phase, if all pages satisfy `P`. -/
theorem CInv.stopped' {w : World K V} {m0 : Map K V} {P : Node K V → Prop} (hI : CInv cfg w) (e : w.mem = c.mem) (hp : Past true m0 w.ps c.hist)
    (hth : ∀ t, w.ps.ph t = .idle ∧ w.NoStale t ∧ w.NoPend t) (hal : ∀ p, c.mem.heap p ≠ none → p < c.mem.fresh)
    (hpg : ∀ p n, c.mem.heap p = some n → P n) :
    ∃ m, Atomic true ⟨m0, fun _ => .idle⟩ c.hist ⟨m, fun _ => .idle⟩ ∧
      ∃ s0 J, c.state = s0.plus J ∧ Apart J s0 ∧ Inv cfg s0 m ∧ ∀ p n, J p = some n → P n := by
  have hpd : ∀ q, w.pend q = none := by
    intro q
    cases hq : w.pend q with
    | none => rfl
    | some t => exact absurd hq ((hth t).2.2 q)
  have hshr : w.shr = none := by
    cases hq : w.shr with
    | none => rfl
    | some t => exact absurd hq (hth t).2.1.2
  obtain ⟨gr, hg, hm⟩ := hI.good hshr hpd
  refine ⟨w.maps w.now, ?_, _, fun p => if w.st p = .live then none else w.heap p, ?_, ?_, ⟨_, _, hg, hm.symm⟩, ?_⟩
  · have := hp.atomic [] trivial
    have e : Choice.apply w.ps [] = fun _ => Phase.idle := by
      funext t
      show (w.ps.ph t).forget = _
      rw [(hth t).1]
      rfl
    rw [e] at this
    exact this
  · simp only [Conf.state, St.plus, ← e, St.mk.injEq, and_true]
    funext p
    by_cases hl : w.st p = .live
    · simp [hl]
    · simp [hl]
  · intro p hne
    have hl : w.st p ≠ .live := fun hl => hne (if_pos hl)
    have hne : w.heap p ≠ none := by simpa [hl] using hne
    have hne : c.mem.heap p ≠ none := by rw [← e]; exact hne
    refine ⟨if_neg hl, ?_⟩
    show p < w.mem.fresh
    rw [e]
    exact hal p hne
  · intro p n hn
    have hl : w.st p ≠ .live := fun hl => by simp [hl] at hn
    have hn : w.heap p = some n := by simpa [hl] using hn
    exact hpg p n (by rw [← e]; exact hn)

theorem CInv.stopped {w : World K V} {m0 : Map K V} {d : Bool} (hI : CInv cfg w) (e : w.mem = c.mem) (hp : Past true m0 w.ps c.hist)
    (hth : ∀ t, w.ps.ph t = .idle ∧ w.NoStale t ∧ w.NoPend t) (hv : MWf (bp cfg d) c.mem) :
    ∃ m, Atomic true ⟨m0, fun _ => .idle⟩ c.hist ⟨m, fun _ => .idle⟩ ∧ InvD cfg c.state m := hI.stopped' e hp hth hv.al hv.pg

/-- The same with one writer at a time. -/
theorem SoloSim.stopped {m0 : Map K V} {d : Bool} (h : SoloSim cfg m0 c) (hv : MWf (bp cfg d) c.mem) (ht : ∀ t, c.thr t = none) :
    ∃ m, Atomic true ⟨m0, fun _ => .idle⟩ c.hist ⟨m, fun _ => .idle⟩ ∧ InvD cfg c.state m := by
  obtain ⟨w, e, so, hI, hp, -, hth⟩ := h
  exact hI.stopped e hp (fun t => ⟨((hth t).1 (ht t)).1, ((hth t).1 (ht t)).2.1, ((hth t).1 (ht t)).2.2⟩) hv

/-- The same with many writers. -/
theorem sim_stopped {m0 : Map K V} {d : Bool} (h : (blg V cfg).Sim m0 c) (hn : c.mem.raced = false)
    (hv : MWf (bp cfg d) c.mem) (ht : ∀ t, c.thr t = none) :
    ∃ m, Atomic true ⟨m0, fun _ => .idle⟩ c.hist ⟨m, fun _ => .idle⟩ ∧ InvD cfg c.state m := by
  rcases h with h | ⟨w, e, hI, hp, hth⟩
  · rw [hn] at h; cases h
  · exact CInv.stopped hI e hp (fun t => ⟨((hth t).1 (ht t)).1, ((hth t).1 (ht t)).2.1, ((hth t).1 (ht t)).2.2.2.2⟩) hv

/-! ## OML -/

theorem InvB.ran (ha : v.Admissible cfg) (hb : BulkRoomy cfg bc) (h : InvB cfg s m) {cs : List (Cmd K V)}
    (hok : ∀ c ∈ cs, c.Ok cfg bc) {fuel : Nat} {outs : List (Out K V)} {s' : St K V}
    (hrun : (v.impl cfg).runB cfg bc fuel cs s = .ok (outs, s')) : ∃ m', Spec.RunB m cs outs m' ∧ InvB cfg s' m' := by
  obtain ⟨N, outs', s'', m', h1, h2, h3⟩ := InvB.run ha hb cs s m h hok
  have e1 := (Impl.runB_mono (V := V) (Variant.callsOk (v := v) ha).fuelOk cfg bc cs fuel (max fuel N) (le_max_left _ _)).le _ _ hrun
  have e := e1.symm.trans (h1 _ (le_max_right _ _))
  simp only [Res.ok.injEq, Prod.mk.injEq] at e
  obtain ⟨rfl, rfl⟩ := e
  exact ⟨m', h2, h3⟩

theorem InvB.sim (h : InvB cfg s m) : (blg V cfg).Sim m (Conf.start s) := by
  obtain ⟨s0, J, rfl, ha, H, gr, g, rfl⟩ := h
  exact sim_load g (Holding.plus g ha)

theorem InvB.locksO (h : InvB cfg s m) {ro : Op K V → Prop} : VInv omlP ro (Conf.start s) :=
  VInv.start (fun p n hp => ⟨h.below p (by rw [show s.heap p = some n from hp]; simp), trivial⟩) (fun _ => rfl) (fun _ => rfl)

theorem sim_stoppedO {m0 : Map K V} (h : (blg V cfg).Sim m0 c) (hn : c.mem.raced = false) (hal : ∀ p, c.mem.heap p ≠ none → p < c.mem.fresh)
    (ht : ∀ t, c.thr t = none) : ∃ m, Atomic true ⟨m0, fun _ => .idle⟩ c.hist ⟨m, fun _ => .idle⟩ ∧ InvB cfg c.state m := by
  rcases h with h | ⟨w, e, hI, hp, hth⟩
  · rw [hn] at h; cases h
  · obtain ⟨m, h1, s0, J, h2, h3, h4, -⟩ := CInv.stopped' (P := fun _ => True) hI e hp
      (fun t => ⟨((hth t).1 (ht t)).1, ((hth t).1 (ht t)).2.1, ((hth t).1 (ht t)).2.2.2.2⟩) hal (fun _ _ _ => trivial)
    exact ⟨m, h1, s0, J, h2, h3, h4⟩

end BT
