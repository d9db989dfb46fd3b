import Verif.BulkRun
import Verif.ConcFrom
import Verif.ConcSolo
import Verif.LockRun
import Verif.LockBlink
import Verif.LockOml

/-!
# Trees built before the threads begin

`Built` is the memory one thread leaves behind after calls of the full API, bulkloads among them.  All that the proofs about concurrent executions
ask of the initial configuration holds for it.
-/

set_option linter.unusedSectionVars false

namespace BT
open Spec
variable {K V : Type} [LinearOrder K] {cfg : Cfg K} {bc : BulkCfg} {v : Variant K} {s : St K V} {m : Map K V}

theorem SizeOk.weak {n : Node K V} (h : SizeOk cfg n) : SizeW cfg n := by
  cases hl : cfg.layout
  · rw [sizeOk_fix hl] at h
    rw [sizeW_fix hl]
    exact h
  · rw [sizeOk_var hl] at h
    rw [sizeW_var hl]
    obtain ⟨h1, h2, h3, h4⟩ := h
    exact ⟨by omega, h2, h3, h4⟩

/-- `InvB`, and the pages outside of the tree keep to their size and are not marked as removed. -/
def InvC (cfg : Cfg K) (s : St K V) (m : Map K V) : Prop :=
  ∃ s0 J, s = s0.plus J ∧ Apart J s0 ∧ Inv cfg s0 m ∧ ∀ p n, J p = some n → SizeW cfg n ∧ n.removed = false

theorem InvC.of (h : Inv cfg s m) : InvC cfg s m := by
  refine ⟨s, fun _ => none, ?_, fun p hp => absurd rfl hp, h, fun p n e => by cases e⟩
  unfold St.plus
  simp

theorem InvC.toB (h : InvC cfg s m) : InvB cfg s m := by
  obtain ⟨s0, J, h1, h2, h3, -⟩ := h
  exact ⟨s0, J, h1, h2, h3⟩

theorem InvC.page (h : InvC cfg s m) {p : Ptr} {n : Node K V} (hp : s.heap p = some n) : SizeW cfg n ∧ n.removed = false := by
  obtain ⟨s0, J, rfl, ha, ⟨H, gr, g, -⟩, hj⟩ := h
  cases h0 : s0.heap p with
  | none => exact hj p n (by simpa [St.plus, h0] using hp)
  | some n' =>
    have : n' = n := by simpa [St.plus, h0] using hp
    subst this
    exact ⟨(g.wf.at_heap h0).2.ok.size.weak, (g.wf.at_heap h0).2.ok.notRemoved⟩

theorem InvC.size (h : InvC cfg s m) {p : Ptr} {n : Node K V} (hp : s.heap p = some n) : SizeW cfg n := (h.page hp).1

theorem InvC.step (ha : v.Admissible cfg) (hb : BulkRoomy cfg bc) (h : InvC cfg s m)
    {c : Cmd K V} (hc : c.Ok cfg bc) : ∃ out s' m', ReturnsB (v.impl cfg) cfg bc s c out s' ∧ Spec.StepB m c out m' ∧ InvC cfg s' m' := by
  have hs := fun p n => h.page (p := p) (n := n)
  have hbel := h.toB.below
  cases c with
  | call op =>
    obtain ⟨s0, J, rfl, hap, hi, hj⟩ := h
    obtain ⟨out, s', m', ⟨N, h1⟩, h2, h3⟩ := (Variant.callsOk ha).step hi op
    refine ⟨out, s'.plus J, m', ⟨N, fun f hf => ?_⟩, .call h2, s', J, rfl, ?_, h3, hj⟩
    · exact (((v.frameOk cfg).exec f op).run J s0 out s' hap (h1 f hf)).1
    · exact (((v.frameOk cfg).exec N op).run J s0 out s' hap (h1 N (le_refl _))).2
  | bulkload es t =>
    by_cases hes : es = []
    · subst hes
      exact ⟨_, s, m, ⟨0, fun _ _ => rfl⟩, .bulkloadNone t, h⟩
    · obtain ⟨hsd, hsp⟩ := hc.resolve_left hes
      obtain ⟨s0, m', h1, h2, h3, h4⟩ := bulkload_returns hb hbel hes hsd hsp
      exact ⟨_, _, m', h1 _, .bulkload hes h4, s0, s.heap, rfl, h2, h3, hs⟩

theorem Impl.runB_mono {I : Impl K V} (h : I.FuelOk) (cfg : Cfg K) (bc : BulkCfg) (cs : List (Cmd K V)) :
    Mono (fun f => I.runB cfg bc f cs) := by
  induction cs with
  | nil => intro a b _; exact Le.refl _
  | cons c cs ih =>
    intro a b hab
    exact Le.bind (Impl.execB_mono h cfg bc c a b hab) fun _ => Le.bind (ih a b hab) fun _ => Le.refl _

/-- `s` is the memory the calls `cs` leave behind when one thread makes them one after the other on a new index, and `m` are the contents a map
has after these calls. -/
def Built (v : Variant K) (cfg : Cfg K) (bc : BulkCfg) (s : St K V) (m : Map K V) : Prop :=
  ∃ fuel cs outs, (∀ c ∈ cs, Cmd.Ok cfg bc c) ∧ (v.impl cfg).runB cfg bc fuel cs initSt = .ok (outs, s) ∧ Spec.RunB Spec.empty cs outs m

theorem Built.inv (ha : v.Admissible cfg) (hb : BulkRoomy cfg bc) (h : Built v cfg bc s m) : InvC cfg s m := by
  obtain ⟨fuel, cs, outs, hok, hrun, hspec⟩ := h
  have key : ∀ (cs : List (Cmd K V)) (s : St K V) (m : Map K V), InvC cfg s m → (∀ c ∈ cs, c.Ok cfg bc) →
      ∃ N outs s' m', (v.impl cfg).runB cfg bc N cs s = .ok (outs, s') ∧ Spec.RunB m cs outs m' ∧ InvC cfg s' m' := by
    intro cs
    induction cs with
    | nil => intro s m h _; exact ⟨0, [], s, m, rfl, .nil m, h⟩
    | cons c cs ih =>
      intro s m h hok
      obtain ⟨out, s1, m1, ⟨N1, a1⟩, a2, a3⟩ := h.step ha hb (hok c (by simp))
      obtain ⟨N, outs, s2, m2, b1, b2, b3⟩ := ih s1 m1 a3 (fun x hx => hok x (by simp [hx]))
      refine ⟨max N1 N, out :: outs, s2, m2, ?_, .cons a2 b2, b3⟩
      have b1 := (Impl.runB_mono (Variant.callsOk ha).fuelOk cfg bc cs N (max N1 N) (le_max_right _ _)).le _ _ b1
      unfold Impl.runB
      rw [M.bind_ok (a1 _ (le_max_left _ _)), M.bind_ok b1]
      rfl
  obtain ⟨N, outs', s', m', h1, h2, h3⟩ := key cs initSt Spec.empty (.of (inv_init cfg)) hok
  have mono := Impl.runB_mono (V := V) (Variant.callsOk (v := v) ha).fuelOk cfg bc cs
  have e1 := (mono fuel (max fuel N) (le_max_left _ _)).le _ _ hrun
  have e2 := (mono N (max fuel N) (le_max_right _ _)).le _ _ h1
  have e := e1.symm.trans e2
  simp only [Res.ok.injEq, Prod.mk.injEq] at e
  obtain ⟨rfl, rfl⟩ := e
  obtain ⟨-, rfl⟩ := hspec.unique h2
  exact h3

theorem InvC.sim (h : InvC cfg s m) : (blg V cfg).Sim m (Conf.start s) := by
  obtain ⟨s0, J, rfl, ha, ⟨H, gr, g, rfl⟩, -⟩ := h
  exact sim_load g (Holding.plus g ha)

theorem InvC.solo (hb : cfg.blink = true) (h : InvC cfg s m) : SoloSim cfg m (Conf.start s) := by
  obtain ⟨s0, J, rfl, ha, ⟨H, gr, g, rfl⟩, -⟩ := h
  refine ⟨World.load s0 (s0.plus J) H gr (mapOf (contents s0 gr)) (!cfg.blink) true, rfl, rfl, CInv.load g (Holding.plus g ha) true (fun _ => hb),
    Past.init _ rfl, fun u h => (by cases h), fun t => ⟨fun _ => ⟨rfl, ?_, ?_⟩, fun p hp => by cases hp⟩⟩
  · refine ⟨fun p τ q h => ?_, fun h => (by cases h)⟩
    rcases World.load_st (s0 := s0) (s := s0.plus J) (H := H) (gr := gr) (m := mapOf (contents s0 gr)) (b := !cfg.blink) (so := true) p
      with ⟨e, -⟩ | ⟨e, -⟩ | ⟨e, -⟩ <;> rw [h] at e <;> cases e
  · intro q h
    cases h

theorem InvC.locks (h : InvC cfg s m) {d : Bool} {ro : Op K V → Prop} : VInv (bp cfg d) ro (Conf.start s) :=
  VInv.start (fun p n hp => ⟨h.toB.below p (by rw [show s.heap p = some n from hp]; simp), h.size hp⟩) (fun _ => rfl) (fun _ => rfl)

theorem InvC.locksO (h : InvC cfg s m) {ro : Op K V → Prop} : VInv omlP ro (Conf.start s) :=
  VInv.start (fun p n hp => ⟨h.toB.below p (by rw [show s.heap p = some n from hp]; simp), trivial⟩) (fun _ => rfl) (fun _ => rfl)

end BT
