import Verif.LoadRun
import Verif.PmlLive

/-!
# PML: trees built before the threads begin

In the concurrent model of PML page 0 is the tree object.  So the calls of the one thread that builds the tree begin with the empty leaf in page 1.
-/

set_option linter.unusedSectionVars false

namespace BT
open Spec
variable {K V : Type} [LinearOrder K] {cfg : Cfg K} {bc : BulkCfg} {L : Nat} {s : St K V} {m : Map K V}

/-- `initSt` (pml/b_tree.hpp:83-93) with the empty leaf in page 1; page 0 is taken by the tree object. -/
def initSt1 : St K V where
  heap := fun p => if p = 0 then some (treePage 1) else if p = 1 then some Node.emptyLeaf else none
  fresh := 2
  root := 1

/-- `s` is the memory that the calls `cs` leave behind when one thread makes them one after the other on a new PML index, and `m` are the
contents a map has after these calls. -/
def BuiltPml (cfg : Cfg K) (bc : BulkCfg) (s : St K V) (m : Map K V) : Prop :=
  ∃ fuel cs outs, (∀ c ∈ cs, Cmd.Ok cfg bc c) ∧ ((Variant.pml : Variant K).impl cfg).runB cfg bc fuel cs initSt1 = .ok (outs, s) ∧
    Spec.RunB Spec.empty cs outs m

/-- Nobody is active, the tree object (page 0) refers to the root of `s`. -/
def Conf.startPml (s : St K V) : Conf K V where
  mem := { heap := fun p => if p = 0 then some (treePage s.root) else s.heap p, lk := fun _ => {}, fresh := s.fresh, root := 0, gc := [],
           raced := false }
  thr := fun _ => none
  hist := []

/-- The memory consists of a tree and of other pages, among them page 0. -/
def InvP (cfg : Cfg K) (s : St K V) (m : Map K V) : Prop :=
  ∃ s0 J, s = s0.plus J ∧ Apart J s0 ∧ Inv cfg s0 m ∧ J 0 ≠ none ∧ ∀ p n, J p = some n → n.removed = false

/-- Nothing is said about the other pages. -/
def InvQ (cfg : Cfg K) (s : St K V) (m : Map K V) : Prop :=
  ∃ s0 J, s = s0.plus J ∧ Apart J s0 ∧ Inv cfg s0 m ∧ J 0 ≠ none

theorem InvQ.toB (h : InvQ cfg s m) : InvB cfg s m := by
  obtain ⟨s0, J, h1, h2, h3, -⟩ := h
  exact ⟨s0, J, h1, h2, h3⟩

theorem InvP.toQ (h : InvP cfg s m) : InvQ cfg s m := by
  obtain ⟨s0, J, h1, h2, h3, h4, -⟩ := h
  exact ⟨s0, J, h1, h2, h3, h4⟩

theorem InvP.init : InvP cfg (initSt1 : St K V) Spec.empty := by
  have h := PL.inv0 (cfg := cfg) (V := V)
  refine ⟨PL.w0.st, fun p => if p = 0 then some (treePage 1) else none, ?_, fun p hp => ?_, ⟨0, _, h.good, h.map.symm⟩, by simp, fun p n e => ?_⟩
  · simp only [initSt1, St.plus, PL.w0, Conf.initPml, St.mk.injEq, and_true]
    funext p
    by_cases h0 : p = 0
    · subst h0; simp
    · by_cases h1 : p = 1 <;> simp [h0, h1]
  · by_cases h0 : p = 0
    · subst h0; simp [PL.w0, Conf.initPml]
    · simp [h0] at hp
  · by_cases h0 : p = 0
    · simp only [h0, if_true] at e; cases e; rfl
    · simp [h0] at e

theorem InvP.pages (h : InvP cfg s m) {p : Ptr} {n : Node K V} (hp : s.heap p = some n) : n.removed = false := by
  obtain ⟨s0, J, rfl, ha, ⟨H, gr, g, -⟩, -, hj⟩ := h
  cases h0 : s0.heap p with
  | none => exact hj p n (by simpa [St.plus, h0] using hp)
  | some n' =>
    have : n' = n := by simpa [St.plus, h0] using hp
    subst this
    exact (g.wf.at_heap h0).2.ok.notRemoved

theorem InvP.step (ha : (Variant.pml : Variant K).Admissible cfg) (hb : BulkRoomy cfg bc) (h : InvP cfg s m)
    {c : Cmd K V} (hc : c.Ok cfg bc) : ∃ out s' m', ReturnsB ((Variant.pml : Variant K).impl cfg) cfg bc s c out s' ∧ Spec.StepB m c out m' ∧ InvP cfg s' m' := by
  have hpg := fun p n => h.pages (p := p) (n := n)
  have hbel := InvB.below (cfg := cfg) (s := s) (m := m) (by obtain ⟨s0, J, h1, h2, h3, -⟩ := h; exact ⟨s0, J, h1, h2, h3⟩)
  have h0 : s.heap 0 ≠ none := by
    obtain ⟨s0, J, rfl, h2, -, h4, -⟩ := h
    simp only [St.plus, (h2 0 h4).1, Option.none_or]
    exact h4
  cases c with
  | call op =>
    obtain ⟨s0, J, rfl, hap, hi, hj, hr⟩ := h
    obtain ⟨out, s', m', ⟨N, h1⟩, h2, h3⟩ := (Variant.callsOk ha).step hi op
    refine ⟨out, s'.plus J, m', ⟨N, fun f hf => ?_⟩, .call h2, s', J, rfl, ?_, h3, hj, hr⟩
    · exact ((((Variant.pml : Variant K).frameOk cfg).exec f op).run J s0 out s' hap (h1 f hf)).1
    · exact ((((Variant.pml : Variant K).frameOk cfg).exec N op).run J s0 out s' hap (h1 N (le_refl _))).2
  | bulkload es t =>
    by_cases hes : es = []
    · subst hes
      exact ⟨_, s, m, ⟨0, fun _ _ => rfl⟩, .bulkloadNone t, h⟩
    · obtain ⟨hsd, hsp⟩ := hc.resolve_left hes
      obtain ⟨s0, m', h1, h2, h3, h4⟩ := bulkload_returns hb hbel hes hsd hsp
      exact ⟨_, _, m', h1 _, .bulkload hes h4, s0, s.heap, rfl, h2, h3, h0, hpg⟩

/-- A sequence of calls on a new PML index returns as on a map. -/
theorem runPml (ha : (Variant.pml : Variant K).Admissible cfg) (hb : BulkRoomy cfg bc) : ∀ (cs : List (Cmd K V)) (s : St K V) (m : Map K V),
    InvP cfg s m → (∀ c ∈ cs, c.Ok cfg bc) →
    ∃ N outs s' m', ((Variant.pml : Variant K).impl cfg).runB cfg bc N cs s = .ok (outs, s') ∧ Spec.RunB m cs outs m' ∧ InvP cfg s' m' := by
  intro cs
  induction cs with
  | nil => intro s m h _; exact ⟨0, [], s, m, rfl, .nil m, h⟩
  | cons c cs ih =>
    intro s m h hok
    obtain ⟨out, s1, m1, ⟨N1, a1⟩, a2, a3⟩ := h.step ha hb (hok c (by simp))
    obtain ⟨N, outs, s2, m2, b1, b2, b3⟩ := ih s1 m1 a3 (fun x hx => hok x (by simp [hx]))
    refine ⟨max N1 N, out :: outs, s2, m2, ?_, .cons a2 b2, b3⟩
    have b1 := (Impl.runB_mono (Variant.callsOk ha).fuelOk cfg bc cs N (max N1 N) (le_max_right _ _)).le _ _ b1
    unfold Impl.runB
    rw [M.bind_ok (a1 _ (le_max_left _ _)), M.bind_ok b1]
    rfl

theorem BuiltPml.of_run (ha : (Variant.pml : Variant K).Admissible cfg) (hb : BulkRoomy cfg bc) {cs : List (Cmd K V)} (hok : ∀ c ∈ cs, c.Ok cfg bc)
    {fuel : Nat} {outs : List (Out K V)} (hrun : ((Variant.pml : Variant K).impl cfg).runB cfg bc fuel cs initSt1 = .ok (outs, s)) :
    ∃ m, BuiltPml cfg bc s m ∧ Spec.RunB Spec.empty cs outs m ∧ InvP cfg s m := by
  obtain ⟨N, outs', s', m', h1, h2, h3⟩ := runPml ha hb cs initSt1 Spec.empty .init hok
  have mono := Impl.runB_mono (V := V) (Variant.callsOk (v := (Variant.pml : Variant K)) ha).fuelOk cfg bc cs
  have e1 := (mono fuel (max fuel N) (le_max_left _ _)).le _ _ hrun
  have e2 := (mono N (max fuel N) (le_max_right _ _)).le _ _ h1
  have e := e1.symm.trans e2
  simp only [Res.ok.injEq, Prod.mk.injEq] at e
  obtain ⟨rfl, rfl⟩ := e
  exact ⟨m', ⟨fuel, cs, outs, hok, hrun, h2⟩, h2, h3⟩

theorem BuiltPml.inv (ha : (Variant.pml : Variant K).Admissible cfg) (hb : BulkRoomy cfg bc) (h : BuiltPml cfg bc s m) : InvP cfg s m := by
  obtain ⟨fuel, cs, outs, hok, hrun, hspec⟩ := h
  obtain ⟨m', -, h2, h3⟩ := BuiltPml.of_run ha hb hok hrun
  obtain ⟨-, rfl⟩ := hspec.unique h2
  exact h3

/-! ## The start of the threads -/

namespace PL

/-- The world of a tree that has been built before. -/
def wl (s0 s : St K V) (H : Nat) (gr : Nat → List Grp) (m : Map K V) : World K V where
  mem := (Conf.startPml s).mem
  ps := ⟨0, fun _ => m, fun _ => .idle⟩
  vh := s0.heap
  root := s0.root
  H := H
  gr := gr
  own := fun _ => none

theorem sim_load (h : InvQ cfg s m) : ∃ w : World K V, (lg cfg : LLg K V).Sim m (Conf.startPml s) w := by
  obtain ⟨s0, J, rfl, ha, ⟨H, gr, g, e⟩, hj⟩ := h
  obtain ⟨z1, z2⟩ := ha 0 hj
  refine ⟨wl s0 (s0.plus J) H gr m, ?_⟩
  have inv : PInv cfg (wl s0 (s0.plus J) H gr m) :=
  { good := g
    zero := ⟨z1, z2⟩
    map := e.symm
    raced := rfl
    lkx := fun p t h => by simp [wl, Conf.startPml] at h
    nodup := fun p => by simp [wl, Conf.startPml]
    clean := fun p _ hc => by
      simp only [World.cells, wl, Conf.startPml, St.plus] at hc ⊢
      by_cases h0 : p = 0
      · simp [h0]
      · simp only [h0, if_false] at hc ⊢
        obtain ⟨n, hn⟩ := Option.ne_none_iff_exists'.1 hc
        simp [hn]
    owned := fun p t h => by simp [wl] at h
    guard := fun p t h => by simp [wl] at h
    xown := fun p t h => by simp [wl, Conf.startPml] at h
    gc := fun p h => by simp [wl, Conf.startPml] at h
    fresh := fun p h => by simp [wl, Conf.startPml] }
  exact
  { mem := rfl
    inv := inv
    past := Past.init _ rfl
    idle := fun t _ => ⟨rfl, ⟨fun p _ => by simp [wl, Conf.startPml], fun p _ => by simp [wl, Conf.startPml],
      fun p _ => by simp [wl, Conf.startPml], fun p _ => by simp [wl], fun p h => by simp at h⟩⟩
    busy := fun t p h => by simp [Conf.startPml] at h }

end PL
end BT
