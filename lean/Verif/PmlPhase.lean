import Verif.PmlLoad
import Verif.SpecPhases

/-!
# PML: when all threads have returned, the memory is a tree again
-/

set_option linter.unusedSectionVars false

namespace BT
open Spec
variable {K V : Type} [LinearOrder K] {cfg : Cfg K} {bc : BulkCfg} {s : St K V} {m : Map K V} {c : Conf K V}

/-- All threads have returned, and `s` is the memory: the pages, the allocation counter, and the root that the tree object (page 0) refers to. -/
structure Conf.Stopped (c : Conf K V) (s : St K V) : Prop where
  thr : ∀ t, c.thr t = none
  heap : s.heap = c.mem.heap
  fresh : s.fresh = c.mem.fresh
  root : c.mem.heap 0 = some (treePage s.root)

/-! ## Pages beyond the allocation counter do not exist -/

def Mem.Tight (m : Mem K V) : Prop := ∀ p, m.fresh ≤ p → m.heap p = none

theorem Mem.Tight.setLk {m : Mem K V} (h : m.Tight) (p : Ptr) (l : Lk) : (m.setLk p l).Tight := h

theorem Mem.Tight.setHeap {m : Mem K V} (h : m.Tight) {p : Ptr} {n n' : Node K V} (hp : m.heap p = some n) : (m.setHeap p n').Tight := by
  intro q hq
  have hq' : m.heap q = none := h q hq
  have : q ≠ p := by rintro rfl; rw [hp] at hq'; cases hq'
  simpa [Mem.setHeap, Spec.upd, this] using hq'

theorem Act.run_tight {a : Act K V β} {t : Tid} {m m' : Mem K V} {b : β} (hm : m.Tight) (hr : a.run t m = .run (b, m')) : m'.Tight := by
  cases a with
  | alloc n =>
    cases hr
    intro p hp
    have h1 : m.fresh + 1 ≤ p := hp
    have h2 : p ≠ m.fresh := Nat.ne_of_gt (Nat.lt_of_succ_le h1)
    have := hm p (Nat.le_of_succ_le h1)
    simpa [Mem.setHeap, Spec.upd, h2] using this
  | store p n | poke p n =>
    simp only [Act.run] at hr
    split at hr
    · cases hr
    · next e =>
      split at hr
      · cases hr; exact hm.setHeap e
      · cases hr
  | _ =>
    simp only [Act.run] at hr
    repeat' split at hr
    all_goals first
      | (cases hr; done)
      | (cases hr; exact hm)

theorem Conf.tight {I : CImpl K V} {c0 : Conf K V} (h0 : c0.mem.Tight) (hc : Conf.Reach I c0 c) : c.mem.Tight := by
  induction hc with
  | refl => exact h0
  | step _ h2 ih =>
    cases h2 with
    | inv => exact ih
    | act _ hr => exact Act.run_tight ih hr
    | crash => exact ih
    | res => exact ih

/-! ## The memory between the phases -/

theorem InvQ.step (ha : (Variant.pml : Variant K).Admissible cfg) (hb : BulkRoomy cfg bc) (h : InvQ cfg s m)
    {c : Cmd K V} (hc : c.Ok cfg bc) :
    ∃ out s' m', ReturnsB ((Variant.pml : Variant K).impl cfg) cfg bc s c out s' ∧ Spec.StepB m c out m' ∧ InvQ cfg s' m' := by
  have hbel := InvB.below h.toB
  have h0 : s.heap 0 ≠ none := by
    obtain ⟨s0, J, rfl, h2, -, h4⟩ := h
    simp only [St.plus, (h2 0 h4).1, Option.none_or]
    exact h4
  cases c with
  | call op =>
    obtain ⟨s0, J, rfl, hap, hi, hj⟩ := h
    obtain ⟨out, s', m', ⟨N, h1⟩, h2, h3⟩ := (Variant.callsOk ha).step hi op
    refine ⟨out, s'.plus J, m', ⟨N, fun f hf => ?_⟩, .call h2, s', J, rfl, ?_, h3, hj⟩
    · exact ((((Variant.pml : Variant K).frameOk cfg).exec f op).run J s0 out s' hap (h1 f hf)).1
    · exact ((((Variant.pml : Variant K).frameOk cfg).exec N op).run J s0 out s' hap (h1 N (le_refl _))).2
  | bulkload es t =>
    by_cases hes : es = []
    · subst hes
      exact ⟨_, s, m, ⟨0, fun _ _ => rfl⟩, .bulkloadNone t, h⟩
    · obtain ⟨hsd, hsp⟩ := hc.resolve_left hes
      obtain ⟨s0, m', h1, h2, h3, h4⟩ := bulkload_returns hb hbel hes hsd hsp
      exact ⟨_, _, m', h1 _, .bulkload hes h4, s0, s.heap, rfl, h2, h3, h0⟩

/-- A phase of calls by one thread. -/
theorem InvQ.run (ha : (Variant.pml : Variant K).Admissible cfg) (hb : BulkRoomy cfg bc) : ∀ (cs : List (Cmd K V)) (s : St K V) (m : Map K V),
    InvQ cfg s m → (∀ c ∈ cs, c.Ok cfg bc) →
    ∃ N outs s' m', ((Variant.pml : Variant K).impl cfg).runB cfg bc N cs s = .ok (outs, s') ∧ Spec.RunB m cs outs m' ∧ InvQ cfg s' m' := by
  intro cs
  induction cs with
  | nil => intro s m h _; exact ⟨0, [], s, m, rfl, .nil m, h⟩
  | cons c cs ih =>
    intro s m h hok
    obtain ⟨out, s1, m1, ⟨N1, a1⟩, a2, a3⟩ := h.step ha hb (hok c (by simp))
    obtain ⟨N, outs, s2, m2, b1, b2, b3⟩ := ih s1 m1 a3 (fun x hx => hok x (by simp [hx]))
    refine ⟨max N1 N, out :: outs, s2, m2, ?_, .cons a2 b2, b3⟩
    have b1 := (Impl.runB_mono (Variant.callsOk ha).fuelOk cfg bc cs N (max N1 N) (le_max_right _ _)).le _ _ b1
    unfold Impl.runB
    rw [M.bind_ok (a1 _ (le_max_left _ _)), M.bind_ok b1]
    rfl

theorem InvQ.ran (ha : (Variant.pml : Variant K).Admissible cfg) (hb : BulkRoomy cfg bc) (h : InvQ cfg s m) {cs : List (Cmd K V)}
    (hok : ∀ c ∈ cs, c.Ok cfg bc) {fuel : Nat} {outs : List (Out K V)} {s' : St K V}
    (hrun : ((Variant.pml : Variant K).impl cfg).runB cfg bc fuel cs s = .ok (outs, s')) : ∃ m', Spec.RunB m cs outs m' ∧ InvQ cfg s' m' := by
  obtain ⟨N, outs', s'', m', h1, h2, h3⟩ := InvQ.run ha hb cs s m h hok
  have mono := Impl.runB_mono (V := V) (Variant.callsOk (v := (Variant.pml : Variant K)) ha).fuelOk cfg bc cs
  have e1 := (mono fuel (max fuel N) (le_max_left _ _)).le _ _ hrun
  have e2 := (mono N (max fuel N) (le_max_right _ _)).le _ _ h1
  have e := e1.symm.trans e2
  simp only [Res.ok.injEq, Prod.mk.injEq] at e
  obtain ⟨rfl, rfl⟩ := e
  exact ⟨m', h2, h3⟩

theorem InvQ.tight (h : InvQ cfg s m) : (Conf.startPml s).mem.Tight := by
  intro p hp
  have hb := InvB.below h.toB
  obtain ⟨s0, J, rfl, h2, -, h4⟩ := h
  have h0 := (h2 0 h4).2
  have hp' : s0.fresh ≤ p := hp
  have : p ≠ 0 := Nat.ne_of_gt (Nat.lt_of_lt_of_le h0 hp')
  simp only [Conf.startPml, this, if_false]
  by_contra hne
  have := hb p hne
  exact Nat.lt_irrefl _ (Nat.lt_of_lt_of_le this hp')

/-- When all threads have returned, the pages of the tree are as they should be, and the contents are those of a map that has given the same
answers. -/
theorem PL.stopped {w : PL.World K V} {m0 : Map K V} (h : (PL.lg cfg : LLg K V).Sim m0 c w) (ht : c.mem.Tight) (hs : c.Stopped s) :
    ∃ m, Atomic true ⟨m0, fun _ => .idle⟩ c.hist ⟨m, fun _ => .idle⟩ ∧ InvQ cfg s m := by
  have hi : PL.PInv cfg w := h.inv
  have hm : w.mem = c.mem := h.mem
  have free : ∀ p, w.cells p ≠ none → w.own p = none := by
    intro p hp
    cases e : w.own p with
    | none => rfl
    | some t =>
      have hg : p ∉ w.mem.gc := fun hg => hp (hi.gc p hg).1
      have hts : PL.TS w t [] [] [] [] := (h.idle t (hs.thr t)).2
      have := (hts.own p hg).1 e
      cases this
  have hheap : ∀ p, w.cells p ≠ none → c.mem.heap p = w.cells p := fun p hp => by rw [← hm]; exact hi.clean p (free p hp) hp
  have h0 : w.root = s.root := by
    have h1 := hheap 0 (by simp [PL.World.cells])
    rw [hs.root] at h1
    simp only [PL.World.cells, if_true, Option.some.injEq] at h1
    simpa [treePage] using h1.symm
  refine ⟨w.ps.maps w.ps.now, ?_, w.st, fun p => if w.vh p = none then c.mem.heap p else none, ?_, ?_, ⟨_, _, hi.good, hi.map.symm⟩, ?_⟩
  · have hp : Past true m0 w.ps c.hist := h.past
    have := hp.atomic [] trivial
    have e : Choice.apply w.ps [] = fun _ => Phase.idle := by
      funext t
      show (w.ps.ph t).forget = _
      have := (h.idle t (hs.thr t)).1
      rw [show w.ps.ph t = PPhase.idle from this]
      rfl
    rw [e] at this
    exact this
  · obtain ⟨hp, fr, rt⟩ := s
    have e1 : hp = c.mem.heap := hs.heap
    have e2 : fr = c.mem.fresh := hs.fresh
    have e3 : w.root = rt := h0
    subst e1 e2 e3
    simp only [St.plus, hm, St.mk.injEq, and_true]
    funext p
    cases e : w.vh p with
    | none => simp
    | some n =>
      by_cases z : p = 0
      · subst z; rw [hi.zero.1] at e; cases e
      · have := hheap p (by simp [PL.World.cells, z, e])
        simp [this, PL.World.cells, z, e]
  · intro p hp
    by_cases e : w.vh p = none
    · refine ⟨e, ?_⟩
      simp only [e, if_true] at hp
      show p < w.mem.fresh
      rw [hm]
      by_contra hlt
      exact hp (ht p (Nat.le_of_not_lt hlt))
    · simp [e] at hp
  · simp [hi.zero.1, hs.root]

end BT
