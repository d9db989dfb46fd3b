import Verif.BulkDone
import Verif.Frame

/-!
# Histories with bulkloading

After a bulkload the memory holds the new tree and, outside of it, the pages of the tree that was there before.
-/

set_option linter.unusedSectionVars false

namespace BT
variable {K V : Type} [LinearOrder K] {cfg : Cfg K} {bc : BulkCfg}

/-- One call of the full API. -/
def Impl.execB (I : Impl K V) (cfg : Cfg K) (bc : BulkCfg) (fuel : Nat) : Cmd K V → M K V (Out K V)
  | .call op => I.exec fuel op
  | .bulkload es threads => do let r ← BT.bulkload cfg bc fuel es threads; return .code r

/-- A sequence of calls of the full API. -/
def Impl.runB (I : Impl K V) (cfg : Cfg K) (bc : BulkCfg) (fuel : Nat) : List (Cmd K V) → M K V (List (Out K V))
  | [] => return []
  | c :: cs => do
    let o ← I.execB cfg bc fuel c
    let os ← I.runB cfg bc fuel cs
    return o :: os

/-- The inputs `Bulkload` handles: sorted, and (unless empty) spread over at least two leaves. -/
def Cmd.Ok (cfg : Cfg K) (bc : BulkCfg) : Cmd K V → Prop
  | .call _ => True
  | .bulkload es threads => es = [] ∨ (Spec.Ascending es ∧ Spread cfg bc es threads)

/-! ## Fuel -/

theorem constructLayer_mono (cfg : Cfg K) (bc : BulkCfg) (b : Bool) (es : List (K × Pay V)) (prev : Option Ptr) :
    Mono (fun f => constructLayer cfg bc b f es prev) := by
  intro a
  induction a generalizing es prev with
  | zero => intro c _; exact Le.fuel _
  | succ a ih =>
    intro c hc
    obtain ⟨c, rfl⟩ : ∃ d, c = d + 1 := ⟨c - 1, by omega⟩
    have h := fun es prev => ih es prev c (by omega)
    dsimp only at h ⊢
    cases es with
    | nil => exact Le.refl _
    | cons e es => unfold constructLayer; le_prog [h]

theorem bulkRaise_mono (cfg : Cfg K) (bc : BulkCfg) (height : Nat) (nodes : List (K × Ptr)) :
    Mono (fun f => (bulkRaise cfg bc f height nodes : M K V _)) := by
  intro a
  induction a generalizing height nodes with
  | zero => intro c _; exact Le.fuel _
  | succ a ih =>
    intro c hc
    obtain ⟨c, rfl⟩ : ∃ d, c = d + 1 := ⟨c - 1, by omega⟩
    have h := fun es prev => ih es prev c (by omega)
    have h2 := fun es prev => constructLayer_mono (V := V) cfg bc true es prev (a + 1) (c + 1) hc
    dsimp only at h h2 ⊢
    unfold bulkRaise; le_prog [h, h2]

theorem bulkSingle_mono (cfg : Cfg K) (bc : BulkCfg) (es : List (K × V)) : Mono (fun f => bulkSingle cfg bc f es) := by
  intro a c hc
  have h1 := fun es prev => constructLayer_mono (V := V) cfg bc false es prev a c hc
  have h2 := fun h es => bulkRaise_mono (V := V) cfg bc h es a c hc
  dsimp only at h1 h2 ⊢
  unfold bulkSingle; le_prog [h1, h2]

theorem bulkWorkers_mono (cfg : Cfg K) (bc : BulkCfg) (ess : List (List (K × V))) : Mono (fun f => bulkWorkers cfg bc f ess) := by
  intro a c hc
  induction ess with
  | nil => exact Le.refl _
  | cons es ess ih =>
    have h := bulkSingle_mono cfg bc es a c hc
    dsimp only at h ih ⊢
    unfold bulkWorkers; le_prog [h, ih]

theorem bulkAlign_mono (cfg : Cfg K) (bc : BulkCfg) (j : Nat) (nodes : List (K × Ptr)) :
    Mono (fun f => (bulkAlign cfg bc f j nodes : M K V _)) := by
  intro a c hc
  induction j generalizing nodes with
  | zero => exact Le.refl _
  | succ j ih =>
    have h := fun es prev => constructLayer_mono (V := V) cfg bc true es prev a c hc
    dsimp only at h ih ⊢
    unfold bulkAlign; le_prog [h, ih]

theorem linkVertical_mono (cfg : Cfg K) (l r : Ptr) : Mono (fun f => (linkVertical cfg f l r : M K V _)) := by
  intro a
  induction a generalizing l r with
  | zero => intro c _; exact Le.fuel _
  | succ a ih =>
    intro c hc
    obtain ⟨c, rfl⟩ : ∃ d, c = d + 1 := ⟨c - 1, by omega⟩
    have h := fun l r => ih l r c (by omega)
    dsimp only at h ⊢
    unfold linkVertical; le_prog [h]

theorem linkParts_mono (cfg : Cfg K) (prev : Option Ptr) (nodes : List (K × Ptr)) :
    Mono (fun f => (linkParts cfg f prev nodes : M K V _)) := by
  intro a c hc
  have h := fun l r => linkVertical_mono (V := V) cfg l r a c hc
  dsimp only at h ⊢
  unfold linkParts; le_prog [h]

theorem bulkJoin_mono (cfg : Cfg K) (bc : BulkCfg) (height : Nat) (ps : List (Nat × List (K × Ptr))) (prev : Option Ptr) :
    Mono (fun f => (bulkJoin cfg bc f height ps prev : M K V _)) := by
  intro a c hc
  induction ps generalizing prev with
  | nil => exact Le.refl _
  | cons p ps ih =>
    have h1 := fun j es => bulkAlign_mono (V := V) cfg bc j es a c hc
    have h2 := fun pr es => linkParts_mono (V := V) cfg pr es a c hc
    dsimp only at h1 h2 ih ⊢
    unfold bulkJoin; le_prog [h1, h2, ih]

theorem bulkTop_mono (cfg : Cfg K) (bc : BulkCfg) (nodes : List (K × Ptr)) : Mono (fun f => (bulkTop cfg bc f nodes : M K V _)) := by
  intro a
  induction a generalizing nodes with
  | zero => intro c _; exact Le.fuel _
  | succ a ih =>
    intro c hc
    obtain ⟨c, rfl⟩ : ∃ d, c = d + 1 := ⟨c - 1, by omega⟩
    have h := fun l => ih l c (by omega)
    have h2 := fun es prev => constructLayer_mono (V := V) cfg bc true es prev (a + 1) (c + 1) hc
    dsimp only at h h2 ⊢
    match nodes with
    | [] => exact Le.refl _
    | [x] => exact Le.refl _
    | x :: y :: nodes => unfold bulkTop; le_prog [h, h2]

theorem removeLeftmostKeys_mono (p : Ptr) : Mono (fun f => (removeLeftmostKeys f p : M K V _)) := by
  intro a
  induction a generalizing p with
  | zero => intro c _; exact Le.fuel _
  | succ a ih =>
    intro c hc
    obtain ⟨c, rfl⟩ : ∃ d, c = d + 1 := ⟨c - 1, by omega⟩
    have h := fun l => ih l c (by omega)
    dsimp only at h ⊢
    unfold removeLeftmostKeys; le_prog [h]

theorem bulkload_mono (cfg : Cfg K) (bc : BulkCfg) (es : List (K × V)) (threads : Nat) :
    Mono (fun f => bulkload cfg bc f es threads) := by
  intro a c hc
  have h1 := fun es => bulkSingle_mono (V := V) cfg bc es a c hc
  have h2 := fun ess => bulkWorkers_mono (V := V) cfg bc ess a c hc
  have h3 := fun h ps pr => bulkJoin_mono (V := V) cfg bc h ps pr a c hc
  have h4 := fun l => bulkTop_mono (V := V) cfg bc l a c hc
  have h5 := fun p => removeLeftmostKeys_mono (K := K) (V := V) p a c hc
  dsimp only at h1 h2 h3 h4 h5 ⊢
  unfold bulkload bulkNodes; le_prog [h1, h2, h3, h4, h5]

theorem Impl.execB_mono {I : Impl K V} (h : I.FuelOk) (cfg : Cfg K) (bc : BulkCfg) (c : Cmd K V) :
    Mono (fun f => I.execB cfg bc f c) := by
  cases c with
  | call op => exact h.exec op
  | bulkload es t =>
    intro a b hab
    exact Le.bind (bulkload_mono cfg bc es t a b hab) (fun _ => Le.refl _)

/-! ## The invariant with left-over pages -/

/-- The memory holds a tree with contents `m`, and possibly pages outside of it. -/
def InvB (cfg : Cfg K) (s : St K V) (m : Map K V) : Prop :=
  ∃ s0 J, s = s0.plus J ∧ Apart J s0 ∧ Inv cfg s0 m

theorem InvB.of {s : St K V} {m : Map K V} (h : Inv cfg s m) : InvB cfg s m := by
  refine ⟨s, fun _ => none, ?_, fun p hp => absurd rfl hp, h⟩
  unfold St.plus
  simp

theorem InvB.below {s : St K V} {m : Map K V} (h : InvB cfg s m) : Below s := by
  obtain ⟨s0, J, rfl, ha, H, gr, g, -⟩ := h
  intro p hp
  by_cases h0 : s0.heap p = none
  · have : J p ≠ none := by
      intro hj
      apply hp
      simp [St.plus, h0, hj]
    exact (ha p this).2
  · exact g.wf.fresh p h0

/-- Every call of the full API made in a memory `s` finishes with `out`, leaving `s'`. -/
def ReturnsB (I : Impl K V) (cfg : Cfg K) (bc : BulkCfg) (s : St K V) (c : Cmd K V) (out : Out K V) (s' : St K V) : Prop :=
  ∃ N, ∀ fuel, N ≤ fuel → I.execB cfg bc fuel c s = .ok (out, s')

theorem ReturnsB.unique {I : Impl K V} {s s1 s2 : St K V} {c : Cmd K V} {o1 o2 : Out K V} (h1 : ReturnsB I cfg bc s c o1 s1)
    (h2 : ReturnsB I cfg bc s c o2 s2) : o1 = o2 ∧ s1 = s2 := by
  obtain ⟨N1, h1⟩ := h1
  obtain ⟨N2, h2⟩ := h2
  have := (h1 (max N1 N2) (le_max_left _ _)).symm.trans (h2 _ (le_max_right _ _))
  simpa using this

theorem bulkload_returns (hb : BulkRoomy cfg bc) {s : St K V} (hbel : Below s) {es : List (K × V)} (hes : es ≠ [])
    (hs : Spec.Ascending es) {threads : Nat} (hsp : Spread cfg bc es threads) :
    ∃ s0 m', (∀ I : Impl K V, ReturnsB I cfg bc s (.bulkload es threads) (.code .success) (s0.plus s.heap)) ∧
      Apart s.heap s0 ∧ Inv cfg s0 m' ∧ Spec.Holds m' es := by
  obtain ⟨s0, H, gr, h1, h2, h3, h4⟩ := bulkload_ok hb hbel hes hs hsp (Nat.lt_succ_self _)
  refine ⟨s0, mapOf es, fun I => ⟨es.length.succ, fun fuel hf => ?_⟩, h2, ⟨H, gr, h3, by rw [h4]⟩, fun k v => mapOf_eq_some hs⟩
  have := (bulkload_mono cfg bc es threads _ fuel hf).le s _ h1
  simp only [Impl.execB]
  rw [M.bind_ok this]
  rfl

theorem InvB.step {v : Variant K} (ha : v.Admissible cfg) (hb : BulkRoomy cfg bc) {s : St K V} {m : Map K V} (h : InvB cfg s m)
    {c : Cmd K V} (hc : c.Ok cfg bc) : ∃ out s' m', ReturnsB (v.impl cfg) cfg bc s c out s' ∧ Spec.StepB m c out m' ∧ InvB cfg s' m' := by
  cases c with
  | call op =>
    obtain ⟨s0, J, rfl, hap, hi⟩ := h
    obtain ⟨out, s', m', ⟨N, h1⟩, h2, h3⟩ := (Variant.callsOk ha).step hi op
    refine ⟨out, s'.plus J, m', ⟨N, fun f hf => ?_⟩, .call h2, s', J, rfl, ?_, h3⟩
    · exact (((v.frameOk cfg).exec f op).run J s0 out s' hap (h1 f hf)).1
    · exact (((v.frameOk cfg).exec N op).run J s0 out s' hap (h1 N (le_refl _))).2
  | bulkload es t =>
    by_cases hes : es = []
    · subst hes
      exact ⟨_, s, m, ⟨0, fun _ _ => rfl⟩, .bulkloadNone t, h⟩
    · obtain ⟨hs, hsp⟩ := hc.resolve_left hes
      obtain ⟨s0, m', h1, h2, h3, h4⟩ := bulkload_returns hb h.below hes hs hsp
      exact ⟨_, _, m', h1 _, .bulkload hes h4, s0, s.heap, rfl, h2, h3⟩

theorem InvB.run {v : Variant K} (ha : v.Admissible cfg) (hb : BulkRoomy cfg bc) : ∀ (cs : List (Cmd K V)) (s : St K V) (m : Map K V),
    InvB cfg s m → (∀ c ∈ cs, c.Ok cfg bc) →
    ∃ N outs s' m', (∀ fuel, N ≤ fuel → (v.impl cfg).runB cfg bc fuel cs s = .ok (outs, s')) ∧ Spec.RunB m cs outs m' ∧
      InvB cfg s' m' := by
  intro cs
  induction cs with
  | nil => intro s m h _; exact ⟨0, [], s, m, fun _ _ => rfl, .nil m, h⟩
  | cons c cs ih =>
    intro s m h hok
    obtain ⟨out, s1, m1, ⟨N1, a1⟩, a2, a3⟩ := h.step ha hb (hok c (by simp))
    obtain ⟨N, outs, s2, m2, b1, b2, b3⟩ := ih s1 m1 a3 (fun x hx => hok x (by simp [hx]))
    refine ⟨max N1 N, out :: outs, s2, m2, ?_, .cons a2 b2, b3⟩
    intro fuel hfu
    unfold Impl.runB
    rw [M.bind_ok (a1 fuel (by omega)), M.bind_ok (b1 fuel (by omega))]
    rfl

/-- Memories left by admissible histories of the full API. -/
inductive ReachableB (I : Impl K V) (cfg : Cfg K) (bc : BulkCfg) : St K V → Prop
  | init : ReachableB I cfg bc initSt
  | step {s c out s'} : ReachableB I cfg bc s → c.Ok cfg bc → ReturnsB I cfg bc s c out s' → ReachableB I cfg bc s'

theorem ReachableB.inv {v : Variant K} (ha : v.Admissible cfg) (hb : BulkRoomy cfg bc) {s : St K V}
    (h : ReachableB (v.impl cfg) cfg bc s) : ∃ m, InvB cfg s m := by
  induction h with
  | init => exact ⟨_, .of (inv_init cfg)⟩
  | step _ hok hret ih =>
    obtain ⟨m, hm⟩ := ih
    obtain ⟨out, s', m', h1, -, h3⟩ := hm.step ha hb hok
    obtain ⟨-, rfl⟩ := hret.unique h1
    exact ⟨m', h3⟩

/-! ## Answers are determined -/

theorem Spec.IsScan.unique {m : Map K V} {b e : ScanKey K} {l l' : List (K × V)} (h : Spec.IsScan m b e l)
    (h' : Spec.IsScan m b e l') : l = l' := by
  have hmem : ∀ x, x ∈ l ↔ x ∈ l' := fun x => (h.2 x.1 x.2).trans (h'.2 x.1 x.2).symm
  have nd : ∀ {l : List (K × V)}, l.Pairwise (fun x y => x.1 < y.1) → l.Nodup := fun hp =>
    hp.imp (fun {a b} hab he => by subst he; exact lt_irrefl _ hab)
  have hp : l.Perm l' := (List.perm_ext_iff_of_nodup (nd h.1) (nd h'.1)).2 hmem
  exact hp.eq_of_pairwise (le := fun x y => x.1 < y.1) (fun a b _ _ h1 h2 => absurd (lt_trans h1 h2) (lt_irrefl _)) h.1 h'.1

theorem Spec.Step.unique {m m1 m2 : Map K V} {op : Op K V} {o1 o2 : Out K V} (h1 : Spec.Step m op o1 m1)
    (h2 : Spec.Step m op o2 m2) : o1 = o2 ∧ m1 = m2 := by
  cases h1 <;> cases h2 <;> first | exact ⟨rfl, rfl⟩ | contradiction | skip
  rename_i h1 _ h2
  exact ⟨by rw [h1.unique h2], rfl⟩

theorem Spec.StepB.unique {m m1 m2 : Map K V} {c : Cmd K V} {o1 o2 : Out K V} (h1 : Spec.StepB m c o1 m1)
    (h2 : Spec.StepB m c o2 m2) : o1 = o2 ∧ m1 = m2 := by
  cases h1 with
  | call h1 => cases h2 with | call h2 => exact h1.unique h2
  | bulkloadNone =>
    cases h2 with
    | bulkloadNone => exact ⟨rfl, rfl⟩
    | bulkload h => exact absurd rfl h
  | bulkload h h1 =>
    cases h2 with
    | bulkloadNone => exact absurd rfl h
    | bulkload _ h2 =>
      refine ⟨rfl, funext fun k => Option.ext fun v => (h1 k v).trans (h2 k v).symm⟩

theorem Spec.RunB.unique {m m1 m2 : Map K V} {cs : List (Cmd K V)} {o1 o2 : List (Out K V)} (h1 : Spec.RunB m cs o1 m1)
    (h2 : Spec.RunB m cs o2 m2) : o1 = o2 ∧ m1 = m2 := by
  induction h1 generalizing o2 with
  | nil => cases h2; exact ⟨rfl, rfl⟩
  | cons a _ ih =>
    cases h2 with
    | cons b h2 =>
      obtain ⟨rfl, rfl⟩ := a.unique b
      obtain ⟨rfl, rfl⟩ := ih h2
      exact ⟨rfl, rfl⟩

/-! ## Pages left over -/

theorem M.each_framed {α : Type} {f : α → M K V Unit} (h : ∀ a, Framed (f a)) : ∀ l : List α, Framed (M.each f l)
  | [] => Framed.pure _
  | a :: l => by
    have := M.each_framed h l
    unfold M.each; frame_prog [h]

theorem deleteChildren_framed (f : Nat) (p : Ptr) : Framed (deleteChildren f p : M K V Unit) := by
  induction f generalizing p with
  | zero => exact Framed.outOfFuel
  | succ f ih =>
    unfold deleteChildren
    frame_prog [ih, M.each_framed]

theorem destroy_framed (f : Nat) : Framed (destroy f : M K V Unit) := by
  unfold destroy; frame_prog [deleteChildren_framed]

end BT
