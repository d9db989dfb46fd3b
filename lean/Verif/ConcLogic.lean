import Verif.Conc
import Verif.LinPast

/-!
# A rely-guarantee logic for the machine of `Conc.lean`

`Lg` collects what a proof about one tree variant provides: worlds (memory plus ghost state), an invariant of all
reachable worlds and, for every thread, a relation that bounds what the other threads can do meanwhile.  `Lg.wp` is
the weakest precondition of a piece of code.  `Lg.adequate`: if the code of every call is correct in this sense, then
every execution that does not run into a noted situation is free of undefined behaviour and linearizable in parts.
`Conf.noRecs`: a tree whose calls never return records has no scans.
-/

set_option linter.unusedSectionVars false

namespace BT
open Spec
variable {K V : Type} [LinearOrder K]

structure Lg (K V : Type) [LinearOrder K] where
  W : Type
  mem : W → Mem K V
  /-- scans may take effect in parts -/
  parts : Bool
  ps : W → PState K V
  Inv : W → Prop
  /-- what the other threads may do while thread `t` does nothing -/
  Rely : Tid → W → W → Prop
  /-- thread `t` is between two calls -/
  Idle : Tid → W → Prop
  /-- code may run into a noted situation -/
  MayRace : W → Prop := fun _ => True
  /-- what the code shows before an action -/
  Ask : Tid → {β : Type} → Act K V β → W → Prop := fun _ _ _ _ => True
  /-- what no step of a thread changes -/
  Keep : W → W → Prop := fun _ _ => True
  setPh : W → Tid → PPhase K V → W
  rely_refl : ∀ t w, Rely t w w
  rely_trans : ∀ {t w w1 w2}, Rely t w w1 → Rely t w1 w2 → Rely t w w2
  rely_ph : ∀ {t w w'}, Rely t w w' → (ps w').ph t = (ps w).ph t
  idle_stable : ∀ {t w w'}, Rely t w w' → Idle t w → Idle t w'
  mem_setPh : ∀ w t x, mem (setPh w t x) = mem w
  ps_setPh : ∀ w t x, ps (setPh w t x) = ⟨(ps w).now, (ps w).maps, Spec.upd (ps w).ph t x⟩
  inv_setPh : ∀ {w} t x, Inv w → Inv (setPh w t x)
  idle_setPh : ∀ {w t'} t x, Idle t' w → Idle t' (setPh w t x)
  rely_setPh : ∀ w t x t', t' ≠ t → Rely t' w (setPh w t x)

namespace Lg
variable (L : Lg K V)

/-- A step of thread `t` that the other threads tolerate. -/
structure Ok (t : Tid) (w w' : L.W) : Prop where
  inv : L.Inv w'
  guar : ∀ t', t' ≠ t → L.Rely t' w w'
  past : ∀ {m0 : Map K V} h, Past L.parts m0 (L.ps w) h → Past L.parts m0 (L.ps w') h
  keep : L.Keep w w'

/-- Weakest precondition of code of thread `t`. -/
def wp (t : Tid) {α : Type} : Prog K V α → (α → L.W → Prop) → L.W → Prop
  | .ret a, Q, w => Q a w
  | .ub, _, _ => False
  | .stuck, _, _ => True
  | .act a k, Q, w => ∀ w1, L.Rely t w w1 → L.Inv w1 →
      (a.run t (L.mem w1) ≠ .ub ∧ L.Ask t a w1) ∧ ∀ b m, a.run t (L.mem w1) = .run (b, m) →
        (m.raced = true ∧ L.MayRace w1) ∨ ∃ w2, L.mem w2 = m ∧ L.Ok t w1 w2 ∧ wp t (k b) Q w2

variable {L} {t : Tid} {α β : Type} {m0 : Map K V}

theorem wp_bind {p : Prog K V α} {f : α → Prog K V β} {Q : β → L.W → Prop} {w : L.W}
    (h : L.wp t p (fun a w => L.wp t (f a) Q w) w) : L.wp t (p >>= f) Q w := by
  show L.wp t (Prog.bind p f) Q w
  induction p generalizing w with
  | ret a => exact h
  | ub => exact h.elim
  | stuck => trivial
  | act a k ih =>
    intro w1 hr hi
    obtain ⟨h1, h2⟩ := h w1 hr hi
    refine ⟨h1, fun b m e => ?_⟩
    rcases h2 b m e with h3 | ⟨w2, h3, h4, h5⟩
    · exact Or.inl h3
    · exact Or.inr ⟨w2, h3, h4, ih b h5⟩

theorem wp_mono {p : Prog K V α} {Q Q' : α → L.W → Prop} {w : L.W} (h : L.wp t p Q w) (hq : ∀ a w, Q a w → Q' a w) :
    L.wp t p Q' w := by
  induction p generalizing w with
  | ret a => exact hq _ _ h
  | ub => exact h.elim
  | stuck => trivial
  | act a k ih =>
    intro w1 hr hi
    obtain ⟨h1, h2⟩ := h w1 hr hi
    refine ⟨h1, fun b m e => ?_⟩
    rcases h2 b m e with h3 | ⟨w2, h3, h4, h5⟩
    · exact Or.inl h3
    · exact Or.inr ⟨w2, h3, h4, ih b h5⟩

/-- One action followed by code. -/
theorem wp_do {a : Act K V α} {f : α → Prog K V β} {Q : β → L.W → Prop} {w : L.W}
    (h : ∀ w1, L.Rely t w w1 → L.Inv w1 → (a.run t (L.mem w1) ≠ .ub ∧ L.Ask t a w1) ∧ ∀ b m, a.run t (L.mem w1) = .run (b, m) →
      (m.raced = true ∧ L.MayRace w1) ∨ ∃ w2, L.mem w2 = m ∧ L.Ok t w1 w2 ∧ L.wp t (f b) Q w2) :
    L.wp t (Prog.do_ a >>= f) Q w := h

theorem wp_lift {r : Res α} {f : α → Prog K V β} {Q : β → L.W → Prop} {w : L.W} {a : α} (h : r = .ok a)
    (h' : L.wp t (f a) Q w) : L.wp t (Prog.lift r >>= f) Q w := by subst h; exact h'

theorem raced_mono {a : Act K V α} {m m' : Mem K V} {b : α} (h : a.run t m = .run (b, m')) (hr : m.raced = true) :
    m'.raced = true := by
  cases a <;> simp only [Act.run] at h <;> (try split at h) <;> (try split at h) <;> (try split at h) <;>
    first
    | (cases h; done)
    | (cases h; simp [Mem.setHeap, Mem.setLk, hr])

/-- Simulation relation between configurations and worlds; `m0` are the contents at the beginning. -/
def SimAt (L : Lg K V) (m0 : Map K V) (c : Conf K V) (w : L.W) : Prop :=
  L.mem w = c.mem ∧ L.Inv w ∧ Past L.parts m0 (L.ps w) c.hist ∧
    ∀ t, (c.thr t = none → (L.ps w).ph t = .idle ∧ L.Idle t w) ∧
      ∀ p, c.thr t = some p → ∃ w0, L.Rely t w0 w ∧
        L.wp t p (fun out w => (L.ps w).ph t = .done out ∧ L.Idle t w) w0

def Sim (L : Lg K V) (m0 : Map K V) (c : Conf K V) : Prop := c.mem.raced = true ∨ ∃ w, L.SimAt m0 c w

/-- A step of thread `u`, and what it does to the world. -/
structure Moved (L : Lg K V) (I : CImpl K V) (u : Tid) (c c' : Conf K V) (w w' : L.W) : Prop where
  rely : ∀ t, t ≠ u → L.Rely t w w'
  thr : ∀ t, t ≠ u → c'.thr t = c.thr t
  step : (∃ (β : Type) (a : Act K V β) (k : β → Prog K V (Out K V)) (b : β), c.thr u = some (.act a k) ∧
      a.run u c.mem = .run (b, c'.mem) ∧ c'.thr u = some (k b) ∧ L.Ask u a w) ∨
    (c'.mem = c.mem ∧ ((∃ fuel op, c.thr u = none ∧ c'.thr u = some (I fuel op)) ∨
      ∃ out, c.thr u = some (.ret out) ∧ c'.thr u = none))

theorem upd_some {γ : Type 1} {f : Nat → Option γ} {t u : Nat} {x : Option γ} : Spec.upd f t x u = if u = t then x else f u := rfl

theorem sim_at_step {I : CImpl K V}
    (hI : ∀ t fuel op w, L.Inv w → L.Idle t w → (L.ps w).ph t = .waiting op (L.ps w).now →
      L.wp t (I fuel op) (fun out w => (L.ps w).ph t = .done out ∧ L.Idle t w) w)
    {c c' : Conf K V} {w : L.W} (h : L.SimAt m0 c w) (hs : Conf.Step I c c') :
    c'.mem.raced = true ∨ ∃ w' u, L.SimAt m0 c' w' ∧ L.Moved I u c c' w w' := by
  obtain ⟨e, hi, hp, ht⟩ := h
  · cases hs with
    | inv t op fuel h0 =>
      obtain ⟨hid, hidle⟩ := (ht t).1 h0
      let w' := L.setPh w t (.waiting op (L.ps w).now)
      have hps := L.ps_setPh w t (.waiting op (L.ps w).now)
      refine Or.inr ⟨w', t, ⟨(L.mem_setPh _ _ _).trans e, L.inv_setPh _ _ hi, ?_, fun u => ?_⟩, fun u hu => L.rely_setPh _ _ _ _ hu,
        fun u hu => Spec.upd_ne _ _ hu, Or.inr ⟨rfl, Or.inl ⟨fuel, op, h0, Spec.upd_same _ _ _⟩⟩⟩
      · rw [show L.ps w' = _ from hps]
        exact Past.inv t op hp hid
      · by_cases hu : u = t
        · subst hu
          simp only [Spec.upd, if_true]
          refine ⟨fun h => (by cases h), ?_⟩
          intro p hp'
          cases hp'
          refine ⟨w', L.rely_refl _ _, hI _ _ _ _ (L.inv_setPh _ _ hi) (L.idle_setPh _ _ hidle) ?_⟩
          simp only [w', hps, Spec.upd, if_true]
        · simp only [Spec.upd, if_neg hu]
          refine ⟨fun hn => ?_, fun p hp' => ?_⟩
          · obtain ⟨h1, h2⟩ := (ht u).1 hn
            exact ⟨by simp only [w', hps, Spec.upd, if_neg hu]; exact h1, L.idle_setPh _ _ h2⟩
          · obtain ⟨w0, h1, h2⟩ := (ht u).2 p hp'
            exact ⟨w0, L.rely_trans h1 (L.rely_setPh _ _ _ _ hu), h2⟩
    | @act t β a k b m h0 hrun =>
      obtain ⟨w0, h1, h2⟩ := (ht t).2 _ h0
      obtain ⟨⟨-, hask⟩, h3⟩ := h2 w h1 hi
      rcases h3 b m (by rw [e]; exact hrun) with h4 | ⟨w2, h4, h5, h6⟩
      · exact Or.inl h4.1
      · refine Or.inr ⟨w2, t, ⟨h4, h5.inv, h5.past _ hp, fun u => ?_⟩, h5.guar, fun u hu => Spec.upd_ne _ _ hu,
          Or.inl ⟨β, a, k, b, h0, hrun, Spec.upd_same _ _ _, hask⟩⟩
        by_cases hu : u = t
        · subst hu
          simp only [Spec.upd, if_true]
          refine ⟨fun h => (by cases h), ?_⟩
          intro p hp'
          cases hp'
          exact ⟨w2, L.rely_refl _ _, h6⟩
        · simp only [Spec.upd, if_neg hu]
          refine ⟨fun hn => ?_, fun p hp' => ?_⟩
          · obtain ⟨h7, h8⟩ := (ht u).1 hn
            exact ⟨(L.rely_ph (h5.guar u hu)).trans h7, L.idle_stable (h5.guar u hu) h8⟩
          · obtain ⟨w3, h7, h8⟩ := (ht u).2 p hp'
            exact ⟨w3, L.rely_trans h7 (h5.guar u hu), h8⟩
    | @crash t β a k h0 hrun =>
      obtain ⟨w0, h1, h2⟩ := (ht t).2 _ h0
      obtain ⟨⟨h3, -⟩, -⟩ := h2 w h1 hi
      exact absurd (by rw [e]; exact hrun) h3
    | @res t out h0 =>
      obtain ⟨w0, h1, h2, h2'⟩ := (ht t).2 _ h0
      have hd := (L.rely_ph h1).trans h2
      let w' := L.setPh w t .idle
      have hps := L.ps_setPh w t .idle
      refine Or.inr ⟨w', t, ⟨(L.mem_setPh _ _ _).trans e, L.inv_setPh _ _ hi, ?_, fun u => ?_⟩, fun u hu => L.rely_setPh _ _ _ _ hu,
        fun u hu => Spec.upd_ne _ _ hu, Or.inr ⟨rfl, Or.inr ⟨out, h0, Spec.upd_same _ _ _⟩⟩⟩
      · rw [show L.ps w' = _ from hps]
        exact Past.res hp hd
      · by_cases hu : u = t
        · subst hu
          simp only [Spec.upd, if_true]
          refine ⟨fun _ => ⟨by simp only [w', hps, Spec.upd, if_true], L.idle_setPh _ _ (L.idle_stable h1 h2')⟩, ?_⟩
          intro p hp'
          cases hp'
        · simp only [Spec.upd, if_neg hu]
          refine ⟨fun hn => ?_, fun p hp' => ?_⟩
          · obtain ⟨h1, h2⟩ := (ht u).1 hn
            exact ⟨by simp only [w', hps, Spec.upd, if_neg hu]; exact h1, L.idle_setPh _ _ h2⟩
          · obtain ⟨w0, h1, h2⟩ := (ht u).2 p hp'
            exact ⟨w0, L.rely_trans h1 (L.rely_setPh _ _ _ _ hu), h2⟩

theorem sim_step {I : CImpl K V}
    (hI : ∀ t fuel op w, L.Inv w → L.Idle t w → (L.ps w).ph t = .waiting op (L.ps w).now →
      L.wp t (I fuel op) (fun out w => (L.ps w).ph t = .done out ∧ L.Idle t w) w)
    {c c' : Conf K V} (h : L.Sim m0 c) (hs : Conf.Step I c c') : L.Sim m0 c' := by
  rcases h with h | ⟨w, h⟩
  · cases hs with
    | inv => exact Or.inl h
    | act _ hrun => exact Or.inl (raced_mono hrun h)
    | crash => exact Or.inl h
    | res => exact Or.inl h
  · exact (sim_at_step hI h hs).imp id fun ⟨w', _, h', _⟩ => ⟨w', h'⟩

/-- Correct code runs without undefined behaviour and produces histories that are linearizable in parts, as long as no noted
situation occurs. -/
theorem adequate {I : CImpl K V} {c0 : Conf K V} (hl : L.parts = true) (h0 : L.Sim m0 c0)
    (hI : ∀ t fuel op w, L.Inv w → L.Idle t w → (L.ps w).ph t = .waiting op (L.ps w).now →
      L.wp t (I fuel op) (fun out w => (L.ps w).ph t = .done out ∧ L.Idle t w) w)
    {c : Conf K V} (hc : Conf.Reach I c0 c) (hn : c.mem.raced = false) : ¬ c.Bad ∧ PartwiseLinearizableFrom m0 c.hist := by
  have h : L.Sim m0 c := by
    induction hc with
    | refl => exact h0
    | @step c1 c2 h1 h2 ih =>
      refine sim_step hI (ih ?_) h2
      cases hr : c1.mem.raced with
      | false => rfl
      | true =>
        cases h2 with
        | inv => exact hn.symm.trans hr |>.symm
        | act _ hrun => rw [raced_mono hrun hr] at hn; cases hn
        | crash => exact hn.symm.trans hr |>.symm
        | res => exact hn.symm.trans hr |>.symm
  rcases h with h | ⟨w, e, hi, hp, ht⟩
  · rw [hn] at h; cases h
  · refine ⟨?_, (hl ▸ hp : Past true m0 (L.ps w) c.hist).partwise⟩
    rintro ⟨t, h⟩
    obtain ⟨w0, -, h2⟩ := (ht t).2 _ h
    exact h2

end Lg

/-- Code that returns no list of records. -/
def Prog.NoRecs : Prog K V (Out K V) → Prop
  | .ret o => ∀ l, o ≠ .recs l
  | .act _ k => ∀ b, (k b).NoRecs
  | .ub => True
  | .stuck => True

theorem Prog.NoRecs.bind {α : Type} {p : Prog K V α} {f : α → Prog K V (Out K V)} (h : ∀ a, (f a).NoRecs) : (p >>= f).NoRecs := by
  show (Prog.bind p f).NoRecs
  induction p with
  | ret a => exact h a
  | act a k ih => exact ih
  | ub => trivial
  | stuck => trivial

/-- If no call returns a list of records there is none in the history. -/
theorem Conf.noRecs {I : CImpl K V} (hI : ∀ fuel op, (I fuel op).NoRecs) {c0 c : Conf K V} (h0 : ∀ t, c0.thr t = none) (h0' : c0.hist = [])
    (hc : Conf.Reach I c0 c) :
    ∀ t l, .res t (.recs l) ∉ c.hist := by
  have key : (∀ t l, .res t (.recs l) ∉ c.hist) ∧ ∀ t p, c.thr t = some p → p.NoRecs := by
    induction hc with
    | refl => exact ⟨by simp [h0'], by simp [h0]⟩
    | step _ hs ih =>
      obtain ⟨a, b⟩ := ih
      cases hs with
      | inv t op fuel h0 =>
        refine ⟨by simpa using a, fun u p hp => ?_⟩
        by_cases hu : u = t
        · subst hu
          simp only [Spec.upd, if_true] at hp
          cases hp
          exact hI _ _
        · simp only [Spec.upd, if_neg hu] at hp
          exact b u p hp
      | @act t β x k y m h0 hrun =>
        refine ⟨a, fun u p hp => ?_⟩
        by_cases hu : u = t
        · subst hu
          simp only [Spec.upd, if_true] at hp
          cases hp
          exact b u _ h0 y
        · simp only [Spec.upd, if_neg hu] at hp
          exact b u p hp
      | @crash t β x k h0 hrun =>
        refine ⟨a, fun u p hp => ?_⟩
        by_cases hu : u = t
        · subst hu
          simp only [Spec.upd, if_true] at hp
          cases hp
          trivial
        · simp only [Spec.upd, if_neg hu] at hp
          exact b u p hp
      | @res t out h0 =>
        refine ⟨fun u l hm => ?_, fun u p hp => ?_⟩
        · rcases List.mem_append.1 hm with hm | hm
          · exact a u l hm
          · simp only [List.mem_singleton, Ev.res.injEq] at hm
            exact b t _ h0 l hm.2.symm
        · by_cases hu : u = t
          · subst hu
            simp only [Spec.upd, if_true] at hp
            cases hp
          · simp only [Spec.upd, if_neg hu] at hp
            exact b u p hp
  exact key.1

end BT
