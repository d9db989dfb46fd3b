import Verif.ConcLogic
import Verif.PmlConc

/-!
# The logic of `ConcLogic.lean` with facts about waiting and released pages

`LLg` adds to `Lg` what holds whenever a thread has to wait (`Wait`), and what must be the case when a noted situation occurs (`Race`).
Correct code, in the sense of `LLg.wp`, does not use a page after its release.
-/

set_option linter.unusedSectionVars false

namespace BT
open Spec
variable {K V : Type} [LinearOrder K]

structure LLg (K V : Type) [LinearOrder K] extends Lg K V where
  /-- thread `t` waits for its action -/
  Wait : Tid → W → {β : Type} → Act K V β → Prop
  /-- the action of thread `t` leads to a noted situation -/
  Race : Tid → W → {β : Type} → Act K V β → Prop

namespace LLg
variable (L : LLg K V)

/-- Weakest precondition of code of thread `t`. -/
def wp (t : Tid) {α : Type} : Prog K V α → (α → L.W → Prop) → L.W → Prop
  | .ret a, Q, w => Q a w
  | .ub, _, _ => False
  | .stuck, _, _ => True
  | .act a k, Q, w => ∀ w1, L.Rely t w w1 → L.Inv w1 →
      a.run t (L.mem w1) ≠ .ub ∧ (∀ p, a.page = some p → p ∉ (L.mem w1).gc) ∧
      (a.run t (L.mem w1) = .wait → L.Wait t w1 a) ∧ ∀ b m, a.run t (L.mem w1) = .run (b, m) →
        (m.raced = true ∧ L.Race t w1 a) ∨ ∃ w2, L.mem w2 = m ∧ L.Ok t w1 w2 ∧ wp t (k b) Q w2

variable {L} {t : Tid} {α β : Type} {m0 : Map K V}

theorem wp_bind {p : Prog K V α} {f : α → Prog K V β} {Q : β → L.W → Prop} {w : L.W}
    (h : L.wp t p (fun a w => L.wp t (f a) Q w) w) : L.wp t (p >>= f) Q w := by
  show L.wp t (Prog.bind p f) Q w
  induction p generalizing w with
  | ret a => exact h
  | ub => exact h.elim
  | stuck => trivial
  | act a k ih =>
    intro w1 hr hi
    obtain ⟨h1, h1', h1'', h2⟩ := h w1 hr hi
    refine ⟨h1, h1', h1'', fun b m e => ?_⟩
    rcases h2 b m e with h3 | ⟨w2, h3, h4, h5⟩
    · exact Or.inl h3
    · exact Or.inr ⟨w2, h3, h4, ih b h5⟩

theorem wp_mono {p : Prog K V α} {Q Q' : α → L.W → Prop} {w : L.W} (h : L.wp t p Q w) (hq : ∀ a w, Q a w → Q' a w) :
    L.wp t p Q' w := by
  induction p generalizing w with
  | ret a => exact hq _ _ h
  | ub => exact h.elim
  | stuck => trivial
  | act a k ih =>
    intro w1 hr hi
    obtain ⟨h1, h1', h1'', h2⟩ := h w1 hr hi
    refine ⟨h1, h1', h1'', fun b m e => ?_⟩
    rcases h2 b m e with h3 | ⟨w2, h3, h4, h5⟩
    · exact Or.inl h3
    · exact Or.inr ⟨w2, h3, h4, ih b h5⟩

theorem wp_lift {r : Res α} {f : α → Prog K V β} {Q : β → L.W → Prop} {w : L.W} {a : α} (h : r = .ok a)
    (h' : L.wp t (f a) Q w) : L.wp t (Prog.lift r >>= f) Q w := by subst h; exact h'

/-- Configurations and worlds. -/
structure Sim (L : LLg K V) (m0 : Map K V) (c : Conf K V) (w : L.W) : Prop where
  mem : L.mem w = c.mem
  inv : L.Inv w
  past : Past L.parts m0 (L.ps w) c.hist
  idle : ∀ t, c.thr t = none → (L.ps w).ph t = .idle ∧ L.Idle t w
  busy : ∀ t p, c.thr t = some p → ∃ w0, L.Rely t w0 w ∧
    L.wp t p (fun out w => (L.ps w).ph t = .done out ∧ L.Idle t w) w0

/-- The code of every call is correct. -/
def Impl (L : LLg K V) (I : CImpl K V) : Prop :=
  ∀ t fuel op w, L.Inv w → L.Idle t w → (L.ps w).ph t = .waiting op (L.ps w).now →
    L.wp t (I fuel op) (fun out w => (L.ps w).ph t = .done out ∧ L.Idle t w) w

theorem sim_step {I : CImpl K V} (hI : L.Impl I) {c c' : Conf K V} {w : L.W} (h : L.Sim m0 c w) (hs : Conf.Step I c c') :
    (c'.mem.raced = true ∧ ∃ (t : Tid) (β : Type) (a : Act K V β) (k : β → Prog K V (Out K V)),
      c.thr t = some (.act a k) ∧ L.Race t w a) ∨ ∃ w', L.Sim m0 c' w' := by
  obtain ⟨e, hi, hp, ht1, ht2⟩ := h
  cases hs with
  | inv t op fuel h0 =>
    obtain ⟨hid, hidle⟩ := ht1 t h0
    have hps := L.ps_setPh w t (.waiting op (L.ps w).now)
    refine Or.inr ⟨L.setPh w t (.waiting op (L.ps w).now), (L.mem_setPh _ _ _).trans e, L.inv_setPh _ _ hi, ?_, ?_, ?_⟩
    · rw [hps]
      exact Past.inv t op hp hid
    · intro u
      by_cases hu : u = t
      · subst hu
        simp only [Spec.upd, if_true]
        exact fun h => (by cases h)
      · simp only [Spec.upd, if_neg hu]
        intro hn
        obtain ⟨h1, h2⟩ := ht1 u hn
        exact ⟨by simp only [hps, Spec.upd, if_neg hu]; exact h1, L.idle_setPh _ _ h2⟩
    · intro u p
      by_cases hu : u = t
      · subst hu
        simp only [Spec.upd, if_true]
        intro hp'
        cases hp'
        refine ⟨_, L.rely_refl _ _, hI _ _ _ _ (L.inv_setPh _ _ hi) (L.idle_setPh _ _ hidle) ?_⟩
        simp only [hps, Spec.upd, if_true]
      · simp only [Spec.upd, if_neg hu]
        intro hp'
        obtain ⟨w0, h1, h2⟩ := ht2 u p hp'
        exact ⟨w0, L.rely_trans h1 (L.rely_setPh _ _ _ _ hu), h2⟩
  | @act t β a k b m h0 hrun =>
    obtain ⟨w0, h1, h2⟩ := ht2 t _ h0
    obtain ⟨-, -, -, h3⟩ := h2 w h1 hi
    rcases h3 b m (by rw [e]; exact hrun) with h4 | ⟨w2, h4, h5, h6⟩
    · exact Or.inl ⟨h4.1, t, β, a, k, h0, h4.2⟩
    · refine Or.inr ⟨w2, h4, h5.inv, h5.past _ hp, ?_, ?_⟩
      · intro u
        by_cases hu : u = t
        · subst hu
          simp only [Spec.upd, if_true]
          exact fun h => (by cases h)
        · simp only [Spec.upd, if_neg hu]
          intro hn
          obtain ⟨h7, h8⟩ := ht1 u hn
          exact ⟨(L.rely_ph (h5.guar u hu)).trans h7, L.idle_stable (h5.guar u hu) h8⟩
      · intro u p
        by_cases hu : u = t
        · subst hu
          simp only [Spec.upd, if_true]
          intro hp'
          cases hp'
          exact ⟨w2, L.rely_refl _ _, h6⟩
        · simp only [Spec.upd, if_neg hu]
          intro hp'
          obtain ⟨w3, h7, h8⟩ := ht2 u p hp'
          exact ⟨w3, L.rely_trans h7 (h5.guar u hu), h8⟩
  | @crash t β a k h0 hrun =>
    obtain ⟨w0, h1, h2⟩ := ht2 t _ h0
    obtain ⟨h3, -⟩ := h2 w h1 hi
    exact absurd (by rw [e]; exact hrun) h3
  | @res t out h0 =>
    obtain ⟨w0, h1, h2, h2'⟩ := ht2 t _ h0
    have hd := (L.rely_ph h1).trans h2
    have hps := L.ps_setPh w t .idle
    refine Or.inr ⟨L.setPh w t .idle, (L.mem_setPh _ _ _).trans e, L.inv_setPh _ _ hi, ?_, ?_, ?_⟩
    · rw [hps]
      exact Past.res hp hd
    · intro u
      by_cases hu : u = t
      · subst hu
        simp only [Spec.upd, if_true]
        exact fun _ => ⟨by simp only [hps, Spec.upd, if_true], L.idle_setPh _ _ (L.idle_stable h1 h2')⟩
      · simp only [Spec.upd, if_neg hu]
        intro hn
        obtain ⟨h1, h2⟩ := ht1 u hn
        exact ⟨by simp only [hps, Spec.upd, if_neg hu]; exact h1, L.idle_setPh _ _ h2⟩
    · intro u p
      by_cases hu : u = t
      · subst hu
        simp only [Spec.upd, if_true]
        intro hp'
        cases hp'
      · simp only [Spec.upd, if_neg hu]
        intro hp'
        obtain ⟨w0, h1, h2⟩ := ht2 u p hp'
        exact ⟨w0, L.rely_trans h1 (L.rely_setPh _ _ _ _ hu), h2⟩

/-- Noted situations are never forgotten. -/
theorem step_raced {I : CImpl K V} {c c' : Conf K V} (hs : Conf.Step I c c') (h : c.mem.raced = true) : c'.mem.raced = true := by
  cases hs with
  | inv => exact h
  | act _ hrun => exact Lg.raced_mono hrun h
  | crash => exact h
  | res => exact h

theorem adequate {I : CImpl K V} (hI : L.Impl I) {c0 : Conf K V} {w : L.W} (h0 : L.Sim m0 c0 w)
    {c : Conf K V} (hc : Conf.Reach I c0 c) (hn : c.mem.raced = false) : ∃ w, L.Sim m0 c w := by
  induction hc with
  | refl => exact ⟨_, h0⟩
  | @step c1 c2 h1 h2 ih =>
    cases hr : c1.mem.raced with
    | true => rw [step_raced h2 hr] at hn; cases hn
    | false =>
      obtain ⟨w, hw⟩ := ih hr
      rcases sim_step hI hw h2 with ⟨h, -⟩ | h
      · rw [h] at hn; cases hn
      · exact h

namespace Sim
variable {c : Conf K V} {w : L.W}

theorem not_bad (h : L.Sim m0 c w) : ¬ c.Bad := by
  rintro ⟨t, ht⟩
  obtain ⟨w0, -, h2⟩ := h.busy t _ ht
  exact h2

/-- Whoever has returned holds nothing. -/
theorem idle_ret (h : L.Sim m0 c w) {out : Out K V} (ht : c.thr t = some (.ret out)) : L.Idle t w := by
  obtain ⟨w0, h1, h2⟩ := h.busy t _ ht
  exact L.idle_stable h1 h2.2

/-- No thread is about to use a released page. -/
theorem no_touch (h : L.Sim m0 c w) {p : Ptr} (ht : c.Touches t p) : p ∉ c.mem.gc := by
  obtain ⟨β, a, k, h1, h2⟩ := ht
  obtain ⟨w0, h3, h4⟩ := h.busy t _ h1
  obtain ⟨-, h5, -⟩ := h4 w h3 h.inv
  rw [← h.mem]
  exact h5 p h2

theorem wait (h : L.Sim m0 c w) {a : Act K V β} {k : β → Prog K V (Out K V)} (ht : c.thr t = some (.act a k))
    (hw : a.run t c.mem = .wait) : L.Wait t w a := by
  obtain ⟨w0, h3, h4⟩ := h.busy t _ ht
  obtain ⟨-, -, h5, -⟩ := h4 w h3 h.inv
  rw [h.mem] at h5
  exact h5 hw

end Sim
end LLg
end BT
