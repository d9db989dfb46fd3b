import Verif.SpecConc
import Mathlib.Tactic.Common

/-!
# Calls that take effect in the past

A call that changes nothing may see a page whose contents are no longer current.  Its instant is then an earlier one,
but still after its invocation.  `Past` is the atomic map with all its earlier contents, in which such a call may choose
any instant since its invocation; every history of `Past` is linearizable.
-/

set_option linter.unusedSectionVars false

namespace BT.Spec
variable {K V : Type} [LinearOrder K] {parts : Bool} {m0 : Map K V}

/-- Phase of a thread with the time of its invocation. -/
inductive PPhase (K V : Type) where
  | idle
  | waiting (op : Op K V) (t0 : Nat)
  | scanning (b e : ScanKey K) (acc : List (K × V))
  | done (out : Out K V)

def PPhase.forget : PPhase K V → Phase K V
  | idle => .idle
  | waiting op _ => .waiting op
  | scanning b e acc => .scanning b e acc
  | done out => .done out

/-- The map with its whole past: `maps i` are the contents at time `i ≤ now`. -/
structure PState (K V : Type) where
  now : Nat
  maps : Nat → Map K V
  ph : Nat → PPhase K V

/-- A scan goes on part by part at instants from `i` to `j`, none before an earlier one. -/
inductive Walk (maps : Nat → Map K V) (i : Nat) (x : Phase K V) : Nat → Phase K V → Prop
  | refl : Walk maps i x i x
  | step {j j' y z} : Walk maps i x j y → j ≤ j' → ScanStep (maps j') y z → Walk maps i x j' z

theorem Walk.le {maps : Nat → Map K V} {i j : Nat} {x y : Phase K V} (h : Walk maps i x j y) : i ≤ j := by
  induction h with
  | refl => exact Nat.le_refl _
  | step _ h _ ih => exact Nat.le_trans ih h

theorem Walk.congr {maps maps' : Nat → Map K V} {i j : Nat} {x y : Phase K V} (h : Walk maps i x j y)
    (hm : ∀ l, l ≤ j → maps' l = maps l) : Walk maps' i x j y := by
  induction h with
  | refl => exact .refl
  | step _ hle hs ih => exact .step (ih fun l hl => hm l (Nat.le_trans hl hle)) hle (by rw [hm _ (Nat.le_refl _)]; exact hs)

/-- Histories that begin with the contents `m0`. -/
inductive Past (parts : Bool) (m0 : Map K V) : PState K V → List (Ev K V) → Prop
  | init (m) : m 0 = m0 → Past parts m0 ⟨0, m, fun _ => .idle⟩ []
  | inv {s h} (t op) : Past parts m0 s h → s.ph t = .idle →
      Past parts m0 ⟨s.now, s.maps, upd s.ph t (.waiting op s.now)⟩ (h ++ [.inv t op])
  | effect {s h t op out t0 m} : Past parts m0 s h → s.ph t = .waiting op t0 → Step (s.maps s.now) op out m →
      Past parts m0 ⟨s.now + 1, upd s.maps (s.now + 1) m, upd s.ph t (.done out)⟩ h
  | pastSame {s h t op out t0 i} : Past parts m0 s h → s.ph t = .waiting op t0 → t0 ≤ i → i ≤ s.now → Step (s.maps i) op out (s.maps i) →
      Past parts m0 ⟨s.now, s.maps, upd s.ph t (.done out)⟩ h
  | pastScan {s h t op out t0 i} : parts = true → Past parts m0 s h → s.ph t = .waiting op t0 → i ≤ s.now →
      Walk s.maps t0 (.waiting op) i (.done out) → Past parts m0 ⟨s.now, s.maps, upd s.ph t (.done out)⟩ h
  | scan {s h t x} : parts = true → Past parts m0 s h → ScanStep (s.maps s.now) (s.ph t).forget x.forget → (∀ op t0, x ≠ .waiting op t0) →
      Past parts m0 ⟨s.now, s.maps, upd s.ph t x⟩ h
  | tick {s h} : Past parts m0 s h → Past parts m0 ⟨s.now + 1, upd s.maps (s.now + 1) (s.maps s.now), s.ph⟩ h
  | res {s h t out} : Past parts m0 s h → s.ph t = .done out →
      Past parts m0 ⟨s.now, s.maps, upd s.ph t .idle⟩ (h ++ [.res t out])

theorem upd_same.{u} {α : Type u} (f : Nat → α) (t : Nat) (x : α) : upd f t x t = x := by simp [upd]
theorem upd_ne.{u} {α : Type u} (f : Nat → α) {t u : Nat} (x : α) (h : u ≠ t) : upd f t x u = f u := by simp [upd, h]

theorem Past.pastRead {s : PState K V} {h : List (Ev K V)} {t : Nat} {k : K} {t0 i : Nat} (hp : Past parts m0 s h)
    (hw : s.ph t = .waiting (.read k) t0) (h1 : t0 ≤ i) (h2 : i ≤ s.now) :
    Past parts m0 ⟨s.now, s.maps, upd s.ph t (.done (.payload (s.maps i k)))⟩ h := Past.pastSame hp hw h1 h2 (Step.read k)

theorem AState.ext' {a b : AState K V} (h1 : a.map = b.map) (h2 : a.ph = b.ph) : a = b := by
  cases a; cases b; simp_all

/-- Steps of waiting calls that change nothing, the last one first: thread, instant and phase afterwards. -/
abbrev Choice (K V : Type) := List (Nat × Nat × Phase K V)

/-- The phases after the chosen steps. -/
def Choice.apply (s : PState K V) : Choice K V → Nat → Phase K V
  | [] => fun t => (s.ph t).forget
  | (t, _, x) :: c => upd (Choice.apply s c) t x

/-- A call that changes nothing takes effect, or a scan goes on. -/
def Move (parts : Bool) (m : Map K V) (x y : Phase K V) : Prop :=
  (∃ op out, x = .waiting op ∧ y = .done out ∧ Step m op out m) ∨ (parts = true ∧ ScanStep m x y)

/-- Every chosen thread waits and was invoked before its instants; the instants are in order; the steps are possible. -/
def Choice.Ok (parts : Bool) (s : PState K V) : Choice K V → Prop
  | [] => True
  | (t, i, x) :: c => Choice.Ok parts s c ∧ i ≤ s.now ∧ (∀ y ∈ c, y.2.1 ≤ i) ∧ (∃ op t0, s.ph t = .waiting op t0 ∧ t0 ≤ i) ∧
      Move parts (s.maps i) (Choice.apply s c t) x

theorem Choice.apply_notin (s : PState K V) {c : Choice K V} {t : Nat} (h : ∀ x ∈ c, x.1 ≠ t) :
    Choice.apply s c t = (s.ph t).forget := by
  induction c with
  | nil => rfl
  | cons x c ih =>
    obtain ⟨u, i, o⟩ := x
    rw [Choice.apply, upd_ne _ _ (by have := h (u, i, o) (by simp); exact fun e => this e.symm)]
    exact ih (fun x hx => h x (by simp [hx]))

/-- `apply` depends only on the phases. -/
theorem Choice.apply_congr {s s' : PState K V} {c : Choice K V} (t : Nat)
    (hq : (∀ x ∈ c, x.1 ≠ t) → (s.ph t).forget = (s'.ph t).forget) :
    Choice.apply s c t = Choice.apply s' c t := by
  induction c with
  | nil => exact hq (by simp)
  | cons x c ih =>
    obtain ⟨u, i, o⟩ := x
    simp only [Choice.apply]
    by_cases e : t = u
    · subst e
      rw [upd_same, upd_same]
    · rw [upd_ne _ _ e, upd_ne _ _ e]
      refine ih (fun h => hq ?_)
      intro x hx
      rcases List.mem_cons.1 hx with rfl | hx
      · exact fun e' => e e'.symm
      · exact h x hx

theorem Choice.Ok.waits {s : PState K V} {c : Choice K V} (h : Choice.Ok parts s c) {x} (hx : x ∈ c) :
    ∃ op t0, s.ph x.1 = .waiting op t0 ∧ t0 ≤ x.2.1 := by
  induction c with
  | nil => cases hx
  | cons y c ih =>
    obtain ⟨t, i, y⟩ := y
    rcases List.mem_cons.1 hx with rfl | hx
    · exact h.2.2.2.1
    · exact ih h.1 hx

/-- The same choice in another state. -/
theorem Choice.Ok.congr {s s' : PState K V} {c : Choice K V} (h : Choice.Ok parts s c)
    (hn : ∀ x ∈ c, x.2.1 ≤ s'.now) (hm : ∀ x ∈ c, s'.maps x.2.1 = s.maps x.2.1)
    (hp : ∀ x ∈ c, s'.ph x.1 = s.ph x.1) : Choice.Ok parts s' c := by
  induction c with
  | nil => trivial
  | cons y c ih =>
    obtain ⟨t, i, y⟩ := y
    obtain ⟨h1, h2, h3, h4, h5⟩ := h
    have e := hp (t, i, y) (by simp)
    refine ⟨ih h1 (fun x hx => hn x (by simp [hx])) (fun x hx => hm x (by simp [hx])) (fun x hx => hp x (by simp [hx])),
      hn (t, i, y) (by simp), h3, by rw [e]; exact h4, ?_⟩
    rw [hm (t, i, y) (by simp), Choice.apply_congr (s' := s) t (fun _ => by rw [e])]
    exact h5

/-- A chosen step at the current time. -/
theorem move_now {h : List (Ev K V)} {s0 : AState K V} {f : Nat → Phase K V} {t : Nat} {x : Phase K V} {m : Map K V}
    (h0 : Atomic parts s0 h ⟨m, f⟩) (hm : Move parts m (f t) x) : Atomic parts s0 h ⟨m, upd f t x⟩ := by
  rcases hm with ⟨op, out, e1, rfl, e2⟩ | ⟨hp, hs⟩
  · exact Atomic.effect h0 e1 e2
  · exact Atomic.scan hp h0 hs

/-- One more step, after all those that are not later. -/
def Choice.ins (t i : Nat) (x : Phase K V) : Choice K V → Choice K V
  | [] => [(t, i, x)]
  | y :: c => if y.2.1 ≤ i then (t, i, x) :: y :: c else y :: Choice.ins t i x c

theorem Choice.mem_ins {t i : Nat} {x : Phase K V} {c : Choice K V} {y} : y ∈ Choice.ins t i x c ↔ y = (t, i, x) ∨ y ∈ c := by
  induction c with
  | nil => simp [Choice.ins]
  | cons z c ih =>
    unfold Choice.ins
    split
    · simp
    · rw [List.mem_cons, ih, List.mem_cons]; tauto

/-- The step of a thread whose other steps are not later. -/
theorem Choice.Ok.ins {s : PState K V} {t i t0 : Nat} {op : Op K V} {x : Phase K V} {c : Choice K V} (h : Choice.Ok parts s c)
    (hi : i ≤ s.now) (hw : s.ph t = .waiting op t0) (h0 : t0 ≤ i) (hc : ∀ y ∈ c, y.1 = t → y.2.1 ≤ i)
    (hm : Move parts (s.maps i) (Choice.apply s c t) x) :
    Choice.Ok parts s (Choice.ins t i x c) ∧ Choice.apply s (Choice.ins t i x c) = upd (Choice.apply s c) t x := by
  induction c with
  | nil => exact ⟨⟨trivial, hi, by simp, ⟨op, t0, hw, h0⟩, hm⟩, rfl⟩
  | cons y c ih =>
    obtain ⟨u, j, y⟩ := y
    unfold Choice.ins
    split
    · next hj =>
      refine ⟨⟨h, hi, ?_, ⟨op, t0, hw, h0⟩, hm⟩, rfl⟩
      intro z hz
      rcases List.mem_cons.1 hz with rfl | hz
      · exact hj
      · exact Nat.le_trans (h.2.2.1 z hz) hj
    · next hj =>
      obtain ⟨h1, h2, h3, h4, h5⟩ := h
      have hu : u ≠ t := fun e => hj (hc (u, j, y) (by simp) e)
      obtain ⟨a, b⟩ := ih h1 (fun z hz => hc z (by simp [hz])) (by rw [Choice.apply, upd_ne _ _ (Ne.symm hu)] at hm; exact hm)
      refine ⟨⟨a, h2, ?_, h4, ?_⟩, ?_⟩
      · intro z hz
        rcases Choice.mem_ins.1 hz with rfl | hz
        · exact Nat.le_of_lt (Nat.lt_of_not_le hj)
        · exact h3 z hz
      · rw [b, upd_ne _ _ hu]; exact h5
      · simp only [Choice.apply]
        rw [b]
        funext z
        by_cases h1 : z = t <;> by_cases h2 : z = u <;> simp_all [upd]

/-- A scan with all its parts. -/
theorem Choice.Ok.walk {s : PState K V} {t j t0 : Nat} {op : Op K V} {x : Phase K V} {c : Choice K V} (hparts : parts = true)
    (h : Choice.Ok parts s c) (hw : s.ph t = .waiting op t0) (hc : ∀ y ∈ c, y.1 ≠ t) (hj : j ≤ s.now)
    (hwalk : Walk s.maps t0 (.waiting op) j x) :
    ∃ c', Choice.Ok parts s c' ∧ Choice.apply s c' = upd (Choice.apply s c) t x ∧ ∀ y ∈ c', y.1 = t → y.2.1 ≤ j := by
  induction hwalk with
  | refl =>
    refine ⟨c, h, ?_, fun y hy e => absurd e (hc y hy)⟩
    funext u
    by_cases hu : u = t
    · subst hu
      rw [upd_same, Choice.apply_notin s hc, hw]; rfl
    · rw [upd_ne _ _ hu]
  | @step j j' y z hwk hle hs ih =>
    obtain ⟨c', a1, a2, a3⟩ := ih (Nat.le_trans hle hj)
    obtain ⟨b1, b2⟩ := a1.ins (x := z) hj hw (Nat.le_trans hwk.le hle) (fun y hy e => Nat.le_trans (a3 y hy e) hle)
      (Or.inr ⟨hparts, by rw [a2, upd_same]; exact hs⟩)
    refine ⟨_, b1, ?_, ?_⟩
    · rw [b2, a2]
      funext u
      by_cases hu : u = t <;> simp [upd, hu]
    · intro y hy e
      rcases Choice.mem_ins.1 hy with rfl | hy
      · exact Nat.le_refl _
      · exact Nat.le_trans (a3 y hy e) hle

theorem Past.atomic {s : PState K V} {h : List (Ev K V)} (hp : Past parts m0 s h) :
    ∀ c : Choice K V, Choice.Ok parts s c → Atomic parts ⟨m0, fun _ => .idle⟩ h ⟨s.maps s.now, Choice.apply s c⟩ := by
  -- choosing an instant in a state whose clock advanced by one
  have adv : ∀ {s s' : PState K V} {h : List (Ev K V)}, s'.now = s.now + 1 →
      (∀ i, i ≤ s.now → s'.maps i = s.maps i) →
      (∀ c : Choice K V, Choice.Ok parts s c → (∀ x ∈ c, ∃ op t0, s'.ph x.1 = .waiting op t0) →
        Atomic parts ⟨m0, fun _ => .idle⟩ h ⟨s'.maps s'.now, Choice.apply s' c⟩) →
      (∀ t op t0, s'.ph t = .waiting op t0 → s.ph t = .waiting op t0) →
      ∀ c : Choice K V, Choice.Ok parts s' c → Atomic parts ⟨m0, fun _ => .idle⟩ h ⟨s'.maps s'.now, Choice.apply s' c⟩ := by
    intro s s' h hnow hmaps hold hph c hc
    have hwait : ∀ {c : Choice K V}, Choice.Ok parts s' c → ∀ x ∈ c, ∃ op t0, s'.ph x.1 = .waiting op t0 := by
      intro c hc x hx
      obtain ⟨op, t0, e, -⟩ := hc.waits hx
      exact ⟨op, t0, e⟩
    induction c with
    | nil => exact hold [] trivial (by simp)
    | cons x c ih =>
      obtain ⟨t, i, x⟩ := x
      by_cases hi : i = s'.now
      · subst hi
        exact move_now (ih hc.1) hc.2.2.2.2
      · have hle : ∀ y ∈ (t, i, x) :: c, y.2.1 ≤ s.now := by
          have h1 := hc.2.1
          intro y hy
          rcases List.mem_cons.1 hy with rfl | hy
          · show i ≤ _
            omega
          · have := hc.2.2.1 y hy
            omega
        refine hold _ (hc.congr hle (fun y hy => (hmaps _ (hle y hy)).symm) (fun y hy => ?_)) (hwait hc)
        obtain ⟨op, t0, e⟩ := hwait hc y hy
        rw [e, hph _ _ _ e]
  -- no chosen thread is in another phase
  have notin : ∀ {s : PState K V} {c : Choice K V} {t : Nat}, Choice.Ok parts s c → (∀ op t0, s.ph t ≠ .waiting op t0) →
      ∀ x ∈ c, x.1 ≠ t := by
    intro s c t hc hn x hx e
    obtain ⟨op, t0, e', -⟩ := hc.waits hx
    rw [e] at e'
    exact hn _ _ e'
  -- changing the phase of a thread that is not chosen
  have other : ∀ {s : PState K V} {c : Choice K V} {t : Nat} (x : PPhase K V), (∀ y ∈ c, y.1 ≠ t) →
      Choice.Ok parts ⟨s.now, s.maps, upd s.ph t x⟩ c → Choice.Ok parts s c ∧
        upd (Choice.apply s c) t x.forget = Choice.apply ⟨s.now, s.maps, upd s.ph t x⟩ c := by
    intro s c t x hnt hc
    refine ⟨hc.congr (fun y hy => ?_) (fun _ _ => rfl) (fun y hy => by simp only [upd_ne _ _ (hnt y hy)]), ?_⟩
    · clear hnt
      induction c with
      | nil => cases hy
      | cons z c ih =>
        rcases List.mem_cons.1 hy with rfl | hy
        · exact hc.2.1
        · exact ih hc.1 hy
    · funext u
      by_cases hu : u = t
      · subst hu
        rw [upd_same, Choice.apply_notin _ hnt]
        simp only [upd_same]
      · rw [upd_ne _ _ hu]
        refine Choice.apply_congr u (fun _ => ?_)
        simp only [upd_ne _ _ hu]
  induction hp with
  | init m hm =>
    intro c hc
    cases c with
    | nil =>
      have : (⟨m 0, Choice.apply ⟨0, m, fun _ => .idle⟩ []⟩ : AState K V) = ⟨m0, fun _ => .idle⟩ :=
        AState.ext' hm rfl
      simp only [this]
      exact Atomic.refl _
    | cons x c =>
      obtain ⟨k, t0, e, -⟩ := hc.waits (x := x) (by simp)
      cases e
  | @inv s h t op _ hidle ih =>
    intro c hc
    by_cases hnt : ∀ y ∈ c, y.1 ≠ t
    · obtain ⟨a, b⟩ := other _ hnt hc
      have h1 := Atomic.inv t op (ih c a) (by
        show Choice.apply s c t = _
        rw [Choice.apply_notin s hnt, hidle]; rfl)
      rw [← b]
      exact h1
    · induction c with
      | nil => exact absurd (by simp) hnt
      | cons x c ihc =>
        obtain ⟨u, i, x⟩ := x
        have hi : i = s.now := by
          have h1 := hc.2.1
          simp only at h1
          by_contra hne
          refine hnt fun y hy e => ?_
          obtain ⟨op', t0, e', hle⟩ := hc.waits hy
          rw [e] at e'
          simp only [upd_same] at e'
          cases e'
          rcases List.mem_cons.1 hy with rfl | hy
          · simp only at hle; omega
          · have := hc.2.2.1 y hy
            omega
        subst hi
        refine move_now ?_ hc.2.2.2.2
        by_cases hn : ∀ y ∈ c, y.1 ≠ t
        · obtain ⟨a, b⟩ := other _ hn hc.1
          have h1 := Atomic.inv t op (ih c a) (by
            show Choice.apply s c t = _
            rw [Choice.apply_notin s hn, hidle]; rfl)
          rw [← b]
          exact h1
        · exact ihc hc.1 hn
  | @effect s h t op out t0 m _ hw hst ih =>
    refine adv (s := s) rfl (fun i hi => upd_ne _ _ (by omega)) ?_ ?_
    · intro c hc hread
      have hnt : ∀ x ∈ c, x.1 ≠ t := by
        intro x hx e
        obtain ⟨k, t1, e'⟩ := hread x hx
        simp [e, upd_same] at e'
      have ht : Choice.apply s c t = .waiting op := by rw [Choice.apply_notin s hnt, hw]; rfl
      have h1 := Atomic.effect (ih c hc) ht hst
      have e1 : upd (Choice.apply s c) t (.done out) =
          Choice.apply ⟨s.now + 1, upd s.maps (s.now + 1) m, upd s.ph t (.done out)⟩ c := by
        funext u
        by_cases hu : u = t
        · subst hu
          rw [upd_same, Choice.apply_notin _ hnt]
          simp [upd_same, PPhase.forget]
        · rw [upd_ne _ _ hu]
          refine Choice.apply_congr u (fun _ => ?_)
          simp only [upd_ne _ _ hu]
      simp only [upd_same]
      rw [← e1]
      exact h1
    · intro u k t1 e
      by_cases hu : u = t
      · simp [hu, upd_same] at e
      · simpa only [upd_ne _ _ hu] using e
  | @pastSame s h t op out t0 i _ hw h1 h2 hst ih =>
    intro c hc
    have hnt := notin (t := t) hc (by simp [upd_same])
    obtain ⟨a, b⟩ := other _ hnt hc
    obtain ⟨a', b'⟩ := a.ins (x := .done out) h2 hw h1 (fun y hy e => absurd e (hnt y hy))
      (Or.inl ⟨op, out, by rw [Choice.apply_notin s hnt, hw]; rfl, rfl, hst⟩)
    have h3 := ih _ a'
    rw [b'] at h3
    rw [← b]
    exact h3
  | @pastScan s h t op out t0 i hparts _ hw h2 hwalk ih =>
    intro c hc
    have hnt := notin (t := t) hc (by simp [upd_same])
    obtain ⟨a, b⟩ := other _ hnt hc
    obtain ⟨c', a', b', -⟩ := a.walk hparts hw hnt h2 hwalk
    have h3 := ih _ a'
    rw [b'] at h3
    rw [← b]
    exact h3
  | @tick s h _ ih =>
    refine adv (s := s) rfl (fun i hi => upd_ne _ _ (by omega)) ?_ ?_
    · intro c hc hread
      have e1 : Choice.apply s c = Choice.apply ⟨s.now + 1, upd s.maps (s.now + 1) (s.maps s.now), s.ph⟩ c := by
        funext u
        exact Choice.apply_congr u (fun _ => rfl)
      simp only [upd_same]
      rw [← e1]
      exact ih c hc
    · intro u k t1 e
      exact e
  | @scan s h t x hparts _ hst hx ih =>
    intro c hc
    have hnt := notin (t := t) hc (by simpa [upd_same] using hx)
    obtain ⟨a, b⟩ := other _ hnt hc
    have ht : Choice.apply s c t = (s.ph t).forget := Choice.apply_notin s hnt
    rw [← b]
    exact Atomic.scan (t := t) (x := x.forget) hparts (ih c a) (by show ScanStep _ (Choice.apply s c t) _; rw [ht]; exact hst)
  | @res s h t out _ hd ih =>
    intro c hc
    have hnt := notin (t := t) hc (by simp [upd_same])
    obtain ⟨a, b⟩ := other _ hnt hc
    have ht : Choice.apply s c t = .done out := by rw [Choice.apply_notin s hnt, hd]; rfl
    rw [← b]
    exact Atomic.res (ih c a) ht

/-- Histories of the map with a past are linearizable. -/
theorem Past.linearizable {s : PState K V} {h : List (Ev K V)} (hp : Past false m0 s h) : LinearizableFrom m0 h :=
  ⟨_, hp.atomic [] trivial⟩

theorem Past.partwise {s : PState K V} {h : List (Ev K V)} (hp : Past true m0 s h) : PartwiseLinearizableFrom m0 h :=
  ⟨_, hp.atomic [] trivial⟩

end BT.Spec
