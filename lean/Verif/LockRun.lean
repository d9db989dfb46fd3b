import Verif.LockVis

/-!
# Executions: locks belong to running calls, and nobody waits in a circle
-/

set_option linter.unusedSectionVars false

namespace BT
open Spec
variable {K V : Type} [LinearOrder K] {P : Lp K V}

/-- Actions that take no lock and change no page. -/
def Act.lockfree : {β : Type} → Act K V β → Prop
  | _, .getRoot | _, .isInner _ | _, .peek _ | _, .getVer _ | _, .same _ _ | _, .note _ => True
  | _, _ => False

/-- Code that takes no lock and changes no page. -/
def Prog.Lockfree {α : Type} : Prog K V α → Prop
  | .ret _ | .ub | .stuck => True
  | .act a k => a.lockfree ∧ ∀ b, (k b).Lockfree

namespace Prog.Lockfree
variable {α β : Type} {c : Prog K V α} {f : α → Prog K V β}

theorem bind (h : c.Lockfree) (hf : ∀ a, (f a).Lockfree) : (c >>= f).Lockfree := by
  induction c with
  | ret a => exact hf a
  | act a k ih => exact ⟨h.1, fun b => ih b (h.2 b)⟩
  | ub => trivial
  | stuck => trivial

theorem lift (r : Res α) : (Prog.lift r : Prog K V α).Lockfree := by
  cases r <;> trivial

theorem ite {p : Prop} [Decidable p] {c c' : Prog K V α} (h : c.Lockfree) (h' : c'.Lockfree) : (if p then c else c').Lockfree := by
  split
  · exact h
  · exact h'
end Prog.Lockfree

/-- The knowledge has grown, the locks are the same. -/
structure Vis.Le (σ τ : Vis K V) : Prop where
  L : τ.L = σ.L
  H : τ.H = σ.H
  vs : ∀ p v, σ.vs p v → τ.vs p v
  pk : ∀ p v n, σ.pk p v n → τ.pk p v n

theorem Vis.Le.refl (σ : Vis K V) : σ.Le σ := ⟨rfl, rfl, fun _ _ h => h, fun _ _ _ h => h⟩
theorem Vis.Le.trans {σ τ υ : Vis K V} (h : σ.Le τ) (h' : τ.Le υ) : σ.Le υ :=
  ⟨h'.L.trans h.L, h'.H.trans h.H, fun p v g => h'.vs p v (h.vs p v g), fun p v n g => h'.pk p v n (h.pk p v n g)⟩

theorem Vis.saw_le (σ : Vis K V) (p : Ptr) (n : Node K V) : σ.Le (σ.saw P p n) := by
  unfold Vis.saw
  split
  · exact ⟨rfl, rfl, fun _ _ h => h, fun _ _ _ h => Or.inl h⟩
  · exact .refl σ

theorem Vis.ver_le (σ : Vis K V) (p : Ptr) (v : Nat) : σ.Le (σ.ver p v) := ⟨rfl, rfl, fun _ _ h => Or.inl h, fun _ _ _ h => h⟩

theorem Act.vwp_lockfree {β : Type} {a : Act K V β} {σ : Vis K V} {Q : β → Vis K V → Prop} (ha : a.lockfree) (h : a.vwp P σ Q) :
    a.vwp P σ (fun b σ' => Q b σ' ∧ σ.Le σ') := by
  cases a <;> try exact ha.elim
  case getRoot => exact fun p => ⟨h p, .refl σ⟩
  case isInner p => exact fun p => ⟨h p, .refl σ⟩
  case peek p => exact fun n hn => ⟨h n hn, σ.saw_le p n⟩
  case getVer p => exact ⟨h.1, fun v => ⟨h.2 v, σ.ver_le p v⟩⟩
  case same p v => exact fun b => ⟨h b, .refl σ⟩
  case note b => exact ⟨h, .refl σ⟩

theorem Prog.vwp_lockfree {α : Type} {c : Prog K V α} {σ : Vis K V} {Q : α → Vis K V → Prop} (hc : c.Lockfree) (hd : σ.Ask P)
    (h : ∀ a σ', σ.Le σ' → Q a σ') : c.vwp P σ Q := by
  induction c generalizing σ with
  | ret a => exact h a σ (.refl σ)
  | act a k ih =>
    obtain ⟨h1, h2⟩ := hc
    have key : ∀ b σ', σ.Le σ' → (k b).vwp P σ' Q := by
      intro b σ' hle
      refine ih b (h2 b) ⟨fun hd' p => ?_, fun hu p => ?_, fun hz p => ?_⟩ (fun a σ'' h' => h a σ'' (hle.trans h'))
      · rw [hle.L]; exact hd.1 hd' p
      · rw [hle.L]; exact hd.2.1 hu p
      · rw [hle.L]; exact hd.2.2 hz p
    cases a <;> try exact h1.elim
    case getRoot => exact fun p => key p _ (.refl σ)
    case isInner p => exact fun b => key b _ (.refl σ)
    case peek p => exact fun n hn => key n _ (σ.saw_le p n)
    case getVer p => exact ⟨hd, fun v => key v _ (σ.ver_le p v)⟩
    case same p v => exact fun b => key b _ (.refl σ)
    case note b => exact key _ _ (.refl σ)
  | ub => trivial
  | stuck => trivial

/-- What holds in every configuration: every thread knows its locks, threads between two calls hold none, and calls of the kind `ro` hold
none. -/
structure VInv (P : Lp K V) (ro : Op K V → Prop) (c : Conf K V) : Prop where
  wf : MWf P c.mem
  thr : ∀ t, ∃ σ : Vis K V, σ.Sim P t c.mem ∧ (c.thr t = none → σ.Free) ∧
    ∀ p, c.thr t = some p → p.vwp P σ (fun _ σ' => σ'.Free) ∧ ∃ op, Pending c.hist t op ∧ (ro op → p.Lockfree ∧ σ.Free)

theorem pending_inv {h : List (Ev K V)} {t : Nat} {op : Op K V} : Pending (h ++ [.inv t op]) t op := ⟨h, [], by simp, by simp⟩

variable {I : CImpl K V} {ro adm : Op K V → Prop} {c c' : Conf K V}

theorem VInv.step (hI : ∀ fuel op, adm op → ∀ σ : Vis K V, σ.Free → (I fuel op).vwp P σ (fun _ σ' => σ'.Free))
    (hro : ∀ fuel op, ro op → (I fuel op).Lockfree) (hv : VInv P ro c) (hst : Conf.Step I c c')
    (ha : ∀ t op, .inv t op ∈ c'.hist → adm op) : VInv P ro c' := by
  cases hst with
  | inv t op fuel hn =>
    refine ⟨hv.wf, fun u => ?_⟩
    obtain ⟨σ, h1, h2, h3⟩ := hv.thr u
    refine ⟨σ, h1, ?_, ?_⟩
    · intro h
      simp only [Spec.upd] at h
      split at h
      · cases h
      · exact h2 h
    · intro p h
      simp only [Spec.upd] at h
      split at h
      · next e =>
        subst e
        cases h
        have hf := h2 hn
        exact ⟨hI fuel op (ha u op (by simp)) σ hf, op, pending_inv, fun hr => ⟨hro fuel op hr, hf⟩⟩
      · next e =>
        obtain ⟨g1, op', g2, g3⟩ := h3 p h
        exact ⟨g1, op', g2.snoc (fun out h => by cases h), g3⟩
  | @act t β a k b m hk hrun =>
    obtain ⟨σ, h1, h2, h3⟩ := hv.thr t
    obtain ⟨g1, op, g2, g3⟩ := h3 _ hk
    have hw : a.vwp P σ (fun b σ' => (k b).vwp P σ' (fun _ σ' => σ'.Free) ∧ (a.lockfree → σ.Le σ')) := by
      by_cases hl : a.lockfree
      · exact Act.vwp_mono (Act.vwp_lockfree hl g1) (fun b σ' h => ⟨h.1, fun _ => h.2⟩)
      · exact Act.vwp_mono g1 (fun b σ' h => ⟨h, fun h => absurd h hl⟩)
    obtain ⟨⟨σ', k1, k2⟩, k3, k4⟩ := Act.vwp_run hw h1 hv.wf hrun
    refine ⟨k3, fun u => ?_⟩
    by_cases hu : u = t
    · subst hu
      refine ⟨σ', k2, fun h => by simp [Spec.upd] at h, fun p h => ?_⟩
      simp only [Spec.upd, if_pos] at h
      cases h
      refine ⟨k1.1, op, g2, fun hr => ?_⟩
      obtain ⟨l1, l2⟩ := g3 hr
      refine ⟨l1.2 b, fun p => ?_⟩
      rw [(k1.2 l1.1).L]
      exact l2 p
    · obtain ⟨τ, f1, f2, f3⟩ := hv.thr u
      refine ⟨τ, k4 u τ hu f1, fun h => f2 ?_, fun p h => f3 p ?_⟩
      · simpa [Spec.upd, hu] using h
      · simpa [Spec.upd, hu] using h
  | @crash t β a k hk hrun =>
    refine ⟨hv.wf, fun u => ?_⟩
    obtain ⟨σ, h1, h2, h3⟩ := hv.thr u
    by_cases hu : u = t
    · subst hu
      obtain ⟨g1, op, g2, g3⟩ := h3 _ hk
      refine ⟨σ, h1, fun h => by simp [Spec.upd] at h, fun p h => ?_⟩
      simp only [Spec.upd, if_pos] at h
      cases h
      exact ⟨trivial, op, g2, fun hr => ⟨trivial, (g3 hr).2⟩⟩
    · refine ⟨σ, h1, fun h => h2 ?_, fun p h => h3 p ?_⟩
      · simpa [Spec.upd, hu] using h
      · simpa [Spec.upd, hu] using h
  | @res t out hk =>
    refine ⟨hv.wf, fun u => ?_⟩
    obtain ⟨σ, h1, h2, h3⟩ := hv.thr u
    by_cases hu : u = t
    · subst hu
      obtain ⟨g1, -⟩ := h3 _ hk
      exact ⟨σ, h1, fun _ => g1, fun p h => by simp [Spec.upd] at h⟩
    · refine ⟨σ, h1, fun h => h2 ?_, fun p h => ?_⟩
      · simpa [Spec.upd, hu] using h
      · obtain ⟨g1, op, g2, g3⟩ := h3 p (by simpa [Spec.upd, hu] using h)
        exact ⟨g1, op, g2.snoc (fun out h => by cases h; exact hu rfl), g3⟩

theorem VInv.reach {c0 : Conf K V} (hI : ∀ fuel op, adm op → ∀ σ : Vis K V, σ.Free → (I fuel op).vwp P σ (fun _ σ' => σ'.Free))
    (hro : ∀ fuel op, ro op → (I fuel op).Lockfree) (h0 : VInv P ro c0) (hc : Conf.Reach I c0 c)
    (ha : ∀ t op, .inv t op ∈ c.hist → adm op) : VInv P ro c := by
  induction hc with
  | refl => exact h0
  | @step c1 c2 h1 h2 ih =>
    refine VInv.step hI hro (ih fun t op hm => ha t op ?_) h2 ha
    cases h2 with
    | inv => exact List.mem_append_left _ hm
    | act => exact hm
    | crash => exact hm
    | res => exact List.mem_append_left _ hm

/-- A configuration in which nobody is active and no lock is held. -/
theorem VInv.start {c0 : Conf K V} (h1 : ∀ p n, c0.mem.heap p = some n → p < c0.mem.fresh ∧ P.pg n) (h2 : ∀ p, c0.mem.lk p = {})
    (h3 : ∀ t, c0.thr t = none) : VInv P ro c0 := by
  refine ⟨⟨fun p u h => by simp [h2] at h, fun p h => ?_, fun p _ => by simp [h2], fun p n h => (h1 p n h).2⟩, fun t => ?_⟩
  · obtain ⟨n, hn⟩ := Option.ne_none_iff_exists'.1 h
    exact (h1 p n hn).1
  · refine ⟨⟨fun _ => Md.none, fun _ => none, fun _ _ => False, fun _ _ _ => False⟩, ⟨fun p => ?_, (fun p n h => by cases h), fun p v h => h.elim,
      fun p v n h => h.elim, fun _ => ⟨fun _ => rfl, fun _ _ _ h => h⟩⟩, fun _ p => rfl, fun p h => by rw [h3] at h; cases h⟩
    rw [h2]
    exact Lk.md_none (by simp) (by simp) (by simp)

theorem VInv.init (h0 : P.pg Node.emptyLeaf) : VInv P ro (Conf.init : Conf K V) := by
  refine VInv.start (fun p n h => ?_) (fun p => rfl) (fun t => rfl)
  simp only [Conf.init] at h
  split at h
  · next e => cases h; subst e; exact ⟨Nat.zero_lt_one, h0⟩
  · cases h

/-- Who holds a lock is in the middle of a call, which is not of the kind `ro`. -/
theorem VInv.holder (hv : VInv P ro c) {u : Tid} {p : Ptr} (h : (c.mem.lk p).md u ≠ Md.none) :
    ∃ op q, Pending c.hist u op ∧ ¬ ro op ∧ c.thr u = some q := by
  obtain ⟨σ, h1, h2, h3⟩ := hv.thr u
  have hf : ¬ σ.Free := fun hf => h (by rw [h1.L]; exact hf p)
  cases ht : c.thr u with
  | none => exact absurd (h2 ht) hf
  | some q =>
    obtain ⟨-, op, g2, g3⟩ := h3 q ht
    exact ⟨op, q, g2, fun hr => hf (g3 hr).2, rfl⟩

theorem Lk.md_of_x {l : Lk} {u : Tid} (h : l.x = some u) : (l.md u).x = true := by simp [Lk.md, h]
theorem Lk.md_of_six {l : Lk} {u : Tid} (h : l.six = some u) : (l.md u).six = true := by simp [Lk.md, h]
theorem Lk.md_of_s {l : Lk} {u : Tid} (h : u ∈ l.s) : 0 < (l.md u).s := by simpa [Lk.md] using List.count_pos_iff.2 h

theorem Md.ne_of_x {a : Md} (h : a.x = true) : a ≠ Md.none := by rintro rfl; cases h
theorem Md.ne_of_six {a : Md} (h : a.six = true) : a ≠ Md.none := by rintro rfl; cases h
theorem Md.ne_of_s {a : Md} (h : 0 < a.s) : a ≠ Md.none := by rintro rfl; exact absurd h (Nat.lt_irrefl 0)

/-- The lock an action waits for. -/
def Act.lockOf {β : Type} : Act K V β → Ptr
  | .lockS p | .getVer p | .lockSIX p | .tryLockSIX p _ | .lockX p | .tryLockX p _ | .upgradeX p => p
  | _ => 0

theorem Act.HeldBy.md {β : Type} {a : Act K V β} {m : Mem K V} {u : Tid} (h : a.HeldBy m u) : (m.lk a.lockOf).md u ≠ Md.none := by
  cases a <;> try exact h.elim
  case lockS p => exact Md.ne_of_x (Lk.md_of_x h)
  case getVer p => exact Md.ne_of_x (Lk.md_of_x h)
  case lockSIX p =>
    rcases h with h | h
    · exact Md.ne_of_x (Lk.md_of_x h)
    · exact Md.ne_of_six (Lk.md_of_six h)
  case tryLockSIX p v =>
    rcases h with h | h
    · exact Md.ne_of_x (Lk.md_of_x h)
    · exact Md.ne_of_six (Lk.md_of_six h)
  case lockX p =>
    rcases h with h | h | h
    · exact Md.ne_of_x (Lk.md_of_x h)
    · exact Md.ne_of_six (Lk.md_of_six h)
    · exact Md.ne_of_s (Lk.md_of_s h)
  case tryLockX p v =>
    rcases h with h | h | h
    · exact Md.ne_of_x (Lk.md_of_x h)
    · exact Md.ne_of_six (Lk.md_of_six h)
    · exact Md.ne_of_s (Lk.md_of_s h)
  case upgradeX p => exact Md.ne_of_s (Lk.md_of_s h)

theorem VInv.waits (hv : VInv P ro c) {t u : Tid} (h : c.WaitsFor t u) : ∃ op q, Pending c.hist u op ∧ ¬ ro op ∧ c.thr u = some q := by
  obtain ⟨β, a, k, -, -, h⟩ := h
  exact hv.holder h.md

/-- Who waits, waits for somebody. -/
theorem Act.wait_held {β : Type} {a : Act K V β} {m : Mem K V} {t : Tid} (h : a.run t m = .wait) : ∃ u, a.HeldBy m u := by
  cases a <;> simp only [Act.run] at h
  case lockS p =>
    split at h
    · cases h
    · split at h
      · cases h
      · next hx => exact Option.ne_none_iff_exists'.1 hx
  case getVer p =>
    split at h
    · cases h
    · split at h
      · cases h
      · next hx => exact Option.ne_none_iff_exists'.1 hx
  case lockSIX p =>
    split at h
    · cases h
    · split at h
      · cases h
      · next hx =>
        rw [not_and_or] at hx
        rcases hx with hx | hx
        · obtain ⟨u, hu⟩ := Option.ne_none_iff_exists'.1 hx; exact ⟨u, Or.inl hu⟩
        · obtain ⟨u, hu⟩ := Option.ne_none_iff_exists'.1 hx; exact ⟨u, Or.inr hu⟩
  case tryLockSIX p v =>
    split at h
    · cases h
    · split at h
      · split at h
        · cases h
        · next hx => obtain ⟨u, hu⟩ := Option.ne_none_iff_exists'.1 hx; exact ⟨u, Or.inr hu⟩
      · cases h
  case lockX p =>
    split at h
    · cases h
    · split at h
      · cases h
      · next hx =>
        rw [not_and_or, not_and_or] at hx
        rcases hx with hx | hx | hx
        · obtain ⟨u, hu⟩ := Option.ne_none_iff_exists'.1 hx; exact ⟨u, Or.inl hu⟩
        · obtain ⟨u, hu⟩ := Option.ne_none_iff_exists'.1 hx; exact ⟨u, Or.inr (Or.inl hu)⟩
        · obtain ⟨u, hu⟩ := List.exists_mem_of_ne_nil _ hx; exact ⟨u, Or.inr (Or.inr hu)⟩
  case tryLockX p v =>
    split at h
    · cases h
    · split at h
      · split at h
        · cases h
        · next hx =>
          rw [not_and_or] at hx
          rcases hx with hx | hx
          · obtain ⟨u, hu⟩ := Option.ne_none_iff_exists'.1 hx; exact ⟨u, Or.inr (Or.inl hu)⟩
          · obtain ⟨u, hu⟩ := List.exists_mem_of_ne_nil _ hx; exact ⟨u, Or.inr (Or.inr hu)⟩
      · cases h
  case upgradeX p =>
    split at h
    · split at h
      · cases h
      · next hx => obtain ⟨u, hu⟩ := List.exists_mem_of_ne_nil _ hx; exact ⟨u, hu⟩
    · cases h
  all_goals first | cases h | (split at h <;> first | cases h | (split at h <;> cases h))

/-- The order in which threads wait. -/
def Act.rank {β : Type} (f : Ptr) : Act K V β → Nat
  | .lockS _ | .getVer _ => 1
  | .upgradeX _ => 2
  | .lockX p => 3 + (f - p)
  | _ => 4 + f

/-- Whoever is waited for and waits has a lower rank. -/
theorem VInv.rank (hv : VInv P ro c) (hd : P.d = true) (hu : P.u = true) {t u : Tid} {β γ : Type} {a : Act K V β} {k : β → Prog K V (Out K V)} {b : Act K V γ}
    {k' : γ → Prog K V (Out K V)} (h1 : c.thr t = some (.act a k)) (h2 : a.run t c.mem = .wait) (h3 : a.HeldBy c.mem u)
    (h4 : c.thr u = some (.act b k')) (h5 : b.run u c.mem = .wait) : b.rank c.mem.fresh < a.rank c.mem.fresh := by
  obtain ⟨σ, s1, -, s3⟩ := hv.thr u
  have hb : b.vwp P σ (fun b σ' => (k' b).vwp P σ' (fun _ σ' => σ'.Free)) := (s3 _ h4).1
  have hL := s1.L
  -- what the holder may wait for
  have kx : ∀ p, (c.mem.lk p).x = some u → False := by
    intro p hp
    have hx : (σ.L p).x = true := by rw [← hL]; exact Lk.md_of_x hp
    obtain ⟨w, hw⟩ := Act.wait_held h5
    cases b <;> try exact hw.elim
    case lockS q => have := ((hb.1.1 hd) p).2; rw [hx] at this; cases this
    case getVer q => have := ((hb.1.1 hd) p).2; rw [hx] at this; cases this
    case lockSIX q => have := (hb.1 hd) p; rw [this] at hx; cases hx
    case tryLockSIX q v => have := (hb.1 hd) p; rw [this] at hx; cases hx
    case tryLockX q v => have := (hb.1 hu) p; rw [this] at hx; cases hx
    case lockX q => have := ((hb.1 hu) p (Md.ne_of_x hx)).1; rw [this] at hx; cases hx
    case upgradeX q => have := ((hb.1 hu) p).2; rw [hx] at this; cases this
  have ks : ∀ p, u ∈ (c.mem.lk p).s → b.rank c.mem.fresh = 1 := by
    intro p hp
    have hx : 0 < (σ.L p).s := by rw [← hL]; exact Lk.md_of_s hp
    obtain ⟨w, hw⟩ := Act.wait_held h5
    cases b <;> try exact hw.elim
    case lockS q => rfl
    case getVer q => rfl
    case lockSIX q => have := (hb.1 hd) p; rw [this] at hx; exact absurd hx (Nat.lt_irrefl 0)
    case tryLockSIX q v => have := (hb.1 hd) p; rw [this] at hx; exact absurd hx (Nat.lt_irrefl 0)
    case tryLockX q v => have := (hb.1 hu) p; rw [this] at hx; exact absurd hx (Nat.lt_irrefl 0)
    case lockX q => have := ((hb.1 hu) p (Md.ne_of_s hx)).1; rw [this] at hx; exact absurd hx (Nat.lt_irrefl 0)
    case upgradeX q => have := ((hb.1 hu) p).1; rw [this] at hx; exact absurd hx (Nat.lt_irrefl 0)
  have km : ∀ p, (c.mem.lk p).md u ≠ Md.none → b.rank c.mem.fresh < 3 + (c.mem.fresh - p) := by
    intro p hp
    have hlt := hv.wf.lt hp
    have hx : σ.L p ≠ Md.none := by rw [← hL]; exact hp
    obtain ⟨w, hw⟩ := Act.wait_held h5
    cases b <;> try exact hw.elim
    case lockS q => simp only [Act.rank]; omega
    case getVer q => simp only [Act.rank]; omega
    case lockSIX q => exact absurd ((hb.1 hd) p) hx
    case tryLockSIX q v => exact absurd ((hb.1 hd) p) hx
    case tryLockX q v => exact absurd ((hb.1 hu) p) hx
    case lockX q =>
      exact Nat.add_lt_add_left (Nat.sub_lt_sub_left hlt ((hb.1 hu) p hx).2) 3
    case upgradeX q => simp only [Act.rank]; omega
  cases a <;> try exact h3.elim
  case lockS p => exact (kx p h3).elim
  case getVer p => exact (kx p h3).elim
  case upgradeX p => rw [ks p h3]; simp [Act.rank]
  case lockX p => exact km p h3.md
  case lockSIX p =>
    have := km p h3.md
    simp only [Act.rank] at this ⊢
    omega
  case tryLockSIX p v =>
    have := km p h3.md
    simp only [Act.rank] at this ⊢
    omega
  case tryLockX p v =>
    have := km p h3.md
    simp only [Act.rank] at this ⊢
    omega

theorem Conf.WaitsFor.waiting {t u : Tid} (h : c.WaitsFor t u) : c.Waiting t := by
  obtain ⟨β, a, k, h1, h2, -⟩ := h
  exact ⟨β, a, k, h1, h2⟩

/-- What threads wait for can be ranked so that whoever is waited for and waits has a lower rank. -/
def Conf.Ranked (c : Conf K V) : Prop :=
  ∃ rk : (β : Type) → Act K V β → Nat, ∀ (t u : Tid) (β γ : Type) (a : Act K V β) (k : β → Prog K V (Out K V)) (b : Act K V γ) (k' : γ → Prog K V (Out K V)),
    c.thr t = some (.act a k) → a.run t c.mem = .wait → a.HeldBy c.mem u → c.thr u = some (.act b k') → b.run u c.mem = .wait →
    rk γ b < rk β a

theorem VInv.ranked (hv : VInv P ro c) (hd : P.d = true) (hu : P.u = true) : c.Ranked :=
  ⟨fun _ a => a.rank c.mem.fresh, fun _ _ _ _ _ _ _ _ h1 h2 h3 h4 h5 => hv.rank hd hu h1 h2 h3 h4 h5⟩

open Relation in
/-- Nobody waits in a circle. -/
theorem Conf.Ranked.acyclic (hk : c.Ranked) {t : Tid} : ¬ TransGen c.WaitsFor t t := by
  obtain ⟨rk, hk⟩ := hk
  have key : ∀ t u, TransGen c.WaitsFor t u → ∀ {β γ : Type} {a : Act K V β} {k} {b : Act K V γ} {k'}, c.thr t = some (.act a k) →
      a.run t c.mem = .wait → c.thr u = some (.act b k') → b.run u c.mem = .wait → rk γ b < rk β a := by
    intro t u h
    induction h using TransGen.head_induction_on with
    | single h =>
      intro β γ a k b k' e1 e2 e3 e4
      obtain ⟨_, _, _, g1, -, g3⟩ := h
      rw [e1] at g1
      cases g1
      exact hk _ _ _ _ _ _ _ _ e1 e2 g3 e3 e4
    | @head x y h1 h2 ih =>
      intro β γ a k b k' e1 e2 e3 e4
      obtain ⟨z, hz, -⟩ := TransGen.head'_iff.1 h2
      obtain ⟨δ, d, kd, f1, f2⟩ := hz.waiting
      obtain ⟨_, _, _, g1, -, g3⟩ := h1
      rw [e1] at g1
      cases g1
      exact (ih f1 f2 e3 e4).trans (hk _ _ _ _ _ _ _ _ e1 e2 g3 f1 f2)
  intro h
  obtain ⟨z, hz, -⟩ := TransGen.head'_iff.1 h
  obtain ⟨β, a, k, h1, h2⟩ := hz.waiting
  exact absurd (key t t h h1 h2 h1 h2) (lt_irrefl _)

open Relation in
/-- Whoever waits, waits in the end for a thread that is in the middle of a call and need not wait. -/
theorem VInv.progress (hv : VInv P ro c) (hk : c.Ranked) {t : Tid} (ht : c.Waiting t) :
    ∃ u op, TransGen c.WaitsFor t u ∧ Pending c.hist u op ∧ ¬ c.Waiting u := by
  obtain ⟨rk, hk⟩ := hk
  obtain ⟨β, a, k, h1, h2⟩ := ht
  generalize hr : rk β a = r
  induction r using Nat.strong_induction_on generalizing t β with
  | _ r ih =>
    obtain ⟨u, hu⟩ := Act.wait_held h2
    have hW : c.WaitsFor t u := ⟨β, a, k, h1, h2, hu⟩
    obtain ⟨op, q, g1, -, -⟩ := hv.waits hW
    by_cases hw : c.Waiting u
    · obtain ⟨γ, b, k', hp, hb⟩ := hw
      have hlt := hk _ _ _ _ _ _ _ _ h1 h2 hu hp hb
      obtain ⟨v, op', hv1, hv2⟩ := ih _ (hr ▸ hlt) γ b k' hp hb rfl
      exact ⟨v, op', TransGen.head hW hv1, hv2⟩
    · exact ⟨u, op, TransGen.single hW, g1, hw⟩

/-! ## A thread has one call at a time -/

theorem Pending.split {h : List (Ev K V)} {x : Ev K V} {op : Op K V} (hp : Pending (h ++ [x]) t op) :
    x = .inv t op ∨ (Pending h t op ∧ ∀ out, x ≠ .res t out) := by
  obtain ⟨h1, h2, e, hn⟩ := hp
  rcases List.eq_nil_or_concat h2 with rfl | ⟨h2, y, rfl⟩
  · have e : h ++ [x] = h1 ++ [.inv t op] := e
    left
    exact (List.append_inj' e rfl).2 |> fun h => by simpa using h
  · right
    have e : h ++ [x] = (h1 ++ .inv t op :: h2) ++ [y] := by rw [e]; simp
    obtain ⟨e1, e2⟩ := List.append_inj' e rfl
    simp only [List.cons.injEq, and_true] at e2
    subst e1 e2
    exact ⟨⟨h1, h2, rfl, fun out hm => hn out (by simp [hm])⟩, fun out e => hn out (by simp [e])⟩

theorem Conf.Reach.pend {I : CImpl K V} {c0 : Conf K V} (h0 : c0.hist = []) (hc : Conf.Reach I c0 c) (t : Tid) :
    (c.thr t = none → ∀ op, ¬ Pending c.hist t op) ∧ ∀ op op', Pending c.hist t op → Pending c.hist t op' → op = op' := by
  have empty : ∀ op, ¬ Pending ([] : List (Ev K V)) t op := by
    rintro op ⟨h1, h2, e, -⟩
    simp at e
  induction hc with
  | refl => rw [h0]; exact ⟨fun _ => empty, fun op _ h => absurd h (empty op)⟩
  | step _ hs ih =>
    cases hs with
    | inv u op fuel hn =>
      by_cases e : t = u
      · subst e
        refine ⟨fun h => by simp [Spec.upd] at h, fun o o' h h' => ?_⟩
        rcases Pending.split h with a | ⟨a, -⟩
        · rcases Pending.split h' with b | ⟨b, -⟩
          · injection a with _ a; injection b with _ b; exact a.symm.trans b
          · exact absurd b (ih.1 hn _)
        · exact absurd a (ih.1 hn _)
      · have back : ∀ {h : List (Ev K V)} {o : Op K V}, Pending (h ++ [Ev.inv u op]) t o → Pending h t o := fun h => by
          rcases Pending.split h with a | ⟨a, -⟩
          · injection a with a; exact absurd a.symm e
          · exact a
        refine ⟨fun h o ho => ih.1 ?_ o (back ho), fun o o' h h' => ih.2 o o' (back h) (back h')⟩
        simpa [Spec.upd, e] using h
    | @act u _ _ _ _ _ h1 _ =>
      refine ⟨fun h => ih.1 ?_, ih.2⟩
      by_cases e : t = u
      · subst e; simp [Spec.upd] at h
      · simpa [Spec.upd, e] using h
    | @crash u _ _ _ h1 _ =>
      refine ⟨fun h => ih.1 ?_, ih.2⟩
      by_cases e : t = u
      · subst e; simp [Spec.upd] at h
      · simpa [Spec.upd, e] using h
    | @res u out h1 =>
      have back : ∀ {h : List (Ev K V)} {o : Op K V}, Pending (h ++ [Ev.res u out]) t o → Pending h t o ∧ t ≠ u := fun h => by
        rcases Pending.split h with a | ⟨a, b⟩
        · cases a
        · exact ⟨a, fun e => b out (by rw [e])⟩
      refine ⟨fun h o ho => ?_, fun o o' h h' => ih.2 o o' (back h).1 (back h').1⟩
      exact ih.1 (by simpa [Spec.upd, (back ho).2] using h) o (back ho).1

theorem Conf.Reach.calling {I : CImpl K V} {c0 : Conf K V} (h0 : ∀ t, c0.thr t = none) (hc : Conf.Reach I c0 c)
    (ht : c.thr t ≠ none) : ∃ op, Pending c.hist t op := by
  induction hc with
  | refl => exact absurd (h0 t) ht
  | step _ hs ih =>
    cases hs with
    | inv u op fuel hn =>
      by_cases e : t = u
      · subst e; exact ⟨op, _, [], rfl, by simp⟩
      · obtain ⟨o, ho⟩ := ih (by simpa [Spec.upd, e] using ht)
        exact ⟨o, ho.snoc (by simp)⟩
    | @act u _ _ _ _ _ h1 _ =>
      refine ih ?_
      by_cases e : t = u
      · subst e; rw [h1]; simp
      · simpa [Spec.upd, e] using ht
    | @crash u _ _ _ h1 _ =>
      refine ih ?_
      by_cases e : t = u
      · subst e; rw [h1]; simp
      · simpa [Spec.upd, e] using ht
    | @res u out h1 =>
      by_cases e : t = u
      · subst e; simp [Spec.upd] at ht
      · obtain ⟨o, ho⟩ := ih (by simpa [Spec.upd, e] using ht)
        exact ⟨o, ho.snoc (by rintro out' e'; injection e' with e'; exact e e'.symm)⟩

end BT
