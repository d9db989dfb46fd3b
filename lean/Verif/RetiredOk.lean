import Verif.Retired
import Verif.SpecReach

/-!
# Pages that are handed to the garbage collector are out of reach once the call has returned
-/

set_option linter.unusedSectionVars false

namespace BT
open Spec Prog
variable {K V : Type} [LinearOrder K] {α β : Type}


/-! ## Removed pages -/

section graves
variable {cfg : Cfg K} {w w' : World K V} {t u : Tid} {p q : Ptr} {n : Node K V} {I : CImpl K V} {c c' : Conf K V}

theorem Ext.dead (h : Ext w w') (hp : w.Dead p) : w'.Dead p := by
  unfold World.Dead at hp ⊢
  have := h.st p
  cases e : w.st p <;> rw [e] at hp this <;> first | exact hp.elim | skip
  all_goals
    simp only [StLe] at this
    rw [this]
    trivial

theorem CInv.dead_removed (h : CInv cfg w) (hp : w.Dead p) : ∃ n, w.heap p = some n ∧ n.removed = true := by
  unfold World.Dead at hp
  cases e : w.st p <;> rw [e] at hp <;> first | exact hp.elim | skip
  · obtain ⟨-, -, -, -, n, h1, h2, -⟩ := h.merged p _ _ e
    exact ⟨n, h1, h2⟩
  · obtain ⟨-, n, h1, h2, -⟩ := h.gone p e
    exact ⟨n, h1, h2⟩

theorem CInv.removed_dead (h : CInv cfg w) (hp : w.Pub p) (hn : w.heap p = some n) (hr : n.removed = true) : w.Dead p := by
  unfold World.Dead
  unfold World.Pub at hp
  cases e : w.st p with
  | free => rw [e] at hp; exact hp
  | priv => rw [e] at hp; exact hp
  | live =>
    obtain ⟨m, h1, h2⟩ := h.live p e
    cases hn.symm.trans h1
    rw [h2.ok.notRemoved] at hr; cases hr
  | stale =>
    obtain ⟨-, -, -, -, -, m, h1, h2⟩ := h.stale p _ _ _ e
    cases hn.symm.trans h1
    rw [h2.ok.notRemoved] at hr; cases hr
  | merged => trivial
  | gone => trivial

/-- Page `p` has been removed; if it is still the root, then thread `t` is about to replace it. -/
def Buried (t : Tid) (p : Ptr) (w : World K V) : Prop := w.Dead p ∧ (w.mem.root = p → w.shr = some t)

/-- Page `p` has been removed, and is not the root any more. -/
def Lost (p : Ptr) (w : World K V) : Prop := w.Dead p ∧ w.mem.root ≠ p

theorem Act.root_cases {a : Act K V β} {m m' : Mem K V} {b : β} (h : a.run u m = .run (b, m')) :
    m'.root = m.root ∨ ∃ q, m'.root = q ∧ ∀ w : World K V, a.Public w → ∀ n, w.heap q = some n → n.removed = false := by
  cases a <;> simp only [Act.run] at h <;> (try split at h) <;> (try split at h) <;> (try split at h) <;>
    first
    | (cases h; done)
    | (cases h; exact Or.inl rfl)
    | (cases h; exact Or.inr ⟨_, rfl, fun w hw => hw⟩)

theorem Act.marks_cases {a : Act K V β} {m m' : Mem K V} {b : β} (h : a.run u m = .run (b, m')) {s : Bool} (hm : a.marks p s = true) :
    s = true ∨ (m'.root = m.root ∧ (∃ n, m'.heap p = some n ∧ n.removed = true) ∧ ∀ w : World K V, a.Public w → w.Pub p ∧ ¬ w.Dead p) := by
  cases a with
  | store q n =>
    simp only [Act.marks, Bool.or_eq_true, Bool.and_eq_true, decide_eq_true_eq] at hm
    rcases hm with hm | ⟨rfl, hm⟩
    · exact Or.inl hm
    · simp only [Act.run] at h
      split at h
      · cases h
      split at h <;> cases h
      exact Or.inr ⟨rfl, ⟨n, by simp [Mem.setHeap], hm⟩, fun w hw => hw hm⟩
  | _ => exact Or.inl hm

/-- A step and the worlds before and after. -/
structure Leads (cfg : Cfg K) (I : CImpl K V) (u : Tid) (c c' : Conf K V) (w w' : World K V) : Prop where
  mem : w.mem = c.mem
  mem' : w'.mem = c'.mem
  inv : CInv cfg w
  inv' : CInv cfg w'
  moved : (blg V cfg).Moved I u c c' w w'

theorem Leads.ext (h : Leads cfg I u c c' w w') : Ext w w' :=
  have := h.moved.rely (u + 1) (Nat.succ_ne_self u)
  Rely.kp this |>.ext

theorem Leads.shr (h : Leads cfg I u c c' w w') (ht : t ≠ u) : w'.shr = some t ↔ w.shr = some t :=
  have := h.moved.rely t ht
  Rely.kp this |>.shr

/-- Removed pages do not become the root again. -/
theorem Leads.root (h : Leads cfg I u c c' w w') (hp : w.Dead p) (hr : w'.mem.root = p) : w.mem.root = p := by
  rcases h.moved.step with ⟨β, a, k, b, -, hrun, -, hask⟩ | ⟨e, -⟩
  · rcases Act.root_cases hrun with e | ⟨q, e, hq⟩
    · rw [h.mem, ← e, ← h.mem', hr]
    · obtain ⟨n, h1, h2⟩ := h.inv.dead_removed hp
      rw [← h.mem', hr] at e
      subst e
      rw [hq w hask.2.1 n h1] at h2; cases h2
  · rw [h.mem, ← e, ← h.mem', hr]

theorem Leads.lost (h : Leads cfg I u c c' w w') (hp : Lost p w) : Lost p w' :=
  ⟨h.ext.dead hp.1, fun e => hp.2 (h.root hp.1 e)⟩

theorem CInv.root_dead (h : CInv cfg w) (hp : w.Dead w.mem.root) : ∃ x, w.shr = some x ∧ w.st w.mem.root = .gone := by
  rcases h.root with ⟨-, e, -⟩ | ⟨x, h1, h2, -⟩
  · unfold World.Dead at hp
    rw [e] at hp
    exact hp.elim
  · exact ⟨x, h1, h2⟩

theorem Leads.buried (h : Leads cfg I u c c' w w') (hp : Buried t p w) : Buried t p w' := by
  have hd := h.ext.dead hp.1
  refine ⟨hd, fun e => ?_⟩
  have hs := hp.2 (h.root hp.1 e)
  by_cases ht : t = u
  · subst ht
    subst e
    obtain ⟨x, hx, -⟩ := h.inv'.root_dead hd
    by_cases hxt : x = t
    · rw [hx, hxt]
    · have := (h.shr hxt).1 hx
      rw [hs] at this
      exact absurd (Option.some.inj this).symm hxt
  · exact (h.shr ht).2 hs

/-- A page that thread `u` marks is buried. -/
theorem Leads.marks (h : Leads cfg I u c c' w w') {a : Act K V β} {b : β} (hrun : a.run u c.mem = .run (b, c'.mem)) (hask : a.Public w)
    {s : Bool} (hs : s = true → Buried u p w) (hm : a.marks p s = true) : Buried u p w' := by
  rcases Act.marks_cases hrun hm with e | ⟨h1, ⟨n, h2, h3⟩, h4⟩
  · exact h.buried (hs e)
  obtain ⟨hpub, hnd⟩ := h4 w hask
  have hd : w'.Dead p := h.inv'.removed_dead (h.ext.pub hpub) (by show w'.mem.heap p = _; rw [h.mem']; exact h2) h3
  refine ⟨hd, fun e => ?_⟩
  have hr : w.mem.root = p := by rw [h.mem, ← h1, ← h.mem', e]
  subst e
  obtain ⟨x, hx, -⟩ := h.inv'.root_dead hd
  by_cases hxu : x = u
  · rw [hx, hxu]
  · have hx' := (h.shr hxu).1 hx
    rcases h.inv.root with ⟨e, -⟩ | ⟨-, -, e, -⟩
    · rw [e] at hx'; cases hx'
    · rw [hr] at e
      exact absurd (by unfold World.Dead; rw [e]; trivial) hnd

/-- Every thread has buried the pages it has marked. -/
def Acct (c : Conf K V) (w : World K V) : Prop :=
  ∀ t x, c.thr t = some x → ∀ p, ∃ s d, Acc p x s d Even ∧ (s = true → Buried t p w)

theorem Leads.acct (hI : ∀ f op, (I f op).Pays) (h : Leads cfg I u c c' w w') (ha : Acct c w) : Acct c' w' := by
  intro t x hx p
  by_cases ht : t = u
  · subst ht
    rcases h.moved.step with ⟨β, a, k, b, h0, hrun, h1, hask⟩ | ⟨-, ⟨f, op, -, h1⟩ | ⟨out, -, h1⟩⟩
    · obtain ⟨s, d, h2, h3⟩ := ha t _ h0 p
      cases h1.symm.trans hx
      exact ⟨_, _, h2 b, h.marks hrun hask.2.1 h3⟩
    · cases h1.symm.trans hx
      exact ⟨false, false, hI f op p false false (fun e => e), fun e => (by cases e)⟩
    · rw [h1] at hx; cases hx
  · rw [h.moved.thr t ht] at hx
    obtain ⟨s, d, h2, h3⟩ := ha t x hx p
    exact ⟨s, d, h2, fun e => h.buried (h3 e)⟩

/-- The next action hands page `p` over. -/
def Prog.Handing (p : Ptr) : Prog K V α → Prop
  | .act a _ => a.hands p false = true
  | _ => False

/-- Thread `t` has handed page `p` over, or is about to do so, or has returned since then. -/
def Handed (t : Tid) (p : Ptr) (c : Conf K V) (w : World K V) : Prop :=
  (∃ x s d, c.thr t = some x ∧ Acc p x s d Even ∧ (s = true → Buried t p w) ∧ (d = true ∨ x.Handing p)) ∨ Lost p w

theorem Act.hands_mono {a : Act K V β} {d : Bool} (h : a.hands p false = true) : a.hands p d = true := by
  cases a <;> simp [Act.hands] at h ⊢ <;> exact Or.inr h

theorem Leads.handed (h : Leads cfg I u c c' w w') (hid : c'.thr t = none → w'.shr ≠ some t) (hh : Handed t p c w) : Handed t p c' w' := by
  rcases hh with ⟨x, s, d, hx, h1, h2, h3⟩ | hh
  on_goal 2 => exact Or.inr (h.lost hh)
  by_cases ht : t = u
  · subst ht
    rcases h.moved.step with ⟨β, a, k, b, h0, hrun, h4, hask⟩ | ⟨-, ⟨f, op, h4, -⟩ | ⟨out, h0, h4⟩⟩
    · cases h0.symm.trans hx
      refine Or.inl ⟨_, _, _, h4, h1 b, h.marks hrun hask.2.1 h2, Or.inl ?_⟩
      rcases h3 with rfl | h3
      · cases a <;> simp [Act.hands]
      · exact Act.hands_mono h3
    · rw [h4] at hx; cases hx
    · cases h0.symm.trans hx
      rcases h3 with rfl | h3
      · have hb := h.buried (h2 (h1 rfl))
        exact Or.inr ⟨hb.1, fun e => hid h4 (hb.2 e)⟩
      · exact h3.elim
  · exact Or.inl ⟨x, s, d, (h.moved.thr t ht).trans hx, h1, fun e => h.buried (h2 e), h3⟩

/-- Executions whose configurations satisfy `P`, with their worlds. -/
structure Sims (cfg : Cfg K) (I : CImpl K V) (P : Conf K V → Prop) (R : Conf K V → World K V → Prop) : Prop where
  mem : ∀ {c w}, R c w → w.mem = c.mem
  inv : ∀ {c w}, R c w → CInv cfg w
  idle : ∀ {c w t}, R c w → c.thr t = none → w.shr ≠ some t
  back : ∀ {c c'}, Conf.Step I c c' → P c' → P c
  step : ∀ {c c' w}, R c w → Conf.Step I c c' → P c' → ∃ w' u, R c' w' ∧ (blg V cfg).Moved I u c c' w w'

variable {P : Conf K V → Prop} {R : Conf K V → World K V → Prop} {c0 : Conf K V} {w0 : World K V}

theorem Sims.run (h : Sims cfg I P R) {F : Conf K V → World K V → Prop}
    (hF : ∀ {u c c' w w'}, Leads cfg I u c c' w w' → R c' w' → F c w → F c' w') (h0 : R c w) (hf : F c w)
    (hc : Conf.Reach I c c') (hp : P c') : ∃ w', R c' w' ∧ F c' w' := by
  induction hc with
  | refl => exact ⟨w, h0, hf⟩
  | @step c1 c2 h1 h2 ih =>
    obtain ⟨w1, r1, f1⟩ := ih (h.back h2 hp)
    obtain ⟨w2, u, r2, mv⟩ := h.step r1 h2 hp
    exact ⟨w2, r2, hF ⟨h.mem r1, h.mem r2, h.inv r1, h.inv r2, mv⟩ r2 f1⟩

theorem Sims.backR (h : Sims cfg I P R) (hc : Conf.Reach I c c') (hp : P c') : P c := by
  induction hc with
  | refl => exact hp
  | step _ h2 ih => exact ih (h.back h2 hp)

/-- A page that a call hands to the garbage collector is lost as soon as the call has returned. -/
theorem Sims.lost (h : Sims cfg I P R) (hI : ∀ f op, (I f op).Pays) (h0 : R c0 w0) (ht : ∀ t, c0.thr t = none) (hc : Conf.Reach I c0 c)
    {x : Prog K V (Out K V)} (e : c.thr t = some x) (ex : x.Handing p) (hc' : Conf.Reach I c c') (e' : c'.thr t = none)
    {c'' : Conf K V} (hc'' : Conf.Reach I c' c'') (hp : P c'') : ∃ w, R c'' w ∧ Lost p w := by
  have p' := h.backR hc'' hp
  have p1 := h.backR hc' p'
  obtain ⟨w1, r1, a1⟩ := h.run (F := Acct) (fun l _ a => l.acct hI a) h0 (fun t x hx => by rw [ht] at hx; cases hx) hc p1
  obtain ⟨s, d, h2, h3⟩ := a1 t _ e p
  obtain ⟨w2, r2, a2⟩ := h.run (F := Handed t p) (fun l r a => l.handed (fun e => h.idle r e) a) r1
    (Or.inl ⟨_, s, d, e, h2, h3, Or.inr ex⟩) hc' p'
  rcases a2 with ⟨x, -, -, hx, -⟩ | a2
  · rw [e'] at hx; cases hx
  · exact h.run (F := fun _ w => Lost p w) (fun l _ a => l.lost a) r2 a2 hc'' hp

theorem Act.gc_cases {a : Act K V β} {m m' : Mem K V} {b : β} (h : a.run u m = .run (b, m')) (hp : p ∈ m'.gc) :
    p ∈ m.gc ∨ a.hands p false = true := by
  cases a <;> simp only [Act.run] at h <;> (try split at h) <;> (try split at h) <;> (try split at h) <;>
    first
    | (cases h; done)
    | (cases h; exact Or.inl hp)
    | (cases h
       rcases List.mem_cons.1 hp with e | e
       · exact Or.inr (by simp [Act.hands, e])
       · exact Or.inl e)

/-- Whatever the garbage collector has, some thread has handed over. -/
theorem gc_handed (h0 : c0.mem.gc = []) (hc : Conf.Reach I c0 c) (hp : p ∈ c.mem.gc) :
    ∃ c1 t x, Conf.Reach I c0 c1 ∧ Conf.Reach I c1 c ∧ c1.thr t = some x ∧ x.Handing p := by
  induction hc with
  | refl => rw [h0] at hp; cases hp
  | @step c2 c3 h1 h2 ih =>
    have old : p ∈ c2.mem.gc → ∃ c1 t x, Conf.Reach I c0 c1 ∧ Conf.Reach I c1 c3 ∧ c1.thr t = some x ∧ x.Handing p := fun h => by
      obtain ⟨c1, t, x, a, b, d⟩ := ih h
      exact ⟨c1, t, x, a, b.step h2, d⟩
    cases h2 with
    | inv => exact old hp
    | act e hrun =>
      rcases Act.gc_cases hrun hp with h | h
      · exact old h
      · exact ⟨_, _, _, h1, .step .refl (.act e hrun), e, h⟩
    | crash => exact old hp
    | res => exact old hp

theorem Conf.Reach.trans {c1 c2 c3 : Conf K V} (h1 : Conf.Reach I c1 c2) (h2 : Conf.Reach I c2 c3) : Conf.Reach I c1 c3 := by
  induction h2 with
  | refl => exact h1
  | step _ h ih => exact ih.step h

/-- A page that the garbage collector has is lost as soon as every thread has been idle since. -/
theorem Sims.grace (h : Sims cfg I P R) (hI : ∀ f op, (I f op).Pays) (h0 : R c0 w0) (ht : ∀ t, c0.thr t = none) (hg : c0.mem.gc = [])
    (hc : Conf.Reach I c0 c) (hp : p ∈ c.mem.gc) (hi : ∀ t, ∃ d, Conf.Reach I c d ∧ Conf.Reach I d c' ∧ d.thr t = none) (hn : P c') :
    ∃ w, R c' w ∧ Lost p w := by
  obtain ⟨c1, t, x, h1, h2, h3, h4⟩ := gc_handed hg hc hp
  obtain ⟨d, h5, h6, h7⟩ := hi t
  exact h.lost hI h0 ht h1 h3 h4 (h2.trans h5) h7 h6 hn

/-- The leaves that the garbage collector has are merged. -/
def Leaves (c : Conf K V) (w : World K V) : Prop := ∀ p ∈ c.mem.gc, w.Pub p ∧ (w.lvl p = 0 → ∃ τ q, w.st p = .merged τ q)

theorem Act.gc_public {a : Act K V β} {m m' : Mem K V} {b : β} (h : a.run u m = .run (b, m')) (hp : p ∈ m'.gc) :
    p ∈ m.gc ∨ ∀ w : World K V, a.Public w → w.Pub p ∧ (w.lvl p = 0 → ∃ τ q, w.st p = .merged τ q) := by
  cases a <;> simp only [Act.run] at h <;> (try split at h) <;> (try split at h) <;> (try split at h) <;>
    first
    | (cases h; done)
    | (cases h; exact Or.inl hp)
    | (cases h
       rcases List.mem_cons.1 hp with rfl | e
       · exact Or.inr fun w hw => hw
       · exact Or.inl e)

theorem Leads.leaves (h : Leads cfg I u c c' w w') (hl : Leaves c w) : Leaves c' w' := by
  have keep : ∀ {p}, w.Pub p ∧ (w.lvl p = 0 → ∃ τ q, w.st p = .merged τ q) → w'.Pub p ∧ (w'.lvl p = 0 → ∃ τ q, w'.st p = .merged τ q) := by
    rintro p ⟨h1, h2⟩
    refine ⟨h.ext.pub h1, fun e => ?_⟩
    rw [(h.ext.fixed p h1).1] at e
    obtain ⟨τ, q, e⟩ := h2 e
    have := h.ext.st p
    rw [e] at this
    exact ⟨τ, q, this⟩
  intro p hp
  rcases h.moved.step with ⟨β, a, k, b, -, hrun, -, hask⟩ | ⟨e, -⟩
  · rcases Act.gc_public hrun hp with hp | hp
    · exact keep (hl p hp)
    · exact keep (hp w hask.2.1)
  · rw [e] at hp
    exact keep (hl p hp)

/-- The executions without a noted situation. -/
theorem sims_sim {m0 : Map K V} (hI : ∀ t fuel op w, (blg V cfg).Inv w → (blg V cfg).Idle t w → ((blg V cfg).ps w).ph t = .waiting op ((blg V cfg).ps w).now →
      (blg V cfg).wp t (I fuel op) (fun out w => ((blg V cfg).ps w).ph t = .done out ∧ (blg V cfg).Idle t w) w) :
    Sims cfg I (fun c => c.mem.raced = false) ((blg V cfg).SimAt m0) where
  mem h := h.1
  inv h := h.2.1
  idle h e := (((h.2.2.2 _).1 e).2.1).2
  back hs hn := by
    cases hs with
    | inv => exact hn
    | act _ hrun =>
      by_contra e
      rw [Lg.raced_mono hrun (by simpa using e)] at hn; cases hn
    | crash => exact hn
    | res => exact hn
  step h hs hn := by
    rcases Lg.sim_at_step hI h hs with e | h
    · rw [hn] at e; cases e
    · exact h

/-- The executions with one writer at a time. -/
theorem sims_solo {m0 : Map K V} (hI : CallOk cfg I) (hf : ∀ c, Conf.Reach I c0 c → c.IdleFree) :
    Sims cfg I (fun c => OneWriter c.hist) (fun c w => Conf.Reach I c0 c ∧ SoloAt cfg m0 c w) where
  mem h := h.2.1
  inv h := h.2.2.2.1
  idle h e := (((h.2.2.2.2.2.2 _).1 e).2.1).2
  back hs hn := by
    cases hs with
    | inv => exact OneWriter.prefix hn
    | act => exact hn
    | crash => exact hn
    | res => exact OneWriter.prefix hn
  step h hs hn := by
    obtain ⟨w', u, h1, h2⟩ := h.2.step hI (hf _ h.1) hn hs
    exact ⟨w', u, ⟨h.1.step hs, h1⟩, h2⟩

theorem kidsOf_get {lo : Bd K} {recs : List (Rec K V)} {hi : Option K} {pos : Nat} {r : Rec K V} (h : recs[pos]? = some r) :
    ∃ b, (b, r.toPtr) ∈ kidsOf lo (slots recs hi) := by
  induction recs generalizing lo pos with
  | nil => simp at h
  | cons r' rs ih =>
    rw [slots_cons]
    cases pos with
    | zero =>
      simp only [List.getElem?_cons_zero, Option.some.injEq] at h
      subst h
      exact ⟨lo, by simp [kidsOf]⟩
    | succ pos =>
      obtain ⟨b, hb⟩ := ih (lo := hiB (hdKey rs hi)) (by simpa using h)
      exact ⟨b, by simp [kidsOf, hb]⟩

theorem CInv.reaches (hb : cfg.blink = true) (h : CInv cfg w) (hp : w.mem.Reaches p) : w.st p = .live ∨ (p = w.mem.root ∧ w.Dead p) := by
  induction hp with
  | root =>
    rcases h.root with ⟨-, e, -⟩ | ⟨-, -, e, -⟩
    · exact Or.inl e
    · exact Or.inr ⟨rfl, by unfold World.Dead; rw [e]; trivial⟩
  | @child p c n pos h1 h2 h3 h4 h5 ih =>
    left
    rcases ih with e | ⟨-, e⟩
    · obtain ⟨n', e1, e2⟩ := h.live p e
      cases h2.symm.trans e1
      have hk := e2.ok.kind
      rw [h3] at hk
      have hl : w.lvl p ≠ 0 := of_decide_eq_true hk.symm
      unfold Node.getChild at h5
      split at h5
      · rename_i key q d hq
        cases h5
        obtain ⟨b, hb⟩ := kidsOf_get (lo := w.lo p) (hi := n.high) hq
        exact (e2.kids _ (Nat.succ_pred_eq_of_ne_zero hl).symm b _ hb).1
      · cases h5
    · obtain ⟨n', e1, e2⟩ := h.dead_removed e
      cases h2.symm.trans e1
      rw [h4] at e2; cases e2
  | @next p q n h1 h2 h3 ih =>
    left
    rcases ih with e | ⟨rfl, e⟩
    · obtain ⟨n', e1, e2⟩ := h.live p e
      cases h2.symm.trans e1
      rcases e2.nextB (Or.inl hb) with ⟨-, e3⟩ | ⟨_, q', -, e3, e4, -⟩
      · rw [h3] at e3; cases e3
      · cases h3.symm.trans e3
        exact e4
    · obtain ⟨x, -, e1⟩ := h.root_dead e
      obtain ⟨-, n', e2, -, e3, -⟩ := h.gone _ e1
      cases h2.symm.trans e2
      rw [h3] at e3; cases e3

theorem CInv.merged_lost (h : CInv cfg w) {τ : Nat} (hp : w.st p = .merged τ q) : Lost p w := by
  refine ⟨by unfold World.Dead; rw [hp]; trivial, fun e => ?_⟩
  rw [← e] at hp
  rcases h.root with ⟨-, e, -⟩ | ⟨-, -, e, -⟩ <;> rw [e] at hp <;> cases hp

theorem Lost.unreachable (hb : cfg.blink = true) (hi : CInv cfg w) (h : Lost p w) : ¬ w.mem.Reaches p := by
  intro hp
  rcases hi.reaches hb hp with e | ⟨e, -⟩
  · have := h.1
    unfold World.Dead at this
    rw [e] at this
    exact this
  · exact h.2 e.symm

end graves
end BT
