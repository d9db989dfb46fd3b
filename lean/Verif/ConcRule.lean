import Verif.ConcStep3

/-!
# Proof rules for the actions of the B-link trees
-/

set_option linter.unusedSectionVars false

namespace BT
open Spec
variable {K V : Type} [LinearOrder K] {cfg : Cfg K} {w w' : World K V} {t : Tid} {p : Ptr}

/-- Weakest precondition in the logic of the B-link trees. -/
def WP (cfg : Cfg K) (t : Tid) {α : Type} (m : Prog K V α) (Q : α → World K V → Prop) (w : World K V) : Prop :=
  (blg V cfg).wp t m Q w

/-- Steps of thread `t` that keep the invariant and respect the other threads. -/
abbrev OkB (cfg : Cfg K) (t : Tid) (w w' : World K V) : Prop := (blg V cfg).Ok t w w'

theorem OkB.refl (h : CInv cfg w) : OkB cfg t w w := ⟨h, fun u _ => Rely.refl u w, fun _ h => h, rfl, rfl⟩
theorem OkB.trans {w1 w2 : World K V} (h : OkB cfg t w w1) (h' : OkB cfg t w1 w2) : OkB cfg t w w2 :=
  ⟨h'.inv, fun u hu => Rely.trans (h.guar u hu) (h'.guar u hu), fun x hx => h'.past x (h.past x hx), h'.keep.1.trans h.keep.1, h'.keep.2.trans h.keep.2⟩
theorem OkB.ext (h : OkB cfg t w w') : Ext w w' :=
  (show Rely (t + 1) w w' from h.guar (t + 1) (Nat.succ_ne_self t)).kp.ext

/-- Between `w` and `w'` the tree changes no page that is published, as long as thread `t` is the only one that writes. -/
def Alone (t : Tid) (w w' : World K V) : Prop :=
  w.solo = true → w.Wr t → (∀ p, w.Pub p → w'.heap p = w.heap p) ∧ w'.mem.root = w.mem.root

theorem Alone.trans {w1 w2 : World K V} (h : Alone t w w1) (k : w1.solo = w.solo ∧ (w.Wr t → w1.Wr t)) (e : Ext w w1)
    (h' : Alone t w1 w2) : Alone t w w2 := by
  intro hs hw
  obtain ⟨a, b⟩ := h hs hw
  obtain ⟨a', b'⟩ := h' (k.1.trans hs) (k.2 hw)
  exact ⟨fun p hp => (a' p (e.pub hp)).trans (a p hp), b'.trans b⟩

/-- The root pointer does not move while thread `t` shrinks the tree or owns the root alone on its level.  Without right links
(`strict`), it is enough that it owns the root. -/
def RootK (t : Tid) (w w' : World K V) : Prop :=
  (w.shr = some t → w'.mem.root = w.mem.root ∧ w'.top = w.top) ∧
  (∀ n, w.Own t w.mem.root → w.st w.mem.root = .live → w.heap w.mem.root = some n → (w.strict = true ∨ n.high = none) →
    w'.mem.root = w.mem.root ∧ w'.top = w.top) ∧ Alone t w w'

theorem Rely.rootK (h : Rely t w w') : RootK t w w' := ⟨h.shr, h.root, h.alone⟩
theorem Rely.kpE (h : Rely t w w') (E : Ptr → Prop) : Kp t E w w' := h.kp.mono (fun _ h => h.elim)
theorem Rely.own (h : Rely t w w') (ho : w.Own t p) : w'.Own t p := (h.kp.own_iff (fun e => e)).2 ho

/-- No exception. -/
abbrev noE : Ptr → Prop := fun _ => False

section rules
variable {α β : Type} {k : β → Prog K V α} {Q : α → World K V → Prop}

theorem WP.ret {a : α} (h : Q a w) : WP cfg t (pure a) Q w := h
theorem WP.stuck : WP cfg t (Prog.stuck : Prog K V α) Q w := trivial
theorem WP.bind {m : Prog K V β} (h : WP cfg t m (fun a w => WP cfg t (k a) Q w) w) : WP cfg t (m >>= k) Q w := Lg.wp_bind h
theorem WP.mono {m : Prog K V α} {Q' : α → World K V → Prop} (h : WP cfg t m Q' w) (hq : ∀ a w, Q' a w → Q a w) :
    WP cfg t m Q w := Lg.wp_mono h hq
theorem WP.lift {r : Res β} {b : β} (h : r = .ok b) (h' : WP cfg t (k b) Q w) : WP cfg t (Prog.lift r >>= k) Q w :=
  Lg.wp_lift h h'

theorem Prog.bind_unit (m : Prog K V Unit) : (m >>= fun _ => pure ()) = m := by
  show Prog.bind m (fun _ => Prog.ret ()) = m
  induction m with
  | ret a => rfl
  | act a k ih => simp only [Prog.bind, ih]
  | ub => rfl
  | stuck => rfl

/-- code at the end of a block -/
theorem WP.unit {m : Prog K V Unit} {Q : Unit → World K V → Prop} (h : WP cfg t (m >>= fun _ => pure ()) Q w) :
    WP cfg t m Q w := by rwa [Prog.bind_unit] at h

theorem WP.act {a : Act K V β} (h : ∀ w1, Rely t w w1 → CInv cfg w1 → a.run t w1.mem ≠ .ub ∧ ∀ b m, a.run t w1.mem = .run (b, m) →
    (m.raced = true ∧ w1.solo = false) ∨ ∃ w2 : World K V, w2.mem = m ∧ OkB cfg t w1 w2 ∧ WP cfg t (k b) Q w2)
    (hq : ∀ w1, Rely t w w1 → CInv cfg w1 → w1.solo = true → a.Asks t w1 := by exact fun _ _ _ _ => trivial)
    (hu : ∀ w1, Rely t w w1 → CInv cfg w1 → a.Public w1 := by exact fun _ _ _ => trivial)
    (ho : cfg.blink = false → ∀ w1, Rely t w w1 → CInv cfg w1 → a.Ordered t w1 := by exact fun _ _ _ _ => trivial) : WP cfg t (Prog.do_ a >>= k) Q w :=
  fun w1 hr hi => ⟨⟨(h w1 hr hi).1, hq w1 hr hi, hu w1 hr hi, fun e => ho e w1 hr hi⟩, (h w1 hr hi).2⟩

/-- Actions with a fixed outcome. -/
theorem WP.run {a : Act K V β} (h : ∀ w1, Rely t w w1 → CInv cfg w1 → ∃ b m, a.run t w1.mem = .run (b, m) ∧
    ∃ w2 : World K V, w2.mem = m ∧ OkB cfg t w1 w2 ∧ WP cfg t (k b) Q w2)
    (hq : ∀ w1, Rely t w w1 → CInv cfg w1 → w1.solo = true → a.Asks t w1 := by exact fun _ _ _ _ => trivial)
    (hu : ∀ w1, Rely t w w1 → CInv cfg w1 → a.Public w1 := by exact fun _ _ _ => trivial)
    (ho : cfg.blink = false → ∀ w1, Rely t w w1 → CInv cfg w1 → a.Ordered t w1 := by exact fun _ _ _ _ => trivial) : WP cfg t (Prog.do_ a >>= k) Q w := by
  refine WP.act (fun w1 hr hi => ?_) hq hu ho
  obtain ⟨b, m, e, h'⟩ := h w1 hr hi
  rw [e]
  refine ⟨by simp, fun b' m' e' => ?_⟩
  cases e'
  exact Or.inr h'

theorem CInv.some_of_pub (h : CInv cfg w) (hp : w.Pub p) : ∃ n, w.heap p = some n := by
  cases hn : w.heap p with
  | some n => exact ⟨n, rfl⟩
  | none => exact absurd ((h.alloc p).1 hn) (fun e => World.not_pub_free e hp)

theorem CInv.some_of_own (h : CInv cfg w) (ho : w.Own t p) : ∃ n, w.heap p = some n := by
  by_cases hp : w.Pub p
  · exact h.some_of_pub hp
  · have := h.lkn p t hp (Or.inl ho)
    cases hn : w.heap p with
    | some n => exact ⟨n, rfl⟩
    | none => rw [(h.alloc p).1 hn] at this; cases this

/-- The kind bit of a page. -/
theorem CInv.kind (h : CInv cfg w) (hp : w.Pub p) {n : Node K V} (hn : w.heap p = some n) :
    n.isInner = decide (w.lvl p ≠ 0) := by
  rcases World.pub_cases hp with e | ⟨τ, q, u, e⟩ | ⟨τ, q, e⟩ | e
  · exact (h.page e hn).ok.kind
  · obtain ⟨-, -, -, -, -, m, f, g⟩ := h.stale p τ q u e
    rw [hn] at f; cases f
    exact g.ok.kind
  · obtain ⟨-, -, -, -, m, f, -, -, g, -⟩ := h.merged p τ q e
    rw [hn] at f; cases f
    exact g.kind
  · obtain ⟨-, m, f, -, -, g⟩ := h.gone p e
    rw [hn] at f; cases f
    exact g.kind

theorem WP.getRoot {k : Ptr → Prog K V α} (h : ∀ w1, Rely t w w1 → CInv cfg w1 → WP cfg t (k w1.mem.root) Q w1) :
    WP cfg t (Prog.getRoot >>= k) Q w :=
  WP.run fun w1 hr hi => ⟨_, _, rfl, w1, rfl, OkB.refl hi, h w1 hr hi⟩

theorem WP.isInner {k : Bool → Prog K V α} (hp : w.Pub p)
    (h : ∀ w1, Rely t w w1 → CInv cfg w1 → WP cfg t (k (decide (w.lvl p ≠ 0))) Q w1) :
    WP cfg t (Prog.isInner p >>= k) Q w := by
  refine WP.run fun w1 hr hi => ?_
  have hp1 := hr.kp.ext.pub hp
  obtain ⟨n, hn⟩ := hi.some_of_pub hp1
  refine ⟨decide (w.lvl p ≠ 0), w1.mem, ?_, w1, rfl, OkB.refl hi, h w1 hr hi⟩
  simp only [Act.run]
  rw [show w1.mem.heap p = some n from hn]
  simp only
  rw [hi.kind hp1 hn, (hr.kp.ext.fixed p hp).1]

theorem WP.peek {k : Node K V → Prog K V α} (hp : w.Pub p)
    (h : ∀ w1 n, Rely t w w1 → CInv cfg w1 → w1.heap p = some n → WP cfg t (k n) Q w1) :
    WP cfg t (Prog.peek p >>= k) Q w := by
  refine WP.run fun w1 hr hi => ?_
  obtain ⟨n, hn⟩ := hi.some_of_pub (hr.kp.ext.pub hp)
  refine ⟨n, w1.mem, ?_, w1, rfl, OkB.refl hi, h w1 n hr hi hn⟩
  simp only [Act.run]
  rw [show w1.mem.heap p = some n from hn]

theorem Lk.holds_own (h : w.Own t p) : (w.lk p).holds t = true := by
  rcases h with h | h <;> simp [Lk.holds, h]

/-- Reading an owned page, with a ghost step. -/
theorem WP.loadG {k : Node K V → Prog K V α} {n : Node K V} (ho : w.Own t p) (hn : w.heap p = some n)
    (h : ∀ w1, Rely t w w1 → CInv cfg w1 → w1.heap p = some n → w1.st p = w.st p →
      ∃ w2 : World K V, w2.mem = w1.mem ∧ OkB cfg t w1 w2 ∧ WP cfg t (k n) Q w2) :
    WP cfg t (Prog.load p >>= k) Q w := by
  refine WP.run fun w1 hr hi => ?_
  obtain ⟨a, b⟩ := hr.kp.own p (fun e => e) ho
  rw [hn] at a
  refine ⟨n, w1.mem, ?_, h w1 hr hi a b⟩
  simp only [Act.run]
  rw [show w1.mem.heap p = some n from a]
  simp only
  rw [if_pos (Lk.holds_own (hr.own ho))]

theorem WP.load {k : Node K V → Prog K V α} {n : Node K V} (ho : w.Own t p) (hn : w.heap p = some n)
    (h : ∀ w1, Rely t w w1 → CInv cfg w1 → WP cfg t (k n) Q w1) : WP cfg t (Prog.load p >>= k) Q w :=
  WP.loadG ho hn fun w1 hr hi _ _ => ⟨w1, rfl, OkB.refl hi, h w1 hr hi⟩

theorem Rely.mem_s (h : Rely t w w') (hs : t ∈ (w.lk p).s) : t ∈ (w'.lk p).s := by
  rw [← List.count_pos_iff, h.s p, List.count_pos_iff]; exact hs

/-- Reading a page under a shared lock, with a ghost step. -/
theorem WP.loadSG {k : Node K V → Prog K V α} (hs : t ∈ (w.lk p).s) (hp : w.Pub p)
    (h : ∀ w1 n, Rely t w w1 → CInv cfg w1 → w1.heap p = some n → w.heap p = some n → t ∈ (w1.lk p).s →
      ∃ w2 : World K V, w2.mem = w1.mem ∧ OkB cfg t w1 w2 ∧ WP cfg t (k n) Q w2) :
    WP cfg t (Prog.load p >>= k) Q w := by
  refine WP.run fun w1 hr hi => ?_
  obtain ⟨n, hn⟩ := hi.some_of_pub (hr.kp.ext.pub hp)
  have hs' := hr.mem_s hs
  refine ⟨n, w1.mem, ?_, h w1 n hr hi hn ((hr.sheap p hs).symm.trans hn) hs'⟩
  simp only [Act.run]
  rw [show w1.mem.heap p = some n from hn]
  simp only
  rw [if_pos (by simp [Lk.holds, hs'])]

theorem WP.loadS {k : Node K V → Prog K V α} (hs : t ∈ (w.lk p).s) (hp : w.Pub p)
    (h : ∀ w1 n, Rely t w w1 → CInv cfg w1 → w1.heap p = some n → w.heap p = some n → t ∈ (w1.lk p).s →
      WP cfg t (k n) Q w1) : WP cfg t (Prog.load p >>= k) Q w :=
  WP.loadSG hs hp fun w1 n a b c d e => ⟨w1, rfl, OkB.refl b, h w1 n a b c d e⟩

theorem WP.lockS {k : Unit → Prog K V α} (hp : w.Pub p)
    (h : ∀ w', Kp t noE w w' → CInv cfg w' → t ∈ (w'.lk p).s → WP cfg t (k ()) Q w') :
    WP cfg t (Prog.lockS p >>= k) Q w := by
  refine WP.act fun w1 hr hi => ?_
  have hp1 := hr.kp.ext.pub hp
  obtain ⟨n, hn⟩ := hi.some_of_pub hp1
  simp only [Act.run]
  rw [show w1.mem.heap p = some n from hn]
  simp only
  split
  · next hx =>
    refine ⟨by simp, fun b m e => Or.inr ?_⟩
    cases e
    have hl : LkOk t (w1.lk p) { w1.lk p with s := t :: (w1.lk p).s } :=
      ⟨fun u hu => (by rw [hx] at hu; cases hu), fun _ _ => Iff.rfl, fun _ _ => Iff.rfl,
        fun u hu => List.count_cons_of_ne (Ne.symm hu), le_refl _, fun _ _ => rfl⟩
    have hok := ok_setLk (cfg := cfg) hi hl (Or.inl hp1) (fun τ q e => by
      obtain ⟨-, b, -⟩ := hi.stale p τ q t e
      exact b)
    exact ⟨_, rfl, hok, h _ (hr.kp.trans (kp_setS rfl rfl hp1)) hok.inv (by rw [World.setLk_same]; simp)⟩
  · exact ⟨by simp, fun b m e => by cases e⟩

theorem WP.unlockS {k : Unit → Prog K V α} (hp : w.Pub p) (hs : t ∈ (w.lk p).s)
    (h : ∀ w', Kp t noE w w' → CInv cfg w' → WP cfg t (k ()) Q w') :
    WP cfg t (Prog.unlockS p >>= k) Q w := by
  refine WP.run fun w1 hr hi => ?_
  have hp1 := hr.kp.ext.pub hp
  have hs1 := hr.mem_s hs
  have hl : LkOk t (w1.lk p) { w1.lk p with s := (w1.lk p).s.erase t } :=
    ⟨fun u hu => (by
        obtain ⟨-, b⟩ := hi.lkx p u hu
        rw [b] at hs1; cases hs1), fun _ _ => Iff.rfl, fun _ _ => Iff.rfl,
      fun u hu => List.count_erase_of_ne hu, le_refl _, fun _ _ => rfl⟩
  have hok := ok_setLk (cfg := cfg) hi hl (Or.inl hp1) (fun τ q e => by
    obtain ⟨-, b, -⟩ := hi.stale p τ q t e
    exact b)
  refine ⟨(), _, by simp only [Act.run]; rw [if_pos hs1]; rfl, _, rfl, hok, h _ (hr.kp.trans (kp_setS rfl rfl hp1)) hok.inv⟩

theorem Rely.noSelf (hr : Rely t w w') (hf : w.solo = true → ¬ w.Own t p) (hs : w'.solo = true) : ¬ w'.Own t p :=
  fun ho => hf (hr.kp.wr.1.symm.trans hs) ((hr.kp.own_iff (fun e => e)).1 ho)

theorem WP.lockSIX {k : Unit → Prog K V α} (hp : w.Pub p) (hf : w.solo = true → ¬ w.Own t p) (hd : cfg.blink = false → w.Before t p)
    (h : ∀ w', ¬ w.Own t p → Kp t (· = p) w w' → CInv cfg w' → RootK t w w' → (w'.lk p).six = some t → WP cfg t (k ()) Q w') :
    WP cfg t (Prog.lockSIX p >>= k) Q w := by
  refine WP.act (fun w1 hr hi => ?_) (fun w1 hr _ => hr.noSelf hf) (ho := fun e w1 hr _ => ⟨hr.kp.ext.pub hp, (hd e).rely hp hr⟩)
  have hp1 := hr.kp.ext.pub hp
  obtain ⟨n, hn⟩ := hi.some_of_pub hp1
  simp only [Act.run]
  rw [show w1.mem.heap p = some n from hn]
  simp only
  split
  · next hx =>
    refine ⟨by simp, fun b m e => Or.inr ?_⟩
    cases e
    have hno : ¬ w.Own t p := by
      intro ho
      have := hr.own ho
      unfold World.Own World.lk at this
      rw [hx.1, hx.2] at this
      simp at this
    have hl : LkOk t (w1.lk p) { w1.lk p with six := some t } :=
      ⟨fun u hu => (by rw [hx.1] at hu; cases hu), fun u hu => (by
          show some t = some u ↔ (w1.mem.lk p).six = some u
          rw [hx.2]; simp; exact fun e => hu e.symm), fun _ _ => Iff.rfl, fun _ _ => rfl, le_refl _, fun _ _ => rfl⟩
    have hok := ok_setLk (cfg := cfg) hi hl (Or.inl hp1) (fun τ q e => Or.inl rfl)
    exact ⟨_, rfl, hok, h _ hno ((hr.kpE _).trans (kp_setLk rfl)) hok.inv hr.rootK (by rw [World.setLk_same])⟩
  · exact ⟨by simp, fun b m e => by cases e⟩

theorem WP.unlockSIX {k : Unit → Prog K V α} (hp : w.Pub p) (h6 : (w.lk p).six = some t) (hns : ∀ τ q, w.st p ≠ .stale τ q t)
    (h : ∀ w', Kp t (· = p) w w' → CInv cfg w' → RootK t w w' → ¬ w'.Own t p → WP cfg t (k ()) Q w') :
    WP cfg t (Prog.unlockSIX p >>= k) Q w := by
  refine WP.run fun w1 hr hi => ?_
  have hp1 := hr.kp.ext.pub hp
  have h61 : (w1.lk p).six = some t := (hr.kp.six p (fun e => e)).2 h6
  have hx1 : (w1.lk p).x = none := by
    cases hx : (w1.lk p).x with
    | none => rfl
    | some u => rw [(hi.lkx p u hx).1] at h61; cases h61
  have hl : LkOk t (w1.lk p) { w1.lk p with six := none } :=
    ⟨fun u hu => (by rw [hx1] at hu; cases hu), fun u hu => (by
        show none = some u ↔ _
        rw [h61]; simp; exact fun e => hu e.symm), fun _ _ => Iff.rfl, fun _ _ => rfl, le_refl _, fun _ _ => rfl⟩
  have hok := ok_setLk (cfg := cfg) hi hl (Or.inl hp1) (fun τ q e => absurd ((hr.kp.noStale p τ q).1 e) (hns τ q))
  exact ⟨(), _, by simp only [Act.run]; rw [if_pos h61]; rfl, _, rfl, hok, h _ ((hr.kpE _).trans (kp_setLk rfl)) hok.inv hr.rootK
    (by unfold World.Own; rw [World.setLk_same]; simp [hx1])⟩

theorem WP.upgradeX {k : Unit → Prog K V α} (hp : w.Pub p ∨ w.st p = .priv t) (h6 : (w.lk p).six = some t)
    (h : ∀ w', Kp t (· = p) w w' → CInv cfg w' → RootK t w w' → (w'.lk p).x = some t → w'.heap p = w.heap p → w'.st p = w.st p →
      WP cfg t (k ()) Q w') : WP cfg t (Prog.upgradeX p >>= k) Q w := by
  refine WP.act fun w1 hr hi => ?_
  obtain ⟨e1, e2⟩ := hr.kp.own p (fun e => e) (Or.inl h6)
  have hp1 : w1.Pub p ∨ w1.st p = .priv t := by
    rcases hp with hp | hp
    · exact Or.inl (hr.kp.ext.pub hp)
    · exact Or.inr (e2.trans hp)
  have h61 : (w1.lk p).six = some t := (hr.kp.six p (fun e => e)).2 h6
  simp only [Act.run]
  rw [if_pos h61]
  split
  · next hs =>
    refine ⟨by simp, fun b m e => Or.inr ?_⟩
    cases e
    have hx1 : (w1.lk p).x = none := by
      cases hx : (w1.lk p).x with
      | none => rfl
      | some u => rw [(hi.lkx p u hx).1] at h61; cases h61
    have hl : LkOk t (w1.lk p) { w1.lk p with six := none, x := some t } :=
      ⟨fun u hu => ⟨rfl, hs⟩, fun u hu => (by
          show none = some u ↔ _
          rw [h61]; simp; exact fun e => hu e.symm), fun u hu => (by
          show some t = some u ↔ _
          rw [hx1]; simp; exact fun e => hu e.symm), fun _ _ => rfl, le_refl _, fun _ h => absurd hx1 h⟩
    have hok := ok_setLk (cfg := cfg) hi hl hp1 (fun τ q e => Or.inr rfl)
    exact ⟨_, rfl, hok, h _ ((hr.kpE _).trans (kp_setLk rfl)) hok.inv hr.rootK (by rw [World.setLk_same]) e1 e2⟩
  · exact ⟨by simp, fun b m e => by cases e⟩

theorem WP.downgradeSIX {k : Unit → Prog K V α} (hp : w.Pub p ∨ w.st p = .priv t) (hx : (w.lk p).x = some t)
    (h : ∀ w', Kp t (· = p) w w' → CInv cfg w' → RootK t w w' → (w'.lk p).six = some t → w'.heap p = w.heap p → w'.st p = w.st p →
      WP cfg t (k ()) Q w') : WP cfg t (Prog.downgradeSIX p >>= k) Q w := by
  refine WP.run fun w1 hr hi => ?_
  obtain ⟨e1, e2⟩ := hr.kp.own p (fun e => e) (Or.inr hx)
  have hp1 : w1.Pub p ∨ w1.st p = .priv t := by
    rcases hp with hp | hp
    · exact Or.inl (hr.kp.ext.pub hp)
    · exact Or.inr (e2.trans hp)
  have hx1 : (w1.lk p).x = some t := (hr.kp.x p (fun e => e)).2 hx
  obtain ⟨h61, hs1⟩ := hi.lkx p t hx1
  have hl : LkOk t (w1.lk p) { w1.lk p with x := none, six := some t, ver := (w1.lk p).ver + 1 } :=
    ⟨fun u hu => (by cases hu), fun u hu => (by
        show some t = some u ↔ _
        rw [h61]; simp; exact fun e => hu e.symm), fun u hu => (by
        show none = some u ↔ _
        rw [hx1]; simp; exact fun e => hu e.symm), fun _ _ => rfl, Nat.le_succ _, fun h _ => absurd h (Nat.succ_ne_self _)⟩
  have hok := ok_setLk (cfg := cfg) hi hl hp1 (fun τ q e => Or.inl rfl)
  exact ⟨(), _, by simp only [Act.run]; rw [if_pos hx1]; rfl, _, rfl, hok,
    h _ ((hr.kpE _).trans (kp_setLk rfl)) hok.inv hr.rootK (by rw [World.setLk_same]) e1 e2⟩

theorem WP.unlockX {k : Unit → Prog K V α} (hp : w.Pub p) (hx : (w.lk p).x = some t) (hns : ∀ τ q, w.st p ≠ .stale τ q t)
    (h : ∀ w', Kp t (· = p) w w' → CInv cfg w' → RootK t w w' → ¬ w'.Own t p → WP cfg t (k ()) Q w') :
    WP cfg t (Prog.unlockX p >>= k) Q w := by
  refine WP.run fun w1 hr hi => ?_
  have hp1 := hr.kp.ext.pub hp
  have hx1 : (w1.lk p).x = some t := (hr.kp.x p (fun e => e)).2 hx
  obtain ⟨h61, hs1⟩ := hi.lkx p t hx1
  have hl : LkOk t (w1.lk p) { w1.lk p with x := none, ver := (w1.lk p).ver + 1 } :=
    ⟨fun u hu => (by cases hu), fun _ _ => Iff.rfl, fun u hu => (by
        show none = some u ↔ _
        rw [hx1]; simp; exact fun e => hu e.symm), fun _ _ => rfl, Nat.le_succ _, fun h _ => absurd h (Nat.succ_ne_self _)⟩
  have hok := ok_setLk (cfg := cfg) hi hl (Or.inl hp1) (fun τ q e => absurd ((hr.kp.noStale p τ q).1 e) (hns τ q))
  exact ⟨(), _, by simp only [Act.run]; rw [if_pos hx1]; rfl, _, rfl, hok, h _ ((hr.kpE _).trans (kp_setLk rfl)) hok.inv hr.rootK
    (by unfold World.Own; rw [World.setLk_same]; simp [h61])⟩

/-- Locking a page nobody else knows. -/
theorem WP.lockX {k : Unit → Prog K V α} (hp : w.st p = .priv t)
    (h : ∀ w', Kp t (· = p) w w' → CInv cfg w' → (w'.lk p).x = some t → w'.heap p = w.heap p → w'.st p = .priv t →
      WP cfg t (k ()) Q w') : WP cfg t (Prog.lockX p >>= k) Q w := by
  refine WP.act (fun w1 hr hi => ?_) (fun w1 hr _ _ => (hr.kp.priv p (fun e => e) hp).1)
    (ho := fun _ w1 hr _ => (hr.kp.priv p (fun e => e) hp).1)
  obtain ⟨e1, e2, -⟩ := hr.kp.priv p (fun e => e) hp
  simp only [Act.run]
  split
  · next hn =>
    have := (hi.alloc p).1 hn
    rw [e1] at this; cases this
  · split
    · next hx =>
      refine ⟨by simp, fun b m e => Or.inr ?_⟩
      cases e
      have hl : LkOk t (w1.lk p) { w1.lk p with x := some t } :=
        ⟨fun u hu => ⟨hx.2.1, hx.2.2⟩, fun _ _ => Iff.rfl, fun u hu => (by
            show some t = some u ↔ (w1.mem.lk p).x = some u
            rw [hx.1]; simp; exact fun e => hu e.symm), fun _ _ => rfl, le_refl _, fun _ h => absurd hx.1 h⟩
      have hok := ok_setLk (cfg := cfg) hi hl (Or.inr e1) (fun τ q e => Or.inr rfl)
      exact ⟨_, rfl, hok, h _ ((hr.kpE _).trans (kp_setLk rfl)) hok.inv (by rw [World.setLk_same]) e2 e1⟩
    · exact ⟨by simp, fun b m e => by cases e⟩

theorem WP.store {k : Unit → Prog K V α} {n : Node K V} (hx : (w.lk p).x = some t) (hpub : n.removed = true → w.Pub p ∧ ¬ w.Dead p)
    (h : ∀ w1, Rely t w w1 → CInv cfg w1 → (w1.lk p).x = some t → w1.heap p = w.heap p → w1.st p = w.st p →
      ∃ w2 : World K V, w2.mem = w1.mem.setHeap p n ∧ OkB cfg t w1 w2 ∧ WP cfg t (k ()) Q w2) :
    WP cfg t (Prog.store p n >>= k) Q w := by
  refine WP.run (fun w1 hr hi => ?_) (hu := fun w1 hr _ e => ⟨hr.kp.ext.pub (hpub e).1, fun h => (hpub e).2 (by
    unfold World.Dead at h ⊢
    rwa [(hr.kp.own p (fun e => e) (Or.inr hx)).2] at h)⟩)
  obtain ⟨e1, e2⟩ := hr.kp.own p (fun e => e) (Or.inr hx)
  have hx1 : (w1.lk p).x = some t := (hr.kp.x p (fun e => e)).2 hx
  obtain ⟨m, hm⟩ := hi.some_of_own (Or.inr hx1)
  refine ⟨(), _, ?_, h w1 hr hi hx1 e1 e2⟩
  simp only [Act.run]
  rw [show w1.mem.heap p = some m from hm]
  simp only
  rw [if_pos hx1]

theorem kp_alloc (hI : CInv cfg w) (n : Node K V) (E : Ptr → Prop) : Kp t E w (w.alloc t n) := by
  have hf := hI.fresh_free
  refine ⟨ext_alloc w t n hf, rfl, fun p τ q => w.alloc_st t n hf ⟨by simp, by simp⟩, fun _ => Iff.rfl, Iff.rfl,
    fun _ _ => Iff.rfl, fun _ _ => Iff.rfl, fun q _ ho => w.alloc_ne t n ?_, fun q _ hq => ?_, fun _ _ q _ hq => (w.alloc_ne t n ?_).1, fun _ _ => rfl, rfl, id⟩
  · rintro rfl
    have := hI.lkn _ t (World.not_pub_free hf) (Or.inl ho)
    rw [hf] at this; cases this
  · have : q ≠ w.mem.fresh := by rintro rfl; rw [hf] at hq; cases hq
    obtain ⟨a, b⟩ := w.alloc_ne t n this
    exact ⟨b.trans hq, a, rfl⟩
  · rintro rfl
    exact World.not_pub_free hf hq

theorem WP.alloc {k : Ptr → Prog K V α} {n : Node K V}
    (h : ∀ w' q, Kp t noE w w' → CInv cfg w' → RootK t w w' → w'.st q = .priv t → w'.heap q = some n → w.st q ≠ .priv t →
      WP cfg t (k q) Q w') :
    WP cfg t (Prog.alloc n >>= k) Q w := by
  refine WP.run fun w1 hr hi => ?_
  have hok := ok_alloc (cfg := cfg) (t := t) hi n
  obtain ⟨a, b⟩ := w1.alloc_same t n
  refine ⟨w1.mem.fresh, _, rfl, w1.alloc t n, rfl, hok,
    h _ _ (hr.kp.trans (kp_alloc hi n _)) hok.inv ⟨hr.shr, hr.root, fun hs hw => ?_⟩ b a (fun e => ?_)⟩
  · obtain ⟨x, y⟩ := hr.alone hs hw
    refine ⟨fun q hq => (w1.alloc_ne t n ?_).1.trans (x q hq), y⟩
    rintro rfl
    exact World.not_pub_free hi.fresh_free (hr.kp.ext.pub hq)
  have := (hr.kp.priv _ (fun e => e) e).1
  rw [hi.fresh_free] at this; cases this

theorem WP.retire {k : Unit → Prog K V α} (hp : w.Pub p) (hm : w.lvl p = 0 → ∃ τ q, w.st p = .merged τ q) (h : ∀ w', Kp t noE w w' → CInv cfg w' → RootK t w w' → WP cfg t (k ()) Q w') :
    WP cfg t (Prog.retire p >>= k) Q w := by
  refine WP.run (fun w1 hr hi => ?_) (hu := fun w1 hr _ => ⟨hr.kp.ext.pub hp, fun e => ?_⟩)
  on_goal 2 =>
    rw [(hr.kp.ext.fixed p hp).1] at e
    obtain ⟨τ, q, e⟩ := hm e
    have := hr.kp.ext.st p
    rw [e] at this
    exact ⟨τ, q, this⟩
  have hok := ok_gc (cfg := cfg) (t := t) hi (p :: w1.mem.gc)
  refine ⟨(), _, rfl, { w1 with mem := { w1.mem with gc := p :: w1.mem.gc } }, rfl, hok, h _ (hr.kp.trans ?_) hok.inv hr.rootK⟩
  exact ⟨Ext.same rfl rfl rfl rfl rfl (le_refl _) (fun _ _ => rfl), rfl, fun _ _ _ => Iff.rfl, fun _ => Iff.rfl, Iff.rfl,
    fun _ _ => Iff.rfl, fun _ _ => Iff.rfl, fun _ _ _ => ⟨rfl, rfl⟩, fun _ _ h => ⟨h, rfl, rfl⟩, fun _ _ _ _ _ => rfl, fun _ _ => rfl, rfl, id⟩

theorem WP.note {k : Unit → Prog K V α} {b : Bool} (hs : w.solo = true → b = false)
    (h : b = false → ∀ w1, Rely t w w1 → CInv cfg w1 → WP cfg t (k ()) Q w1) :
    WP cfg t (Prog.note b >>= k) Q w := by
  refine WP.act fun w1 hr hi => ⟨by simp [Act.run], fun c m e => ?_⟩
  cases e
  cases b with
  | true =>
    left
    refine ⟨by simp, ?_⟩
    show w1.solo = false
    rw [hr.kp.wr.1]
    cases h : w.solo with
    | false => rfl
    | true => cases hs h
  | false =>
    right
    refine ⟨w1, ?_, OkB.refl hi, h rfl w1 hr hi⟩
    simp

theorem WP.setRoot {k : Unit → Prog K V α} {e : Ptr}
    (hs : ∀ w1, Rely t w w1 → CInv cfg w1 → w1.solo = true → w1.mem.root = e)
    (hm : ∀ w1, Rely t w w1 → CInv cfg w1 → ∀ n, w1.heap p = some n → n.removed = false)
    (h : ∀ w1, Rely t w w1 → CInv cfg w1 → w1.mem.root = e →
      ∃ w2 : World K V, w2.mem = { w1.mem with root := p } ∧ OkB cfg t w1 w2 ∧ WP cfg t (k ()) Q w2) :
    WP cfg t (Prog.setRoot e p >>= k) Q w := by
  refine WP.act (fun w1 hr hi => ⟨by simp [Act.run], fun c m e' => ?_⟩) (hu := hm)
  cases e'
  by_cases hroot : w1.mem.root = e
  · right
    obtain ⟨w2, h1, h2, h3⟩ := h w1 hr hi hroot
    refine ⟨w2, ?_, h2, h3⟩
    rw [h1]
    simp [hroot]
  · left
    refine ⟨by simp [hroot], ?_⟩
    show w1.solo = false
    cases h : w1.solo with
    | false => rfl
    | true => exact absurd (hs w1 hr hi h) hroot

end rules
end BT
