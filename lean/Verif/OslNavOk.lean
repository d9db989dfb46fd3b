import Verif.ConcOpt
import Verif.OslConc

/-!
# The searches of OSL
-/

set_option linter.unusedSectionVars false

namespace BT
open Spec
variable {K V : Type} [LinearOrder K] {cfg : Cfg K} {w w' : World K V} {t : Tid} {p : Ptr}

theorem World.ge_zero (hp : w.Pub p) : w.Ge 0 p := by
  unfold World.Ge
  unfold World.Pub at hp
  cases e : w.st p <;> rw [e] at hp <;> simp at hp ⊢

/-- Where a search goes from a page that is not the right one. -/
theorem AtP.next {t0 : Nat} {k : K} {n : Node K V} (h : AtP w t0 k p) (hI : CInv cfg w) (hl : Linked cfg (w.lvl p)) (hn : w.heap p = some n)
    (hc : ¬ (n.removed = false ∧ n.compHighKey k = true)) :
    (∃ q, n.next = some q ∧ w.Ge t0 q ∧ w.lvl q = w.lvl p ∧ w.lo q ≤ .key k ∧ (w.Gone q → w.Gone p)) ∨
      (w.st p = .gone ∧ n.next = none ∧ w.lvl p ≠ 0) := by
  cases hr : n.removed with
  | true =>
    rcases hI.fwd h.ge hn hr with ⟨q, a, b, c, d, e, g⟩ | e
    · refine Or.inl ⟨q, a, b, c, ?_, ?_⟩
      · rcases h.low with x | x
        · exact absurd x g
        · exact le_trans d x
      · unfold World.Gone; rw [e]; exact id
    · exact Or.inr e
  | false =>
    obtain ⟨τ, hs⟩ := hI.snap h.ge h.now hn hr
    exact Or.inl (hs.sibling hl (k := k) (fun e => hc ⟨hr, e⟩))

/-- The same for a page known by a stack only. -/
theorem CInv.next {k : K} {n : Node K V} (hI : CInv cfg w) (hl : Linked cfg (w.lvl p)) (hp : w.Pub p) (hlo : w.Gone p ∨ w.lo (w.rep p) ≤ .key k)
    (hn : w.heap p = some n) (hc : ¬ (n.removed = false ∧ n.compHighKey k = true)) :
    (∃ q, n.next = some q ∧ w.Pub q ∧ w.lvl q = w.lvl p ∧ (w.Gone q ∨ w.lo (w.rep q) ≤ .key k) ∧ (w.Gone q ↔ w.Gone p)) ∨
      (w.st p = .gone ∧ n.next = none ∧ w.lvl p ≠ 0) := by
  cases hr : n.removed with
  | true =>
    rcases hI.fwd (World.ge_zero hp) hn hr with ⟨q, a, b, c, d, e, g⟩ | e
    · refine Or.inl ⟨q, a, b.pub, c, ?_, ?_⟩
      · unfold World.Gone at hlo ⊢
        rw [e]; exact hlo
      · unfold World.Gone; rw [e]
    · exact Or.inr e
  | false =>
    obtain ⟨τ, hs⟩ := hI.snap (World.ge_zero hp) (Nat.zero_le _) hn hr
    obtain ⟨q, a, b, c, d, e⟩ := hs.sibling' hl (k := k) (fun e => hc ⟨hr, e⟩)
    exact Or.inl ⟨q, a, b.pub, c, Or.inr (le_trans (hI.rep q b.pub).2.2 d), e⟩

/-- An unmarked page that the thread has just locked is part of the tree. -/
theorem CInv.live_of_own (hI : CInv cfg w) (ho : w.Own t p) (hp : w.Pub p) (hns : w.NoStale t) {n : Node K V} (hn : w.heap p = some n)
    (hr : n.removed = false) : w.st p = .live := by
  rcases World.pub_cases hp with e | ⟨τ, q, u, e⟩ | ⟨τ, q, e⟩ | e
  · exact e
  · obtain ⟨-, ho', -⟩ := hI.stale p τ q u e
    have : u = t := by
      rcases ho with h | h <;> rcases ho' with h' | h'
      · rw [h] at h'; exact (Option.some.inj h').symm
      · rw [(hI.lkx p u h').1] at h; cases h
      · rw [(hI.lkx p t h).1] at h'; cases h'
      · rw [h] at h'; exact (Option.some.inj h').symm
    subst this
    exact absurd e (hns.1 p τ q)
  · obtain ⟨-, -, -, -, m, a, b, -⟩ := hI.merged p τ q e
    rw [hn] at a; cases a; rw [hr] at b; cases b
  · obtain ⟨-, m, a, b, -⟩ := hI.gone p e
    rw [hn] at a; cases a; rw [hr] at b; cases b

namespace COsl

/-- A page that covers the key, as of its version. -/
structure Found (w' : World K V) (t0 : Nat) (k : K) (q : Ptr) (n : Node K V) (v : Nat) : Prop where
  seen : Seen w' q n v
  ge : w'.Ge t0 q
  now : t0 ≤ w'.now
  removed : n.removed = false
  low : w'.lo q ≤ .key k
  high : n.compHighKey k = true

theorem Found.last {t0 v : Nat} {k : K} {n : Node K V} (h : Found w t0 k p n v) (r : Rely t w w') (hx : (w'.lk p).x = none)
    (hv : (w'.lk p).ver = v) : Found w' t0 k p n v :=
  ⟨h.seen.last r hx hv, r.kp.ext.ge h.ge h.now, le_trans h.now r.kp.ext.now, h.removed,
    by rw [(r.kp.ext.fixed p h.ge.pub).2.1]; exact h.low, h.high⟩

theorem Found.atp {t0 v : Nat} {k : K} {n : Node K V} (h : Found w t0 k p n v) : AtP w t0 k p := ⟨h.ge, h.now, Or.inr h.low⟩

def checkOPost (cfg : Cfg K) (t : Tid) (w : World K V) (t0 : Nat) (k : K) (p : Ptr) : Option (Ptr × Nat) → World K V → Prop
  | none, w' => CInv cfg w' ∧ Rely t w w' ∧ w'.Gone p ∧ w.lvl p ≠ 0
  | some (q, v), w' => CInv cfg w' ∧ Rely t w w' ∧ w'.lvl q = w.lvl p ∧ (w'.Gone q → w'.Gone p) ∧ ∃ n, Found w' t0 k q n v

theorem checkOPost.from {t0 : Nat} {k : K} {p q : Ptr} {w1 w2 : World K V} {o : Option (Ptr × Nat)} (h : checkOPost cfg t w1 t0 k q o w2)
    (r : Rely t w w1) (hp : w.Pub p) (hq : w1.Pub q) (hl : w1.lvl q = w1.lvl p) (hg : w1.Gone q → w1.Gone p) :
    checkOPost cfg t w t0 k p o w2 := by
  have f := (r.kp.ext.fixed p hp).1
  have p1 := r.kp.ext.pub hp
  match o with
  | none =>
    obtain ⟨a, b, c, d⟩ := h
    exact ⟨a, r.trans' b, b.kp.ext.gone_imp hq p1 (by rw [hl]) hg c, by rw [← f, ← hl]; exact d⟩
  | some (q', v) =>
    obtain ⟨a, b, c, d, e⟩ := h
    exact ⟨a, r.trans' b, by rw [c, hl, f], fun g => b.kp.ext.gone_imp hq p1 (by rw [hl]) hg (d g), e⟩

theorem checkO_ok (k : K) (t0 : Nat) : ∀ (f : Nat) (p : Ptr) (w : World K V), AtP w t0 k p → Linked cfg (w.lvl p) →
    WP cfg t (checkO k f p) (checkOPost cfg t w t0 k p) w
  | 0, _, _, _, _ => WP.stuck
  | f + 1, p, w, h, hl => by
    unfold checkO
    have hp := h.ge.pub
    refine WP.getVer hp fun w1 r1 i1 x1 => ?_
    have h1 := h.ext r1.kp.ext
    obtain ⟨n, hn⟩ := i1.some_of_pub h1.ge.pub
    have s1 : Seen w1 p n (w1.lk p).ver := ⟨h1.ge.pub, x1, rfl, hn⟩
    refine WP.peek h1.ge.pub fun w2 n1 r2 i2 hn1 => ?_
    have h2 := h1.ext r2.kp.ext
    refine WP.peek h2.ge.pub fun w3 n2 r3 i3 hn2 => ?_
    have h3 := h2.ext r3.kp.ext
    have again : ∀ w', Rely t w w' → WP cfg t (checkO k f p) (checkOPost cfg t w t0 k p) w' := fun w' r =>
      (checkO_ok k t0 f p w' (h.ext r.kp.ext) (by rw [(r.kp.ext.fixed p hp).1]; exact hl)).mono fun o w2 ho => ho.from r hp (r.kp.ext.pub hp) rfl id
    by_cases hc : n1.removed = false ∧ n2.compHighKey k = true
    · rw [if_pos hc]
      refine WP.same h3.ge.pub (fun w4 r4 i4 x4 v4 => ?_) (fun w4 r4 _ => again w4 (((r1.trans' r2).trans' r3).trans' r4))
      have e1 := s1.mid r2 (r3.trans' r4) x4 v4 hn1
      have e2 := s1.mid (r2.trans' r3) r4 x4 v4 hn2
      subst e1; subst e2
      have r := ((r1.trans' r2).trans' r3).trans' r4
      have h4 := h.ext r.kp.ext
      have s4 := s1.last ((r2.trans' r3).trans' r4) x4 v4
      rw [if_pos rfl]
      refine WP.ret ⟨i4, r, (r.kp.ext.fixed p hp).1, id, n2, s4, h4.ge, h4.now, hc.1, ?_, hc.2⟩
      rcases h4.low with e | e
      · obtain ⟨-, m, a, b, -⟩ := i4.gone p e
        rw [s4.heap] at a; cases a
        rw [hc.1] at b; cases b
      · exact e
    · rw [if_neg hc]
      refine WP.peek h3.ge.pub fun w4 n3 r4 i4 hn3 => ?_
      have h4 := h3.ext r4.kp.ext
      refine WP.same h4.ge.pub (fun w5 r5 i5 x5 v5 => ?_) (fun w5 r5 _ => again w5 ((((r1.trans' r2).trans' r3).trans' r4).trans' r5))
      have e1 := s1.mid r2 ((r3.trans' r4).trans' r5) x5 v5 hn1
      have e2 := s1.mid (r2.trans' r3) (r4.trans' r5) x5 v5 hn2
      have e3 := s1.mid ((r2.trans' r3).trans' r4) r5 x5 v5 hn3
      subst e1; subst e2; subst e3
      have r := (((r1.trans' r2).trans' r3).trans' r4).trans' r5
      have h5 := h.ext r.kp.ext
      have s5 := s1.last (((r2.trans' r3).trans' r4).trans' r5) x5 v5
      rw [if_pos rfl]
      have f5 := (r.kp.ext.fixed p hp).1
      rcases h5.next i5 (by rw [f5]; exact hl) s5.heap hc with ⟨q, a, b, c, d, e⟩ | ⟨a, b, c⟩
      · rw [a]
        exact (checkO_ok k t0 f q w5 ⟨b, h5.now, Or.inr d⟩ (by rw [c, f5]; exact hl)).mono fun o w6 ho => ho.from r hp b.pub c e
      · rw [b]
        refine WP.ret ⟨i5, r, ?_, by rw [← f5]; exact c⟩
        unfold World.Gone
        rw [i5.repSelf p (Or.inr a)]; exact a

def childPost (cfg : Cfg K) (t : Tid) (w : World K V) (t0 : Nat) (k : K) (p : Ptr) : Option (Ptr × Ptr) → World K V → Prop
  | none, w' => CInv cfg w' ∧ Rely t w w'
  | some (q, c), w' => CInv cfg w' ∧ Rely t w w' ∧ w'.lvl q = w.lvl p ∧ (w'.Gone q → w'.Gone p) ∧ (∃ n v, Found w' t0 k q n v) ∧
      AtP w' t0 k c ∧ w'.lvl c + 1 = w'.lvl q ∧ w'.lo c ≤ .key k ∧ (w'.Gone c → w'.Gone q)

theorem searchChild_ok (hb : cfg.blink = true) (k : K) (t0 : Nat) : ∀ (f : Nat) (p : Ptr) (w : World K V), AtP w t0 k p → w.lvl p ≠ 0 →
    WP cfg t (searchChild k f p) (childPost cfg t w t0 k p) w
  | 0, _, _, _, _ => WP.stuck
  | f + 1, p, w, h, hl => by
    unfold searchChild
    have hp := h.ge.pub
    refine WP.bind ((checkO_ok k t0 (f + 1) p w h (Or.inl hb)).mono fun o w1 => ?_)
    match o with
    | none =>
      rintro ⟨i1, r1, -⟩
      exact WP.ret ⟨i1, r1⟩
    | some (q, v) =>
      rintro ⟨i1, r1, l1, g1, n, f1⟩
      refine WP.peek f1.ge.pub fun w2 n' r2 i2 hn2 => ?_
      have q2 := r2.kp.ext.pub f1.ge.pub
      have lq2 : w2.lvl q ≠ 0 := by rw [(r2.kp.ext.fixed q f1.ge.pub).1, l1]; exact hl
      obtain ⟨rc, pos, c, e1, e2⟩ := i2.child_any q2 hn2 lq2 k
      refine WP.lift e1 (WP.lift e2 ?_)
      refine WP.same q2 (fun w3 r3 i3 x3 v3 => ?_) (fun w3 r3 i3 => ?_)
      · have e := f1.seen.mid r2 r3 x3 v3 hn2
        subst e
        rw [if_pos rfl]
        have f3 := f1.last (r2.trans' r3) x3 v3
        have r := (r1.trans' r2).trans' r3
        have fq := ((r2.trans' r3).kp.ext.fixed q f1.ge.pub).1
        obtain ⟨i, hi⟩ := Nat.exists_eq_succ_of_ne_zero (show w3.lvl q ≠ 0 by rw [fq, l1]; exact hl)
        obtain ⟨τ, hs⟩ := i3.snap f3.ge f3.now f3.seen.heap f3.removed
        obtain ⟨rc', pos', c', a1, a2, a3, a4, a5, a6⟩ := hs.child (k := k) f3.low f3.high hi
        rw [e1] at a1; cases a1
        rw [e2] at a2; cases a2
        refine WP.ret ⟨i3, r, by rw [fq, l1], ?_, ⟨_, _, f3⟩, ⟨a3, f3.now, Or.inr a5⟩, by rw [a4, hi], a5, a6⟩
        exact (r2.trans' r3).kp.ext.gone_imp f1.ge.pub (r1.kp.ext.pub hp) (by rw [l1, (r1.kp.ext.fixed p hp).1]) g1
      · simp only [Bool.false_eq_true, if_false]
        have r23 := r2.trans' r3
        have r := r1.trans' r23
        have fq := (r23.kp.ext.fixed q f1.ge.pub).1
        refine (searchChild_ok hb k t0 f q w3 (f1.atp.ext r23.kp.ext) (by rw [fq, l1]; exact hl)).mono fun o w4 => ?_
        have g3 : w3.Gone q → w3.Gone p :=
          r23.kp.ext.gone_imp f1.ge.pub (r1.kp.ext.pub hp) (by rw [l1, (r1.kp.ext.fixed p hp).1]) g1
        match o with
        | none =>
          rintro ⟨i4, r4⟩
          exact ⟨i4, r.trans' r4⟩
        | some (q', c) =>
          rintro ⟨i4, r4, l4, g4, z⟩
          refine ⟨i4, r.trans' r4, by rw [l4, fq, l1], fun g => ?_, z⟩
          refine r4.kp.ext.gone_imp (r23.kp.ext.pub f1.ge.pub) (r.kp.ext.pub hp) ?_ g3 (g4 g)
          rw [fq, l1, (r.kp.ext.fixed p hp).1]

theorem searchLeaf_ok (hb : cfg.blink = true) (k : K) (t0 : Nat) : ∀ (f : Nat) (p : Ptr) (w : World K V), AtP w t0 k p →
    WP cfg t (searchLeaf k f p) (fun q w' => CInv cfg w' ∧ Rely t w w' ∧ w'.lvl q = 0 ∧ AtP w' t0 k q) w
  | 0, _, _, _ => WP.stuck
  | f + 1, p, w, h => by
    unfold searchLeaf
    refine WP.isInner h.ge.pub fun w1 r1 i1 => ?_
    have h1 := h.ext r1.kp.ext
    have l1 := (r1.kp.ext.fixed p h.ge.pub).1
    by_cases hl : w.lvl p = 0
    · simp only [hl]
      exact WP.ret ⟨i1, r1, l1.trans hl, h1⟩
    · rw [if_pos (decide_eq_true hl)]
      refine WP.bind ((searchChild_ok hb k t0 (f + 1) p w1 h1 (by rw [l1]; exact hl)).mono fun o w2 => ?_)
      match o with
      | none =>
        rintro ⟨i2, r2⟩
        refine WP.getRoot fun w3 r3 i3 => ?_
        have r := (r1.trans' r2).trans' r3
        refine (searchLeaf_ok hb k t0 f _ w3 (AtP.root i3 (le_trans h.now r.kp.ext.now) k)).mono ?_
        rintro q w4 ⟨i4, r4, e⟩
        exact ⟨i4, r.trans' r4, e⟩
      | some (q, c) =>
        rintro ⟨i2, r2, -, -, -, a2, -⟩
        refine (searchLeaf_ok hb k t0 f c w2 a2).mono ?_
        rintro q w4 ⟨i4, r4, e⟩
        exact ⟨i4, (r1.trans' r2).trans' r4, e⟩

theorem searchLeafW_ok (hb : cfg.blink = true) (k : K) (t0 : Nat) : ∀ (f : Nat) (s : List Ptr) (p : Ptr) (w : World K V), CInv cfg w → AtP w t0 k p →
    StackOk w (.key k) (w.lvl p) (p :: s) → w.NoStale t → w.Wr t → Up w s p →
    WP cfg t (searchLeafW k f s p) (fun x w' => CInv cfg w' ∧ Rely t w w' ∧ w'.lvl x.1 = 0 ∧ AtP w' t0 k x.1 ∧
      StackOk w' (.key k) 1 x.2 ∧ Up w' x.2 x.1) w
  | 0, _, _, _, _, _, _, _, _, _ => WP.stuck
  | f + 1, s, p, w, hI, h, hs, hns, hg, hup => by
    unfold searchLeafW
    refine WP.isInner h.ge.pub fun w1 r1 i1 => ?_
    have h1 := h.ext r1.kp.ext
    have l1 := (r1.kp.ext.fixed p h.ge.pub).1
    have hs1 := hs.ext r1.kp.ext
    by_cases hl : w.lvl p = 0
    · simp only [hl]
      refine WP.ret ⟨i1, r1, l1.trans hl, h1, ?_, hup.kp0 r1.kp hI i1 hg hns h.ge.pub⟩
      have := hs1.2.2.2
      rwa [hl] at this
    · rw [if_pos (decide_eq_true hl)]
      refine WP.bind ((searchChild_ok hb k t0 (f + 1) p w1 h1 (by rw [l1]; exact hl)).mono fun o w2 => ?_)
      match o with
      | none =>
        rintro ⟨i2, r2⟩
        refine WP.getRoot fun w3 r3 i3 => ?_
        have r := (r1.trans' r2).trans' r3
        refine (searchLeafW_ok hb k t0 f [] _ w3 i3 (AtP.root i3 (le_trans h.now r.kp.ext.now) k) (StackOk.start i3 k (by simp))
          (r.kp.noStaleT hns) (r.kp.wr.2 hg) (fun _ => ⟨by simp, fun _ => rfl⟩)).mono ?_
        rintro x w4 ⟨i4, r4, e⟩
        exact ⟨i4, r.trans' r4, e⟩
      | some (q, c) =>
        rintro ⟨i2, r2, l2, g2, ⟨n, v, f2⟩, a2, lc, loc, gc⟩
        have r := r1.trans' r2
        have l2' : w2.lvl q = w.lvl p := l2.trans l1
        have hs2 := (hs1.ext r2.kp.ext).swap f2.ge.pub l2' (le_trans (i2.rep q f2.ge.pub).2.2 f2.low) g2
        rw [← l2', ← lc] at hs2
        have hs3 := hs2.push a2.ge.pub rfl (le_trans (i2.rep c a2.ge.pub).2.2 loc) gc
        have up3 : Up w2 (q :: s) c := by
          intro s2
          refine ⟨fun b hb' => ?_, by simp⟩
          rcases List.mem_cons.1 hb' with rfl | hb'
          · exact ⟨f2.ge.pub, i2.not_gone s2 (r.kp.wr.2 hg) (r.kp.noStaleT hns) f2.ge.pub f2.seen.heap f2.removed⟩
          · exact (hup.kp0 r.kp hI i2 hg hns h.ge.pub s2).1 b hb'
        refine (searchLeafW_ok hb k t0 f _ c w2 i2 a2 hs3 (r.kp.noStaleT hns) (r.kp.wr.2 hg) up3).mono ?_
        rintro x w4 ⟨i4, r4, e⟩
        exact ⟨i4, r.trans' r4, e⟩

theorem _root_.BT.checkWPost.from {k : K} {p q : Ptr} {w1 w2 : World K V} {o : Option Ptr} (h : checkWPost cfg t w1 k q o w2)
    (r : Kp t noE w w1) (hp : w.Pub p) (hq : w1.Pub q) (hl : w1.lvl q = w1.lvl p) (hg : w1.Gone q ↔ w1.Gone p) :
    checkWPost cfg t w k p o w2 := by
  have f := (r.ext.fixed p hp).1
  have p1 := r.ext.pub hp
  cases o with
  | none =>
    obtain ⟨a, b, c, d⟩ := h
    exact ⟨a, r.trans b, b.ext.gone_imp hq p1 (by rw [hl]) hg.1 c, by rw [← f, ← hl]; exact d⟩
  | some q' =>
    obtain ⟨i4, k4, no4, np4, h64, l4, lv4, g4, lo4, hh4, c4⟩ := h
    exact ⟨i4, r.toE.trans k4, fun e => no4 ((r.own_iff (fun e => e)).2 e), fun e => np4 (r.priv _ (fun e => e) e).1, h64, l4,
      by rw [lv4, hl, f], fun g => g4 (hg.2 (r.ext.gone_of hp g)), lo4, hh4,
      fun hs hw hq => (c4 (r.wr.1.trans hs) (r.wr.2 hw) (r.ext.pub hq)).trans (r.calm hs hw q' (fun e => e) hq)⟩

theorem checkW_ok (hb : cfg.blink = true) (k : K) : ∀ (f : Nat) (p : Ptr) (w : World K V), CInv cfg w → w.Pub p → w.NoStale t →
    (w.Gone p ∨ w.lo (w.rep p) ≤ .key k) → w.Off t (w.lvl p) → WP cfg t (checkW k f p) (checkWPost cfg t w k p) w
  | 0, _, _, _, _, _, _, _ => WP.stuck
  | f + 1, p, w, hI, hp, hns, hlo, hoff => by
    unfold checkW
    refine WP.getVer hp fun w1 r1 i1 x1 => ?_
    have p1 := r1.kp.ext.pub hp
    obtain ⟨n, hn⟩ := i1.some_of_pub p1
    have s1 : Seen w1 p n (w1.lk p).ver := ⟨p1, x1, rfl, hn⟩
    refine WP.peek p1 fun w2 n1 r2 i2 hn1 => ?_
    have p2 := r2.kp.ext.pub p1
    refine WP.peek p2 fun w3 n2 r3 i3 hn2 => ?_
    have p3 := r3.kp.ext.pub p2
    have again : ∀ w', Rely t w w' → CInv cfg w' → WP cfg t (checkW k f p) (checkWPost cfg t w k p) w' := fun w' r i =>
      (checkW_ok hb k f p w' i (r.kp.ext.pub hp) (r.kp.noStaleT hns) (r.kp.ext.low hp hlo)
        (by rw [(r.kp.ext.fixed p hp).1]; exact hoff.kp hI r.kp)).mono fun o w2 ho =>
        ho.from r.kp hp (r.kp.ext.pub hp) rfl Iff.rfl
    by_cases hc : n1.removed = false ∧ n2.compHighKey k = true
    · rw [if_pos hc]
      refine WP.tryLockSIX p3 (fun hs =>
        hoff.kp hI ((r1.trans' r2).trans' r3).kp hs p p3 (((r1.trans' r2).trans' r3).kp.ext.fixed p hp).1) (fun e => by rw [hb] at e; cases e) (fun w4 w5 r4 i4 x4 v4 no4 k5 i5 h65 hh5 st5 => ?_)
        (fun w4 r4 i4 => again w4 (((r1.trans' r2).trans' r3).trans' r4) i4)
      have e1 := s1.mid r2 (r3.trans' r4) x4 v4 hn1
      have e2 := s1.mid (r2.trans' r3) r4 x4 v4 hn2
      subst e1; subst e2
      have r := ((r1.trans' r2).trans' r3).trans' r4
      have s4 := s1.last ((r2.trans' r3).trans' r4) x4 v4
      rw [if_pos rfl]
      have kk : Kp t (· = p) w w5 := (r.kpE _).trans k5
      have hn5 : w5.heap p = some n2 := hh5.trans s4.heap
      have hl : w5.st p = .live := i5.live_of_own (Or.inl h65) (kk.ext.pub hp) (kk.noStaleT hns) hn5 hc.1
      have hle : w5.lo p ≤ .key k := by
        rcases kk.ext.low hp hlo with e | e
        · exact absurd e (i5.rep_live hl)
        · rwa [i5.repSelf p (Or.inl hl)] at e
      exact WP.ret ⟨i5, kk, fun e => no4 (r.own e), fun e => World.not_pub_priv e hp, h65, hl, (kk.ext.fixed p hp).1,
        fun g => i5.rep_live hl (kk.ext.gone_of hp g), hle, ⟨n2, hn5, compHigh_iff.1 hc.2⟩,
        fun hs hw _ => hh5.trans (r.kp.calm hs hw p (fun e => e) hp)⟩
    · rw [if_neg hc]
      refine WP.peek p3 fun w4 n3 r4 i4 hn3 => ?_
      have p4 := r4.kp.ext.pub p3
      refine WP.same p4 (fun w5 r5 i5 x5 v5 => ?_) (fun w5 r5 i5 => again w5 ((((r1.trans' r2).trans' r3).trans' r4).trans' r5) i5)
      have e1 := s1.mid r2 ((r3.trans' r4).trans' r5) x5 v5 hn1
      have e2 := s1.mid (r2.trans' r3) (r4.trans' r5) x5 v5 hn2
      have e3 := s1.mid ((r2.trans' r3).trans' r4) r5 x5 v5 hn3
      subst e1; subst e2; subst e3
      have r := (((r1.trans' r2).trans' r3).trans' r4).trans' r5
      have s5 := s1.last (((r2.trans' r3).trans' r4).trans' r5) x5 v5
      rw [if_pos rfl]
      have f5 := (r.kp.ext.fixed p hp).1
      rcases i5.next (Or.inl hb) s5.pub (r.kp.ext.low hp hlo) s5.heap hc with ⟨q, a, b, c, d, e⟩ | ⟨a, b, c⟩
      · rw [a]
        exact (checkW_ok hb k f q w5 i5 b (r.kp.noStaleT hns) d (by rw [c, f5]; exact hoff.kp hI r.kp)).mono fun o w6 ho => ho.from r.kp hp b c e
      · rw [b]
        refine WP.ret ⟨i5, r.kp, ?_, by rw [← f5]; exact c⟩
        unfold World.Gone
        rw [i5.repSelf p (Or.inr a)]; exact a

/-- A search for the lowest key of `r` meets no other page on the level of `r`. -/
theorem Found.not_level {t0 v : Nat} {k : K} {n : Node K V} {r : Ptr} (h : Found w t0 k p n v) (hI : CInv cfg w) (hr : Held w t r)
    (hlo : w.lo r = .key k) (hb : w.born r ≤ t0) (hp : p ≠ r) : w.lvl p ≠ w.lvl r := by
  intro e
  obtain ⟨m, hm, pm⟩ := hI.live r (hr.live hI)
  obtain ⟨τ, hsn⟩ := hI.snap h.ge h.now h.seen.heap h.removed
  rcases hsn.st with e' | ⟨q, u, e'⟩
  · refine hp (hI.disj p r n m e' (hr.live hI) e h.seen.heap hm ?_ ?_)
    · exact lt_of_le_of_lt (by rw [hlo]; exact h.low) pm.lt
    · rw [hlo]; exact compHigh_iff.1 h.high
  · have := hI.over p τ q u n r e' h.seen.heap (hr.live hI) e (by rw [hlo]; exact h.low) (by rw [hlo]; exact compHigh_iff.1 h.high)
    have := hsn.lo
    omega

theorem searchParentLoop_ok (hbl : cfg.blink = true) (k : K) (r : Ptr) (t0 : Nat) : ∀ (f : Nat) (s : List Ptr) (ch : Option Ptr) (p : Ptr) (w : World K V), CInv cfg w →
    AtP w t0 k p → Held w t r → w.lo r = .key k → w.born r ≤ t0 → w.lvl r ≤ w.lvl p → StackOk w (.key k) (w.lvl p) (p :: s) →
    WP cfg t (searchParentLoop k r f s ch p) (fun s' w' => CInv cfg w' ∧ Kp t noE w w' ∧ StackOk w' (.key k) (w'.lvl r + 1) s') w
  | 0, _, _, _, _, _, _, _, _, _, _, _ => WP.stuck
  | f + 1, s, ch, p, w, hI, h, hr, hlo, hb, hlv, hs => by
    unfold searchParentLoop
    have pr := World.pub_live (hr.live hI)
    refine WP.isInner h.ge.pub fun w0 r0 i0 => ?_
    have h0 := h.ext r0.kp.ext
    have l0 := (r0.kp.ext.fixed p h.ge.pub).1
    have hs0 := hs.ext r0.kp.ext
    have root : ∀ ch w1, Rely t w w1 → CInv cfg w1 →
        WP cfg t (Prog.getRoot >>= fun root => searchParentLoop k r f [] ch root)
          (fun s' w' => CInv cfg w' ∧ Kp t noE w w' ∧ StackOk w' (.key k) (w'.lvl r + 1) s') w1 := by
      intro ch w1 r1 i1
      refine WP.getRoot fun w2 r2 i2 => ?_
      have k2 := r1.kp.trans r2.kp
      obtain ⟨fr1, fr2, fr3⟩ := k2.ext.fixed r pr
      have hr2 := hr.kp k2
      refine (searchParentLoop_ok hbl k r t0 f [] ch _ w2 i2 (AtP.root i2 (le_trans h.now k2.ext.now) k) hr2 (by rw [fr2]; exact hlo)
        (by rw [fr3]; exact hb) (i2.root_lvl (hr2.live i2)) (StackOk.start i2 k (by simp))).mono ?_
      rintro s' w3 ⟨i3, k3, e⟩
      exact ⟨i3, k2.trans k3, e⟩
    by_cases hl : w.lvl p = 0
    · simp only [hl]
      refine WP.bind ((checkO_ok k t0 (f + 1) p w0 h0 (Or.inl hbl)).mono fun o w1 => ?_)
      match o with
      | none =>
        rintro ⟨i1, r1, -, e⟩
        exact absurd (l0.trans hl) e
      | some (q, v) =>
        rintro ⟨i1, r1, l1, g1, n, hf⟩
        have r01 := r0.trans' r1
        obtain ⟨fr1, fr2, fr3⟩ := r01.kp.ext.fixed r pr
        have hs1 := (hs0.ext r1.kp.ext).swap hf.ge.pub (l1.trans l0) (le_trans (i1.rep q hf.ge.pub).2.2 hf.low) g1
        by_cases hq : q = r
        · simp only [if_pos hq]
          refine WP.ret ⟨i1, r01.kp, ?_⟩
          have := hs1.2.2.2
          subst hq
          rw [l1, l0]
          exact this
        · exfalso
          refine hf.not_level i1 (hr.kp r01.kp) (fr2.trans hlo) (by rw [fr3]; exact hb) hq ?_
          rw [l1, l0, hl, fr1]
          omega
    · rw [if_pos (decide_eq_true hl)]
      refine WP.bind ((searchChild_ok hbl k t0 (f + 1) p w0 h0 (by rw [l0]; exact hl)).mono fun o w1 => ?_)
      match o with
      | none =>
        rintro ⟨i1, r1⟩
        exact root none w1 (r0.trans' r1) i1
      | some (q, c) =>
        rintro ⟨i1, r1, l1, g1, ⟨n, v, hf⟩, a1, lc, loc, gc⟩
        have r01 := r0.trans' r1
        obtain ⟨fr1, fr2, fr3⟩ := r01.kp.ext.fixed r pr
        have hs1 := (hs0.ext r1.kp.ext).swap hf.ge.pub (l1.trans l0) (le_trans (i1.rep q hf.ge.pub).2.2 hf.low) g1
        by_cases hq : q = r
        · simp only [if_pos hq]
          refine WP.ret ⟨i1, r01.kp, ?_⟩
          have := hs1.2.2.2
          subst hq
          rw [l1, l0]
          exact this
        · simp only [if_neg hq]
          have hr1 := hr.kp r01.kp
          have hne := hf.not_level i1 hr1 (fr2.trans hlo) (by rw [fr3]; exact hb) hq
          rw [← l0, ← l1, ← lc] at hs1
          have hs2 := hs1.push a1.ge.pub rfl (le_trans (i1.rep c a1.ge.pub).2.2 loc) gc
          refine (searchParentLoop_ok hbl k r t0 f _ (some c) c w1 i1 a1 hr1 (fr2.trans hlo) (by rw [fr3]; exact hb) ?_ hs2).mono ?_
          · rw [fr1] at hne ⊢
            have : w1.lvl q = w.lvl p := l1.trans l0
            omega
          · rintro s' w3 ⟨i3, k3, e⟩
            exact ⟨i3, r01.kp.trans k3, e⟩

theorem nav_ok (hb : cfg.blink = true) : NavOk cfg (nav : CBlink.Nav K V) where
  checkW _ k f p w hI hp hns hlo := checkW_ok hb k f p w hI hp hns hlo
  searchParent _ k r f s w hI hr hlo hs :=
    searchParentLoop_ok hb k r w.now f s none _ w hI (AtP.root hI (le_refl _) k) hr hlo (hI.born r (World.pub_live (hr.live hI)))
      (hI.root_lvl (hr.live hI)) hs

end COsl
end BT
