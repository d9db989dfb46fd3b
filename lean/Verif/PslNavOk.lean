import Verif.ConcNav

/-!
# The searches of PSL
-/

set_option linter.unusedSectionVars false

namespace BT
open Spec
variable {K V : Type} [LinearOrder K] {cfg : Cfg K} {w w' : World K V} {t : Tid} {p : Ptr}

namespace CPsl

/-- A page that covers the key, locked for reading. -/
structure Found (cfg : Cfg K) (t : Tid) (w' : World K V) (t0 : Nat) (k : K) (q : Ptr) (n : Node K V) : Prop where
  s : t ∈ (w'.lk q).s
  ge : w'.Ge t0 q
  now : t0 ≤ w'.now
  heap : w'.heap q = some n
  removed : n.removed = false
  low : w'.lo q ≤ .key k
  high : n.compHighKey k = true

theorem Found.rely {t0 : Nat} {k : K} {n : Node K V} (h : Found cfg t w t0 k p n) (e : Rely t w w') : Found cfg t w' t0 k p n :=
  ⟨e.mem_s h.s, e.kp.ext.ge h.ge h.now, le_trans h.now e.kp.ext.now, (e.sheap p h.s).trans h.heap, h.removed,
    by rw [(e.kp.ext.fixed p h.ge.pub).2.1]; exact h.low, h.high⟩

def checkRPost (cfg : Cfg K) (t : Tid) (w : World K V) (t0 : Nat) (k : K) (p : Ptr) : Option Ptr → World K V → Prop
  | none, w' => CInv cfg w' ∧ Kp t noE w w' ∧ w'.Gone p ∧ w.lvl p ≠ 0
  | some q, w' => CInv cfg w' ∧ Kp t noE w w' ∧ w'.lvl q = w.lvl p ∧ (w'.Gone q → w'.Gone p) ∧ ∃ n, Found cfg t w' t0 k q n

theorem checkR_ok (hb : cfg.blink = true) (k : K) (t0 : Nat) : ∀ (f : Nat) (p : Ptr) (w : World K V), AtP w t0 k p →
    WP cfg t (checkR k f p) (checkRPost cfg t w t0 k p) w
  | 0, _, _, _ => WP.stuck
  | f + 1, p, w, h => by
    unfold checkR
    refine WP.lockS h.ge.pub fun w1 k1 i1 s1 => ?_
    have h1 := h.ext k1.ext
    refine WP.loadS s1 h1.ge.pub fun w2 n r2 i2 hn _ s2 => ?_
    have h2 := h1.ext r2.kp.ext
    have k2 : Kp t noE w w2 := k1.trans r2.kp
    by_cases hc : n.removed = false ∧ n.compHighKey k = true
    · rw [if_pos hc]
      refine WP.ret ⟨i2, k2, (k2.ext.fixed p h.ge.pub).1, id, n, s2, h2.ge, h2.now, hn, hc.1, ?_, hc.2⟩
      rcases h2.low with e | e
      · obtain ⟨-, m, a, b, -⟩ := i2.gone p e
        rw [hn] at a; cases a
        rw [hc.1] at b; cases b
      · exact e
    · rw [if_neg hc]
      -- the page behind
      have hnext : (∃ q, n.next = some q ∧ w2.Ge t0 q ∧ w2.lvl q = w2.lvl p ∧ w2.lo q ≤ .key k ∧ (w2.Gone q → w2.Gone p)) ∨
          (w2.st p = .gone ∧ n.next = none ∧ w2.lvl p ≠ 0) := by
        cases hr : n.removed with
        | true =>
          rcases i2.fwd h2.ge hn hr with ⟨q, a, b, c, d, e, g⟩ | e
          · refine Or.inl ⟨q, a, b, c, ?_, ?_⟩
            · rcases h2.low with x | x
              · exact absurd x g
              · exact le_trans d x
            · unfold World.Gone; rw [e]; exact id
          · exact Or.inr e
        | false =>
          obtain ⟨τ, hs⟩ := i2.snap h2.ge h2.now hn hr
          exact Or.inl (hs.sibling (Or.inl hb) (k := k) (fun e => hc ⟨hr, e⟩))
      refine WP.unlockS h2.ge.pub s2 fun w3 k3 i3 => ?_
      have k3' := k2.trans k3
      have f3 := k3'.ext.fixed p h.ge.pub
      have f2 := k2.ext.fixed p h.ge.pub
      rcases hnext with ⟨q, a, b, c, d, e⟩ | ⟨a, b, c⟩
      · rw [a]
        have hq : AtP w2 t0 k q := ⟨b, h2.now, Or.inr d⟩
        have hq3 := hq.ext k3.ext
        refine (checkR_ok hb k t0 f q w3 hq3).mono fun o w4 => ?_
        have g3 : w3.Gone q → w3.Gone p := k3.ext.gone_imp b.pub h2.ge.pub (by rw [c]) e
        have l3 : w3.lvl q = w.lvl p := by rw [(k3.ext.fixed q b.pub).1, c, f2.1]
        have p3 := k3'.ext.pub h.ge.pub
        cases o with
        | none =>
          rintro ⟨i4, k4, g4, l4⟩
          refine ⟨i4, k3'.trans k4, ?_, by rw [← l3]; exact l4⟩
          exact k4.ext.gone_imp hq3.ge.pub p3 (by rw [l3, f3.1]) g3 g4
        | some q' =>
          rintro ⟨i4, k4, l4, g4, n', hf⟩
          refine ⟨i4, k3'.trans k4, l4.trans l3, fun g => ?_, n', hf⟩
          exact k4.ext.gone_imp hq3.ge.pub p3 (by rw [l3, f3.1]) g3 (g4 g)
      · rw [b]
        refine WP.ret ⟨i3, k3', ?_, by rw [← f2.1]; exact c⟩
        refine k3.ext.gone_of h2.ge.pub ?_
        unfold World.Gone
        rw [i2.repSelf p (Or.inr a)]; exact a

theorem searchChild_ok {k : K} {t0 i : Nat} {n : Node K V} (h : Found cfg t w t0 k p n) (hi : w.lvl p = i + 1) :
    WP cfg t (searchChild k p) (fun c w' => CInv cfg w' ∧ Kp t noE w w' ∧ AtP w' t0 k c ∧ w'.lvl c = i ∧ w'.lo c ≤ .key k ∧
      (w'.Gone c → w'.Gone p)) w := by
  unfold searchChild
  refine WP.loadS h.s h.ge.pub fun w1 n' r1 i1 hn1 hn s1 => ?_
  rw [h.heap] at hn; cases hn
  have h1 := h.rely r1
  have f1 := r1.kp.ext.fixed p h.ge.pub
  obtain ⟨τ, hs⟩ := i1.snap h1.ge h1.now hn1 h.removed
  obtain ⟨rc, pos, c, e1, e2, e3, e4, e5, e6⟩ := hs.child (k := k) h1.low h.high (i := i) (by rw [f1.1, hi])
  refine WP.lift e1 (WP.lift e2 ?_)
  refine WP.unlockS h1.ge.pub s1 fun w2 k2 i2 => WP.ret ?_
  have a1 : AtP w1 t0 k c := ⟨e3, h1.now, Or.inr e5⟩
  have fc := k2.ext.fixed c e3.pub
  refine ⟨i2, r1.kp.trans k2, a1.ext k2.ext, fc.1.trans e4, by rw [fc.2.1]; exact e5, ?_⟩
  exact k2.ext.gone_imp e3.pub h1.ge.pub (by rw [e4, f1.1, hi]; omega) e6

theorem searchLeafR_ok (hb : cfg.blink = true) (k : K) (t0 : Nat) : ∀ (f : Nat) (p : Ptr) (w : World K V), AtP w t0 k p →
    WP cfg t (searchLeafR k f p) (fun q w' => CInv cfg w' ∧ Kp t noE w w' ∧ w'.lvl q = 0 ∧ ∃ n, Found cfg t w' t0 k q n) w
  | 0, _, _, _ => WP.stuck
  | f + 1, p, w, h => by
    unfold searchLeafR
    refine WP.bind ((checkR_ok hb k t0 (f + 1) p w h).mono fun o w1 => ?_)
    cases o with
    | none =>
      rintro ⟨i1, k1, -, -⟩
      refine WP.getRoot fun w2 r2 i2 => ?_
      have k2 := k1.trans r2.kp
      refine (searchLeafR_ok hb k t0 f _ w2 (AtP.root i2 (le_trans h.now k2.ext.now) k)).mono ?_
      rintro q w3 ⟨i3, k3, e⟩
      exact ⟨i3, k2.trans k3, e⟩
    | some p' =>
      rintro ⟨i1, k1, l1, -, n, hf⟩
      refine WP.isInner hf.ge.pub fun w2 r2 i2 => ?_
      have hf2 := hf.rely r2
      have k2 := k1.trans r2.kp
      have l2 := (r2.kp.ext.fixed p' hf.ge.pub).1
      by_cases hl : w1.lvl p' = 0
      · simp only [hl]
        exact WP.ret ⟨i2, k2, l2.trans hl, n, hf2⟩
      · obtain ⟨i, hi⟩ := Nat.exists_eq_succ_of_ne_zero hl
        rw [if_pos (decide_eq_true hl)]
        refine WP.bind ((searchChild_ok hf2 (l2.trans hi)).mono ?_)
        rintro c w3 ⟨i3, k3, a3, -⟩
        have k3' := k2.trans k3
        refine (searchLeafR_ok hb k t0 f c w3 a3).mono ?_
        rintro q w4 ⟨i4, k4, e⟩
        exact ⟨i4, k3'.trans k4, e⟩

theorem checkW_ok (hb : cfg.blink = true) (k : K) : ∀ (f : Nat) (p : Ptr) (w : World K V), CInv cfg w → w.Pub p → w.NoStale t →
    (w.Gone p ∨ w.lo (w.rep p) ≤ .key k) → w.Off t (w.lvl p) → WP cfg t (checkW k f p) (checkWPost cfg t w k p) w
  | 0, _, _, _, _, _, _, _ => WP.stuck
  | f + 1, p, w, hI, hp, hns, hlo, hoff => by
    unfold checkW
    refine WP.lockSIX hp (fun hs => hoff hs p hp rfl) (fun e => by rw [hb] at e; cases e) fun w1 hno k1 i1 x1 h6 => ?_
    have hp1 := k1.ext.pub hp
    obtain ⟨n, hn⟩ := i1.some_of_pub hp1
    have ns1 := k1.noStaleT hns
    have lo1 := k1.ext.low hp hlo
    refine WP.load (Or.inl h6) hn fun w2 r2 i2 => ?_
    have hp2 := r2.kp.ext.pub hp1
    have k2 : Kp t (· = p) w w2 := k1.trans (r2.kpE _)
    have ns2 := k2.noStaleT hns
    have h62 : (w2.lk p).six = some t := (r2.kp.six p (fun e => e)).2 h6
    have hn2 : w2.heap p = some n := (r2.kp.own p (fun e => e) (Or.inl h6)).1.trans hn
    have lo2 := k2.ext.low hp hlo
    have npr : w.st p ≠ .priv t := fun e => World.not_pub_priv e hp
    have hh2 : w.solo = true → w.Wr t → w2.heap p = w.heap p := fun hs hw =>
      ((r2.kp.own p (fun e => e) (Or.inl h6)).1).trans ((x1.2.2 hs hw).1 p hp)
    -- status of the page
    have hst : w2.st p ≠ .live → n.removed = true := by
      intro hl
      rcases World.pub_cases hp2 with e | ⟨τ, q, u, e⟩ | ⟨τ, q, e⟩ | e
      · exact absurd e hl
      · obtain ⟨-, ho, -⟩ := i2.stale p τ q u e
        have : u = t := by
          rcases ho with ho | ho
          · rw [h62] at ho; exact (Option.some.inj ho).symm
          · rw [(i2.lkx p u ho).1] at h62; cases h62
        subst this
        exact absurd e (ns2.1 p τ q)
      · obtain ⟨-, -, -, -, m, a, b, -⟩ := i2.merged p τ q e
        rw [hn2] at a; cases a; exact b
      · obtain ⟨-, m, a, b, -⟩ := i2.gone p e
        rw [hn2] at a; cases a; exact b
    by_cases hc : n.removed = false ∧ n.compHighKey k = true
    · rw [if_pos hc]
      have hl : w2.st p = .live := by
        by_contra e
        have := hst e
        rw [hc.1] at this; cases this
      have hle : w2.lo p ≤ .key k := by
        rcases lo2 with e | e
        · exact absurd e (i2.rep_live hl)
        · rwa [i2.repSelf p (Or.inl hl)] at e
      exact WP.ret ⟨i2, k2, hno, npr, h62, hl, (k2.ext.fixed p hp).1,
        fun g => i2.rep_live hl (k2.ext.gone_of hp g), hle, ⟨n, hn2, compHigh_iff.1 hc.2⟩,
        fun hs hw _ => hh2 hs hw⟩
    · rw [if_neg hc]
      have hnext : (∃ q, n.next = some q ∧ w2.Pub q ∧ w2.lvl q = w2.lvl p ∧ (w2.Gone q ∨ w2.lo (w2.rep q) ≤ .key k) ∧
          (w2.Gone q ↔ w2.Gone p)) ∨ (w2.st p = .gone ∧ n.next = none ∧ w2.lvl p ≠ 0) := by
        cases hr : n.removed with
        | true =>
          have hge : w2.Ge 0 p := by
            unfold World.Ge
            unfold World.Pub at hp2
            cases e : w2.st p <;> rw [e] at hp2 <;> simp at hp2 ⊢
          rcases i2.fwd hge hn2 hr with ⟨q, a, b, c, d, e, g⟩ | e
          · refine Or.inl ⟨q, a, b.pub, c, ?_, ?_⟩
            · unfold World.Gone at lo2 ⊢
              rw [e]; exact lo2
            · unfold World.Gone; rw [e]
          · exact Or.inr e
        | false =>
          have hl : w2.st p = .live := by
            by_contra e
            have := hst e
            rw [hr] at this; cases this
          obtain ⟨τ, hs⟩ := i2.snap (World.ge_live hl w2.now) (le_refl _) hn2 hr
          obtain ⟨q, a, b, c, d, e⟩ := hs.sibling (Or.inl hb) (k := k) (fun e => hc ⟨hr, e⟩)
          exact Or.inl ⟨q, a, b.pub, c, Or.inr (le_trans (i2.rep q b.pub).2.2 d), e, fun g => absurd g (i2.rep_live hl)⟩
      refine WP.unlockSIX hp2 h62 (ns2.1 p) fun w3 k3 i3 x3 ho3 => ?_
      have k3' : Kp t noE w w3 := (k2.trans k3).close hno ho3 npr fun hs hw =>
        ((x3.2.2 (k2.wr.1.trans hs) (k2.wr.2 hw)).1 p hp2).trans (hh2 hs hw)
      have f3 := k3'.ext.fixed p hp
      have f2 := k2.ext.fixed p hp
      have ns3 := k3'.noStaleT hns
      rcases hnext with ⟨q, a, b, c, d, e⟩ | ⟨a, b, c⟩
      · rw [a]
        have hq3 := k3.ext.pub b
        have l3 : w3.lvl q = w.lvl p := by rw [(k3.ext.fixed q b).1, c, f2.1]
        refine (checkW_ok hb k f q w3 i3 hq3 ns3 (k3.ext.low b d) (by rw [l3]; exact hoff.kp hI k3')).mono fun o w4 => ?_
        have g3 : w3.Gone q → w3.Gone p := k3.ext.gone_imp b hp2 (by rw [c]) e.1
        have p3 := k3'.ext.pub hp
        cases o with
        | none =>
          rintro ⟨i4, k4, g4, l4⟩
          refine ⟨i4, k3'.trans k4, ?_, by rw [← l3]; exact l4⟩
          exact k4.ext.gone_imp hq3 p3 (by rw [l3, f3.1]) g3 g4
        | some q' =>
          rintro ⟨i4, k4, no4, np4, h64, l4, lv4, g4, lo4, hh4, c4⟩
          refine ⟨i4, k3'.toE.trans k4, fun e => no4 ((k3'.own_iff (fun e => e)).2 e),
            fun e => np4 (k3'.priv _ (fun e => e) e).1, h64, l4, lv4.trans l3,
            fun g => g4 (k3.ext.gone_of b (e.2 (k2.ext.gone_of hp g))), lo4, hh4,
            fun hs hw hq => (c4 (k3'.wr.1.trans hs) (k3'.wr.2 hw) (k3'.ext.pub hq)).trans (k3'.calm hs hw q' (fun e => e) hq)⟩
      · rw [b]
        refine WP.ret ⟨i3, k3', ?_, by rw [← f2.1]; exact c⟩
        refine k3.ext.gone_of hp2 ?_
        unfold World.Gone
        rw [i2.repSelf p (Or.inr a)]; exact a

/-- A leaf found for writing. -/
structure FoundW (t : Tid) (w' : World K V) (k : K) (q : Ptr) (s : List Ptr) : Prop where
  six : (w'.lk q).six = some t
  st : w'.st q = .live
  lvl : w'.lvl q = 0
  low : w'.lo q ≤ .key k
  high : ∃ n, w'.heap q = some n ∧ .key k < hiB n.high
  stack : StackOk w' (.key k) 1 s
  up : Up w' s q
  only : w'.Only t q

theorem searchLeafW_ok (hb : cfg.blink = true) (k : K) (t0 : Nat) : ∀ (f : Nat) (s : List Ptr) (p : Ptr) (w : World K V), CInv cfg w → AtP w t0 k p → w.NoStale t →
    StackOk w (.key k) (w.lvl p) (p :: s) → w.Wr t → w.Bare t → Up w s p →
    WP cfg t (searchLeafW k f s p) (fun x w' => CInv cfg w' ∧ Kp t (· = x.1) w w' ∧ FoundW t w' k x.1 x.2) w
  | 0, _, _, _, _, _, _, _, _, _, _ => WP.stuck
  | f + 1, s, p, w, hI, h, hns, hs, hg, hba, hup => by
    unfold searchLeafW
    refine WP.isInner h.ge.pub fun w1 r1 i1 => ?_
    have h1 := h.ext r1.kp.ext
    have l1 := (r1.kp.ext.fixed p h.ge.pub).1
    have hs1 := hs.ext r1.kp.ext
    have ns1 := r1.kp.noStaleT hns
    have hg1 := r1.kp.wr.2 hg
    have ba1 := hba.kp r1.kp
    have up1 := hup.kp0 r1.kp hI i1 hg hns h.ge.pub
    by_cases hl : w.lvl p = 0
    · simp only [hl]
      refine WP.bind ((checkW_ok hb k (f + 1) p w1 i1 h1.ge.pub ns1 (h1.low_rep i1) ba1.off).mono fun o w2 => ?_)
      cases o with
      | none =>
        rintro ⟨-, -, -, e⟩
        exact absurd (l1.trans hl) e
      | some q =>
        rintro ⟨i2, k2, no, np, h6, st, lv, -, lo, hh, c2⟩
        refine WP.ret ⟨i2, (r1.kpE _).trans k2, h6, st, lv.trans (l1.trans hl), lo, hh, ?_, ?_, ba1.only k2⟩
        · have := (hs1.ext k2.ext).2.2.2
          rwa [hl] at this
        · have up2 := up1.kp k2 i1 i2 hg1 ns1 h1.ge.pub (fun s1 b hb e => e ▸ c2 s1 hg1 (e ▸ World.pub_live
            (((i1.rep b ((up1 s1).1 b hb).1).1).resolve_right ((up1 s1).1 b hb).2)))
          intro s2
          refine ⟨(up2 s2).1, fun e => ?_⟩
          show w2.lvl q = _
          rw [lv, ← (up2 s2).2 e, (k2.ext.fixed p h1.ge.pub).1]
    · obtain ⟨i, hi⟩ := Nat.exists_eq_succ_of_ne_zero hl
      rw [if_pos (decide_eq_true hl)]
      refine WP.bind ((checkR_ok hb k t0 (f + 1) p w1 h1).mono fun o w2 => ?_)
      cases o with
      | none =>
        rintro ⟨i2, k2, -, -⟩
        refine WP.getRoot fun w3 r3 i3 => ?_
        have k3 := (r1.kp.trans k2).trans r3.kp
        refine (searchLeafW_ok hb k t0 f [] _ w3 i3 (AtP.root i3 (le_trans h.now k3.ext.now) k) (k3.noStaleT hns)
          (StackOk.start i3 k (by simp)) (k3.wr.2 hg) (hba.kp k3) (fun _ => ⟨by simp, fun _ => rfl⟩)).mono ?_
        rintro x w4 ⟨i4, k4, e⟩
        exact ⟨i4, k3.toE.trans k4, e⟩
      | some p' =>
        rintro ⟨i2, k2, l2, g2, n, hf⟩
        have k2' := r1.kp.trans k2
        have l2' : w2.lvl p' = w.lvl p := l2.trans l1
        have hs2 := (hs1.ext k2.ext).swap hf.ge.pub l2' (le_trans (i2.rep p' hf.ge.pub).2.2 hf.low) g2
        refine WP.bind ((searchChild_ok hf (l2'.trans hi)).mono ?_)
        rintro c w3 ⟨i3, k3, a3, lc, loc, gc⟩
        have k3' := k2'.trans k3
        have hs3 := hs2.ext k3.ext
        rw [hi] at hs3
        have hs4 := hs3.push a3.ge.pub lc (le_trans (i3.rep c a3.ge.pub).2.2 loc) gc
        rw [← lc] at hs4
        have up4 : Up w3 (p' :: s) c := by
          intro s3
          have hs0 : w.solo = true := k3'.wr.1.symm.trans s3
          refine ⟨fun b hb' => ?_, by simp⟩
          rcases List.mem_cons.1 hb' with rfl | hb'
          · exact ⟨k3.ext.pub hf.ge.pub, k3.not_gone i2 i3 (k2'.wr.1.trans hs0) (k2'.wr.2 hg) (k2'.noStaleT hns) hf.ge.pub
              (i2.not_gone (k2'.wr.1.trans hs0) (k2'.wr.2 hg) (k2'.noStaleT hns) hf.ge.pub hf.heap hf.removed)⟩
          · exact (hup.kp0 k3' hI i3 hg hns h.ge.pub s3).1 b hb'
        refine (searchLeafW_ok hb k t0 f _ c w3 i3 a3 (k3'.noStaleT hns) hs4 (k3'.wr.2 hg) (hba.kp k3') up4).mono ?_
        rintro x w4 ⟨i4, k4, e⟩
        exact ⟨i4, k3'.toE.trans k4, e⟩

theorem searchParent_ok (hbl : cfg.blink = true) (k : K) (r : Ptr) (t0 : Nat) : ∀ (f : Nat) (s : List Ptr) (p : Ptr) (w : World K V), CInv cfg w → AtP w t0 k p →
    Held w t r → w.lo r = .key k → w.born r ≤ t0 → w.lvl r ≤ w.lvl p → StackOk w (.key k) (w.lvl p) (p :: s) →
    WP cfg t (searchParent k r f s p) (fun s' w' => CInv cfg w' ∧ Kp t noE w w' ∧ StackOk w' (.key k) (w'.lvl r + 1) s') w
  | 0, _, _, _, _, _, _, _, _, _, _ => WP.stuck
  | f + 1, s, p, w, hI, h, hr, hlo, hb, hlv, hs => by
    unfold searchParent
    have pr := World.pub_live (hr.live hI)
    refine WP.bind ((checkR_ok hbl k t0 (f + 1) p w h).mono fun o w1 => ?_)
    cases o with
    | none =>
      rintro ⟨i1, k1, -, -⟩
      refine WP.getRoot fun w2 r2 i2 => ?_
      have k2 := k1.trans r2.kp
      obtain ⟨fr1, fr2, fr3⟩ := k2.ext.fixed r pr
      have hr2 := hr.kp k2
      refine (searchParent_ok hbl k r t0 f [] _ w2 i2 (AtP.root i2 (le_trans h.now k2.ext.now) k) hr2 (by rw [fr2]; exact hlo)
        (by rw [fr3]; exact hb) (i2.root_lvl (hr2.live i2)) (StackOk.start i2 k (by simp))).mono ?_
      rintro s' w3 ⟨i3, k3, e⟩
      exact ⟨i3, k2.trans k3, e⟩
    | some p' =>
      rintro ⟨i1, k1, l1, g1, n, hf⟩
      obtain ⟨fr1, fr2, fr3⟩ := k1.ext.fixed r pr
      have hr1 := hr.kp k1
      have hs1 := (hs.ext k1.ext).swap hf.ge.pub l1 (le_trans (i1.rep p' hf.ge.pub).2.2 hf.low) g1
      by_cases hp' : p' = r
      · simp only [if_pos hp']
        refine WP.unlockS hf.ge.pub hf.s fun w2 k2 i2 => WP.ret ⟨i2, k1.trans k2, ?_⟩
        have := (hs1.ext k2.ext).2.2.2
        subst hp'
        rw [(k2.ext.fixed p' hf.ge.pub).1, l1]
        exact this
      · simp only [if_neg hp']
        have hne : w1.lvl p' ≠ w1.lvl r := by
          intro e
          obtain ⟨m, hm, pm⟩ := i1.live r (hr1.live i1)
          have hlo1 : w1.lo r = .key k := fr2.trans hlo
          obtain ⟨τ, hsn⟩ := i1.snap hf.ge hf.now hf.heap hf.removed
          rcases hsn.st with e' | ⟨q, u, e'⟩
          · refine hp' (i1.disj p' r n m e' (hr1.live i1) e hf.heap hm ?_ ?_)
            · exact lt_of_le_of_lt (by rw [hlo1]; exact hf.low) pm.lt
            · rw [hlo1]; exact compHigh_iff.1 hf.high
          · have := i1.over p' τ q u n r e' hf.heap (hr1.live i1) e (by rw [hlo1]; exact hf.low) (by rw [hlo1]; exact compHigh_iff.1 hf.high)
            have := hsn.lo
            omega
        have hgt : w.lvl r < w.lvl p := lt_of_le_of_ne hlv (fun e => hne (by rw [l1, fr1, e]))
        obtain ⟨i, hi⟩ := Nat.exists_eq_succ_of_ne_zero (show w.lvl p ≠ 0 by omega)
        refine WP.bind ((searchChild_ok hf (l1.trans hi)).mono ?_)
        rintro c w2 ⟨i2, k2, a2, lc, loc, gc⟩
        have k2' := k1.trans k2
        obtain ⟨gr1, gr2, gr3⟩ := k2'.ext.fixed r pr
        have hs3 := hs1.ext k2.ext
        rw [hi] at hs3
        have hs4 := hs3.push a2.ge.pub lc (le_trans (i2.rep c a2.ge.pub).2.2 loc) gc
        rw [← lc] at hs4
        refine (searchParent_ok hbl k r t0 f _ c w2 i2 a2 (hr.kp k2') (by rw [gr2]; exact hlo) (by rw [gr3]; exact hb)
          (by rw [gr1, lc]; omega) hs4).mono ?_
        rintro s' w3 ⟨i3, k3, e⟩
        exact ⟨i3, k2'.trans k3, e⟩

theorem nav_ok (hb : cfg.blink = true) : NavOk cfg (nav : CBlink.Nav K V) where
  checkW _ k f p w hI hp hns hlo := checkW_ok hb k f p w hI hp hns hlo
  searchParent _ k r f s w hI hr hlo hs :=
    searchParent_ok hb k r w.now f s _ w hI (AtP.root hI (le_refl _) k) hr hlo (hI.born r (World.pub_live (hr.live hI)))
      (hI.root_lvl (hr.live hI)) hs

end CPsl
end BT
