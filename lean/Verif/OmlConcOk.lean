import Verif.OmlSmoOk

/-!
# OML's entry points are correct as long as no noted situation occurs
-/

set_option linter.unusedSectionVars false

namespace BT
open Spec
variable {K V : Type} [LinearOrder K] {cfg : Cfg K} {L : Nat} {w w' : World K V} {t : Tid} {p : Ptr} [Fact (cfg.blink = false)]

namespace COml
open COsl (Found checkO_ok)
open CBlink (Leaf)

/-- The world a call returns in. -/
def Post (t : Tid) (out : Out K V) (w : World K V) : Prop := w.ps.ph t = .done out ∧ w.NoStale t ∧ w.Clean t

theorem Post.done {out : Out K V} (h : w.NoStale t) (hcl : w.Clean t) : Post t out (w.done t out) := ⟨Spec.upd_same _ _ _, h, hcl⟩

/-- Whatever a piece of code does, the number of threads that may write stays as it is. -/
theorem withSolo {α : Type} {m : Prog K V α} {Q : α → World K V → Prop} (h : WP cfg t m (fun a w' => w'.solo = w.solo → Q a w') w) :
    WP cfg t m Q w := by
  induction m generalizing w with
  | ret a => exact h rfl
  | ub => exact h.elim
  | stuck => trivial
  | act a k ih =>
    intro w1 r1 i1
    obtain ⟨h1, h2⟩ := h w1 r1 i1
    refine ⟨h1, fun b m e => ?_⟩
    rcases h2 b m e with h2 | ⟨w2, e2, o2, h2⟩
    · exact Or.inl h2
    · refine Or.inr ⟨w2, e2, o2, ih b ?_⟩
      have v2 : w2.solo = w.solo := o2.keep.1.trans (show Rely t w w1 from r1).kp.wr.1
      exact Lg.wp_mono h2 fun a w3 hq v3 => hq (v3.trans v2)

/-! ## Children -/

/-- A validated look at an inner page leads to the right child. -/
theorem turn_of {t0 v pos : Nat} {k : K} {n : Node K V} {rc : NodeRC} {c : Ptr} (hI : CInv cfg w) (ha : AtP w t0 k p) (hs : Seen w p n v)
    (hrm : n.removed = false) (hhi : n.compHighKey k = true) (hl : w.lvl p ≠ 0) (e1 : n.searchRecord k = .ok (rc, pos))
    (e2 : n.getChild pos = .ok c) : w.lo p ≤ .key k ∧ w.lvl p = w.lvl c + 1 ∧ AtP w t0 k c := by
  have hlo : w.lo p ≤ .key k := by
    rcases ha.low with e | e
    · obtain ⟨-, m, a, b, -⟩ := hI.gone p e
      rw [hs.heap] at a; cases a
      rw [hrm] at b; cases b
    · exact e
  obtain ⟨i, hi⟩ := Nat.exists_eq_succ_of_ne_zero hl
  obtain ⟨τ, sn⟩ := hI.snap ha.ge ha.now hs.heap hrm
  obtain ⟨rc', pos', c', a1, a2, a3, a4, a5, a6⟩ := sn.child (k := k) hlo hhi hi
  rw [e1] at a1; cases a1
  rw [e2] at a2; cases a2
  exact ⟨hlo, by rw [a4, hi], a3, ha.now, Or.inr a5⟩

theorem searchChild_ok (k : K) (t0 : Nat) : ∀ (f : Nat) (w : World K V), AtP w t0 k p → w.lvl p ≠ 0 →
    WP cfg t (searchChild k f p) (fun o w' => CInv cfg w' ∧ Rely t w w' ∧ ∀ c, o = some c → AtP w' t0 k c) w
  | 0, _, _, _ => WP.stuck
  | f + 1, w, h, hl => by
    unfold searchChild
    have hp := h.ge.pub
    refine WP.getVer hp fun w1 r1 i1 x1 => ?_
    have h1 := h.ext r1.kp.ext
    obtain ⟨n, hn⟩ := i1.some_of_pub h1.ge.pub
    have s1 : Seen w1 p n (w1.lk p).ver := ⟨h1.ge.pub, x1, rfl, hn⟩
    refine WP.peek h1.ge.pub fun w2 n1 r2 i2 hn1 => ?_
    have h2 := h1.ext r2.kp.ext
    refine WP.peek h2.ge.pub fun w3 n2 r3 i3 hn2 => ?_
    have h3 := h2.ext r3.kp.ext
    have again : ∀ w', Rely t w w' → WP cfg t (searchChild k f p) (fun o w' => CInv cfg w' ∧ Rely t w w' ∧ ∀ c, o = some c → AtP w' t0 k c) w' := by
      intro w' r
      refine (searchChild_ok k t0 f w' (h.ext r.kp.ext) (by rw [(r.kp.ext.fixed p hp).1]; exact hl)).mono ?_
      rintro o w2 ⟨a, b, c⟩
      exact ⟨a, r.trans' b, c⟩
    have r13 := (r1.trans' r2).trans' r3
    by_cases hc : n1.removed = true ∨ n2.compHighKey k = false
    · rw [if_pos hc]
      refine WP.same h3.ge.pub (fun w4 r4 i4 x4 v4 => ?_) (fun w4 r4 _ => ?_)
      · rw [if_pos rfl]
        exact WP.ret ⟨i4, r13.trans' r4, by simp⟩
      · simp only [Bool.false_eq_true, if_false]
        exact again w4 (r13.trans' r4)
    · rw [if_neg hc]
      simp only [not_or, Bool.not_eq_true, Bool.not_eq_false] at hc
      refine WP.peek h3.ge.pub fun w4 n3 r4 i4 hn3 => ?_
      have h4 := h3.ext r4.kp.ext
      have r14 := r13.trans' r4
      obtain ⟨rc, pos, c, e1, e2⟩ := i4.child_any h4.ge.pub hn3 (by rw [(r14.kp.ext.fixed p hp).1]; exact hl) k
      refine WP.lift e1 (WP.lift e2 ?_)
      refine WP.same h4.ge.pub (fun w5 r5 i5 x5 v5 => ?_) (fun w5 r5 _ => ?_)
      · have b1 := s1.mid r2 ((r3.trans' r4).trans' r5) x5 v5 hn1
        have b2 := s1.mid (r2.trans' r3) (r4.trans' r5) x5 v5 hn2
        have b3 := s1.mid ((r2.trans' r3).trans' r4) r5 x5 v5 hn3
        subst b1; subst b2; subst b3
        have r := r14.trans' r5
        rw [if_pos rfl]
        refine WP.ret ⟨i5, r, ?_⟩
        rintro c' e
        cases e
        exact (turn_of i5 (h.ext r.kp.ext) (s1.last (((r2.trans' r3).trans' r4).trans' r5) x5 v5) hc.1 hc.2
          (by rw [(r.kp.ext.fixed p hp).1]; exact hl) e1 e2).2.2
      · simp only [Bool.false_eq_true, if_false]
        exact again w5 (r14.trans' r5)

theorem descendForRead_ok (k : K) (t0 : Nat) : ∀ (f : Nat) (p : Ptr) (w : World K V), AtP w t0 k p →
    WP cfg t (descendForRead k f p) (fun q w' => CInv cfg w' ∧ Rely t w w' ∧ w'.lvl q = 0 ∧ AtP w' t0 k q) w
  | 0, _, _, _ => WP.stuck
  | f + 1, p, w, h => by
    unfold descendForRead
    refine WP.isInner h.ge.pub fun w1 r1 i1 => ?_
    have h1 := h.ext r1.kp.ext
    have l1 := (r1.kp.ext.fixed p h.ge.pub).1
    by_cases hl : w.lvl p = 0
    · simp only [hl]
      exact WP.ret ⟨i1, r1, l1.trans hl, h1⟩
    · rw [if_pos (decide_eq_true hl)]
      refine WP.bind ((searchChild_ok k t0 (f + 1) w1 h1 (by rw [l1]; exact hl)).mono fun o w2 => ?_)
      match o with
      | none =>
        rintro ⟨i2, r2, -⟩
        refine WP.getRoot fun w3 r3 i3 => ?_
        have r := (r1.trans' r2).trans' r3
        refine (descendForRead_ok k t0 f _ w3 (AtP.root i3 (le_trans h.now r.kp.ext.now) k)).mono ?_
        rintro q w4 ⟨i4, r4, e⟩
        exact ⟨i4, r.trans' r4, e⟩
      | some c =>
        rintro ⟨i2, r2, a2⟩
        refine (descendForRead_ok k t0 f c w2 (a2 c rfl)).mono ?_
        rintro q w4 ⟨i4, r4, e⟩
        exact ⟨i4, (r1.trans' r2).trans' r4, e⟩

/-- Outcome of the writers' `SearchChild`. -/
def turnPost (cfg : Cfg K) (L : Nat) (t : Tid) (w : World K V) (t0 : Nat) (k : K) (p : Ptr) (x : Option (Nat × Ptr) × Nat) (w' : World K V) : Prop :=
  CInv cfg w' ∧ Mv t w w' ∧ ∀ pos c, x.1 = some (pos, c) → ∃ n, Turn cfg L w' t0 k p n x.2 pos c

theorem searchChildW_wp (hr : Roomy cfg L) (k : K) (t0 : Nat) : ∀ (f v : Nat) (n : Node K V) (w : World K V), Stop cfg L w t0 k p n v → w.lvl p ≠ 0 →
    w.NoStale t → WP cfg t (searchChildW cfg k f p v) (turnPost cfg L t w t0 k p) w
  | 0, _, _, _, _, _, _ => WP.stuck
  | f + 1, v, n, w, h, hl, hns => by
    unfold searchChildW
    dsimp only
    have hp := h.was.pub
    have again : ∀ w1, Rely t w w1 → WP cfg t (do
        let x ← checkNodeStatus cfg (cfg.maxKeyLen + cfg.maxPayLen) (f + 1) p
        if x.1 ≠ .completed then Prog.ret (none, x.2)
        else searchChildW cfg k f p x.2) (turnPost cfg L t w t0 k p) w1 := by
      intro w1 r1
      refine WP.bind ((checkNodeStatus_wp hr (le_refl _) (f + 1) w1 (r1.kp.ext.pub hp) (r1.kp.noStaleT hns)).mono ?_)
      rintro ⟨rc, v2⟩ w2 ⟨i2, t2, e2⟩
      simp only at e2 ⊢
      have t02 := r1.kp.mv.trans t2
      by_cases hc : rc ≠ .completed
      · rw [if_pos hc]
        exact WP.ret ⟨i2, t02, by simp⟩
      · rw [if_neg hc]
        rw [not_not] at hc
        subst hc
        rcases e2 with e2 | ⟨m, was2, rm2, ⟨e2, -⟩ | ⟨-, fit⟩⟩
        · cases e2
        · cases e2
        · refine (searchChildW_wp hr k t0 f v2 m w2 ⟨h.atp.ext t02.ext, was2, rm2, room_of_fits hr fit⟩
            (by rw [(t02.ext.fixed p hp).1]; exact hl) (t02.ns hns)).mono ?_
          rintro x w3 ⟨i3, t3, e3⟩
          exact ⟨i3, t02.trans t3, e3⟩
    refine WP.same hp (fun w1 r1 i1 x1 v1 => ?_) (fun w1 r1 i1 => ?_)
    on_goal 2 =>
      simp only [Bool.false_eq_true, if_false]
      exact again w1 r1
    rw [if_pos rfl]
    have h1 := h.mono r1.vr
    refine WP.peek h1.was.pub fun w2 n1 r2 i2 hn1 => ?_
    have h2 := h1.mono r2.vr
    refine WP.peek h2.was.pub fun w3 n2 r3 i3 hn2 => ?_
    have h3 := h2.mono r3.vr
    have r13 := (r1.trans' r2).trans' r3
    by_cases hc : n1.removed = true ∨ n2.compHighKey k = false
    · rw [if_pos hc]
      refine WP.same h3.was.pub (fun w4 r4 i4 x4 v4 => ?_) (fun w4 r4 _ => ?_)
      · rw [if_pos rfl]
        exact WP.ret ⟨i4, (r13.trans' r4).kp.mv, by simp⟩
      · simp only [Bool.false_eq_true, if_false]
        exact again w4 (r13.trans' r4)
    · rw [if_neg hc]
      simp only [not_or, Bool.not_eq_true, Bool.not_eq_false] at hc
      refine WP.peek h3.was.pub fun w4 n3 r4 i4 hn3 => ?_
      have h4 := h3.mono r4.vr
      have r14 := r13.trans' r4
      obtain ⟨rc, pos, c, e1, e2⟩ := i4.child_any h4.was.pub hn3 (by rw [(r14.kp.ext.fixed p hp).1]; exact hl) k
      refine WP.lift e1 (WP.lift e2 ?_)
      refine WP.same h4.was.pub (fun w5 r5 i5 x5 v5 => ?_) (fun w5 r5 _ => ?_)
      · have b1 := h2.was.mid hn1 ((r3.trans' r4).trans' r5).vr x5 v5
        have b2 := h3.was.mid hn2 (r4.trans' r5).vr x5 v5
        have b3 := h4.was.mid hn3 r5.vr x5 v5
        subst b1; subst b2; subst b3
        have r := r14.trans' r5
        have h5 := h4.mono r5.vr
        rw [if_pos rfl]
        refine WP.ret ⟨i5, r.kp.mv, ?_⟩
        rintro pos' c' e
        cases e
        obtain ⟨z1, z2, z3⟩ := turn_of i5 h5.atp (h5.was.seen x5 v5) hc.1 hc.2 (by rw [(r.kp.ext.fixed p hp).1]; exact hl) e1 e2
        exact ⟨_, h5, z1, hc.2, z2, ⟨rc, e1⟩, e2, z3⟩
      · simp only [Bool.false_eq_true, if_false]
        exact again w5 (r14.trans' r5)

/-! ## The descent of writers -/

/-- Outcome of a writer's search. -/
def leafPost (cfg : Cfg K) (t : Tid) (w : World K V) (t0 : Nat) (k : K) (q : Ptr) (w' : World K V) : Prop :=
  CInv cfg w' ∧ Mv t w w' ∧ w'.lvl q = 0 ∧ AtP w' t0 k q

theorem leafPost.from {t0 : Nat} {k : K} {q : Ptr} {w1 w2 : World K V} (h : leafPost cfg t w1 t0 k q w2) (r : Mv t w w1) :
    leafPost cfg t w t0 k q w2 := ⟨h.1, r.trans h.2.1, h.2.2⟩

theorem descendForWrite_wp (hr : Roomy cfg L) {junk : Node K V → Node K V → K} (k : K) (t0 : Nat) : ∀ (f : Nat) (p : Ptr) (v : Nat) (n : Node K V)
    (w : World K V), Stop cfg L w t0 k p n v → w.NoStale t → w.NoLk t → WP cfg t (descendForWrite cfg junk k f p v) (leafPost cfg t w t0 k) w
  | 0, _, _, _, _, _, _, _ => WP.stuck
  | f + 1, p, v, n, w, h, hns, fr => by
    unfold descendForWrite
    have hp := h.was.pub
    refine WP.isInner hp fun w1 r1 i1 => ?_
    have h1 := h.mono r1.vr
    have l1 := (r1.kp.ext.fixed p hp).1
    have ns1 := r1.kp.noStaleT hns
    have again : ∀ (p : Ptr) (v : Nat) (n : Node K V) (w2 : World K V), Mv t w w2 → w2.NoLk t → Stop cfg L w2 t0 k p n v →
        WP cfg t (descendForWrite cfg junk k f p v) (leafPost cfg t w t0 k) w2 := fun p v n w2 t2 fr2 h2 =>
      (descendForWrite_wp hr k t0 f p v n w2 h2 (t2.ns hns) fr2).mono fun q w3 h3 => h3.from t2
    by_cases hl : w.lvl p = 0
    · simp only [hl]
      exact WP.ret ⟨i1, r1.kp.mv, l1.trans hl, h1.atp⟩
    · rw [if_pos (decide_eq_true hl)]
      refine WP.bind (WP.noLk (searchChildW_g _ _ _) (fr.rely r1) ((searchChildW_wp hr k t0 (f + 1) v n w1 h1 (by rw [l1]; exact hl) ns1).mono ?_))
      rintro ⟨o, v2⟩ w2 ⟨i2, t2, e2⟩ fr2
      have t02 := r1.kp.mv.trans t2
      match o with
      | none =>
        refine WP.bind (WP.noLk (getRootForWrite_g _) fr2
          ((getRootForWrite_wp hr k t0 (f + 1) w2 (le_trans h.atp.now t02.ext.now) (t02.ns hns) fr2).mono ?_))
        rintro ⟨q, v3⟩ w3 ⟨i3, t3, m, h3⟩ fr3
        exact again q v3 m w3 (t02.trans t3) fr3 h3
      | some (pos, c) =>
        obtain ⟨m, turn⟩ := e2 pos c rfl
        simp only at turn ⊢
        refine WP.bind (WP.noLk (checkNodeStatus_g _ _) fr2 (WP.withVr
          ((checkNodeStatus_wp hr (le_refl _) (f + 1) w2 turn.atc.ge.pub (t02.ns hns)).mono ?_)))
        rintro ⟨rc, cv⟩ w3 ⟨i3, t3, e3⟩ vr fr3
        simp only at e3 ⊢
        have turn3 := turn.mono vr
        have t03 := t02.trans t3
        by_cases c1 : rc = .needRetry
        · rw [if_pos c1]
          exact again p v2 m w3 t03 fr3 turn3.stop
        rw [if_neg c1]
        rcases e3 with e3 | ⟨cn, was3, rm3, e3⟩
        · exact absurd e3 c1
        by_cases c2 : rc = .needSplit
        · rw [if_pos c2]
          rcases e3 with ⟨-, big⟩ | ⟨e3, -⟩
          · refine WP.bind (WP.noLk trySplit_g fr3 (WP.withVr ((trySplit_wp hr turn3 was3 rm3 big (t03.ns hns) fr3).mono ?_)))
            rintro o w4 ⟨i4, t4, e4⟩ vr4 fr4
            match o with
            | none => exact again p v2 m w4 (t03.trans t4) fr4 (turn3.mono vr4).stop
            | some (q, v4) =>
              obtain ⟨n4, h4⟩ := e4 q v4 rfl
              exact again q v4 n4 w4 (t03.trans t4) fr4 h4
          · rcases e3 with e3 | e3 <;> rw [c2] at e3 <;> cases e3
        rw [if_neg c2]
        have stop3 : Stop cfg L w3 t0 k c cn cv := by
          rcases e3 with ⟨e3, -⟩ | ⟨-, fit⟩
          · exact absurd e3 c2
          · exact ⟨turn3.atc, was3, rm3, room_of_fits hr fit⟩
        by_cases c3 : rc = .needMerge
        · rw [if_pos c3]
          refine WP.bind (WP.noLk tryMerge_g fr3 (WP.withVr ((tryMerge_wp turn3 was3 rm3 (t03.ns hns) fr3).mono ?_)))
          rintro o w4 ⟨i4, t4, e4⟩ vr4 fr4
          match o with
          | none => exact again p v2 m w4 (t03.trans t4) fr4 (turn3.mono vr4).stop
          | some v4 =>
            obtain rfl := e4 v4 rfl
            exact again c v4 cn w4 (t03.trans t4) fr4 (stop3.mono vr4)
        · rw [if_neg c3]
          exact again c cv cn w3 t03 fr3 stop3

theorem searchLeafForWrite_wp (hr : Roomy cfg L) {junk : Node K V → Node K V → K} {fuel : Nat} {k : K} {t0 : Nat} (ht : t0 ≤ w.now)
    (hns : w.NoStale t) (fr : w.NoLk t) : WP cfg t (searchLeafForWrite cfg junk fuel k) (leafPost cfg t w t0 k) w := by
  unfold searchLeafForWrite
  refine WP.bind (WP.noLk (getRootForWrite_g _) fr ((getRootForWrite_wp hr k t0 fuel w ht hns fr).mono ?_))
  rintro ⟨p, v⟩ w1 ⟨i1, t1, n, h1⟩ fr1
  exact (descendForWrite_wp hr k t0 fuel p v n w1 h1 (t1.ns hns) fr1).mono fun q w2 h2 => h2.from t1

/-! ## Reads -/

theorem nodeRead_eq (k : K) : ∀ (f : Nat) (p : Ptr), (nodeRead k f p : Prog K V (Option V)) = COsl.nodeRead k f p
  | 0, _ => rfl
  | f + 1, p => by
    have ih : ∀ p, (nodeRead k f p : Prog K V (Option V)) = COsl.nodeRead k f p := nodeRead_eq k f
    unfold nodeRead COsl.nodeRead
    simp only [ih]
    congr

theorem read_wp {fuel : Nat} {k : K} (hns : w.NoStale t) (hcl : w.Clean t) (hw : w.ps.ph t = .waiting (.read k) w.now) :
    WP cfg t (read fuel k) (fun o w' => Post t (.payload o) w') w := by
  unfold read
  refine WP.getRoot fun w1 r1 i1 => ?_
  refine WP.bind ((descendForRead_ok k w.now fuel w1.mem.root w1 (AtP.root i1 r1.kp.ext.now k)).mono ?_)
  rintro leaf w2 ⟨i2, r2, hl, a2⟩
  have r := r1.trans' r2
  rw [nodeRead_eq]
  exact (COsl.nodeRead_wp k w.now fuel leaf w2 a2 hl (r.kp.noStaleT hns) (hcl.le r.kp.pendLe) (r.kp.ph.trans hw)).mono
    fun _ _ h => ⟨h.1, h.2.1, h.2.2.1⟩

/-! ## Leaves -/

/-- A page that has been tidied up is still the page that was found. -/
theorem found_of {w1 : World K V} {t0 v v' : Nat} {k : K} {n n' : Node K V} (h : Found w1 t0 k p n v) (e : Ext w1 w) (s : SamePage n n')
    (hw : Was w p n' v') (x : (w.lk p).x = none) (hv : (w.lk p).ver = v') : Found w t0 k p n' v' := by
  refine ⟨hw.seen x hv, e.ge h.ge h.now, le_trans h.now e.now, s.frame.removed.trans h.removed, ?_, ?_⟩
  · rw [(e.fixed p h.ge.pub).2.1]; exact h.low
  · have := h.high
    rw [compHigh_iff] at this ⊢
    rw [s.frame.high]; exact this

theorem newLen_le (hr : Roomy cfg L) (k : K) : cfg.klen k + cfg.payLen ≤ cfg.maxKeyLen + cfg.maxPayLen := by
  have := leafLen_le hr k
  have := hr.le
  omega

/-! ## Writes -/

theorem checkForWrite_wp (hr : Roomy cfg L) (k : K) (t0 : Nat) : ∀ (f : Nat) (p : Ptr) (w : World K V), AtP w t0 k p → w.lvl p = 0 →
    w.NoStale t → w.NoLk t → WP cfg t (checkForWrite cfg k f p) (fun o w' => CInv cfg w' ∧ Mv t w w' ∧ ∀ q, o = some q → ∃ n, Leaf w' t q k n ∧
      n.fitsOne cfg (cfg.klen k + cfg.payLen) = true) w
  | 0, _, _, _, _, _, _ => WP.stuck
  | f + 1, p, w, h, hl, hns, fr => by
    unfold checkForWrite
    refine WP.bind ((checkO_ok k t0 (f + 1) p w h (Or.inr hl)).mono fun o w1 => ?_)
    match o with
    | none =>
      rintro ⟨-, -, -, e⟩
      exact absurd hl e
    | some (q, ver) =>
      rintro ⟨i1, r1, l1, g1, n, f1⟩
      have again : ∀ w3, Mv t w1 w3 → w3.NoLk t → WP cfg t (checkForWrite cfg k f q) (fun o w' => CInv cfg w' ∧ Mv t w w' ∧ ∀ q, o = some q →
          ∃ n, Leaf w' t q k n ∧ n.fitsOne cfg (cfg.klen k + cfg.payLen) = true) w3 := by
        intro w3 r3 fr3
        have r := r1.kp.mv.trans r3
        refine (checkForWrite_wp hr k t0 f q w3 (f1.atp.ext r3.ext) (by rw [(r3.ext.fixed q f1.ge.pub).1, l1]; exact hl) (r.ns hns) fr3).mono ?_
        rintro o w4 ⟨a, b, c⟩
        exact ⟨a, r.trans b, c⟩
      refine WP.bind (WP.noLk checkSMOs_g (fr.rely r1) ((checkSMOs_wp hr (newLen_le hr k) f1.seen.was f1.removed (r1.kp.noStaleT hns)).mono ?_))
      rintro ⟨rc, v2⟩ w2 ⟨i2, t2, e2⟩ fr2
      simp only at e2 ⊢
      have t02 := r1.kp.mv.trans t2
      by_cases c1 : rc = .needRetry
      · rw [if_pos c1]; exact again w2 t2 fr2
      rw [if_neg c1]
      by_cases c2 : rc = .needSplit
      · rw [if_pos c2]
        exact WP.ret ⟨i2, t02, by simp⟩
      rw [if_neg c2]
      rcases e2 with e2 | ⟨n', was2, s2, ⟨e2, -⟩ | ⟨-, fit⟩⟩
      · exact absurd e2 c1
      · exact absurd e2 c2
      refine WP.tryLockSIXc was2.pub fr2.before (fun w3 w4 r3 i3 x3 v3 o3 k4 i4 six4 hh4 st4 => ?_) (fun w3 r3 i3 => ?_)
      · rw [if_pos rfl]
        have f3 := found_of f1 (t2.trans r3.kp.mv).ext s2 (was2.mono r3.vr) x3 v3
        have t03 := t02.trans r3.kp.mv
        have lf := f3.leaf (by rw [((t2.trans r3.kp.mv).ext.fixed q f1.ge.pub).1, l1]; exact hl) (t03.ns hns) i3.wr k4 i4 six4 hh4
        refine WP.ret ⟨i4, t03.trans k4.mv, ?_⟩
        rintro q' e
        cases e
        exact ⟨n', lf, fit⟩
      · simp only [Bool.false_eq_true, if_false]
        exact again w3 (t2.trans r3.kp.mv) (fr2.rely r3)

theorem write_wp (hr : Roomy cfg L) {junk : Node K V → Node K V → K} (k : K) (v : V) : ∀ (f : Nat) (w : World K V), w.NoStale t → w.Clean t → w.NoLk t →
    w.Wait t (.write k v) →
    WP cfg t (write cfg junk k v f) (fun rc w' => Post t (.code rc) w') w
  | 0, _, _, _, _, _ => WP.stuck
  | f + 1, w, hns, hcl, fr, hw => by
    unfold write
    refine WP.bind (WP.noLk searchLeafForWrite_g fr ((searchLeafForWrite_wp hr (le_refl w.now) hns fr).mono ?_))
    rintro p w1 ⟨i1, t1, l1, a1⟩ fr1
    refine WP.bind (WP.noLkIf (S := fun o => o = none) (fun σ hf => Prog.vwp_mono (checkForWrite_g _ _ σ hf) fun o σ' h e => by subst e; exact h) fr1
      ((checkForWrite_wp hr k w.now (f + 1) p w1 a1 l1 (t1.ns hns) fr1).mono fun o w2 => ?_))
    rintro ⟨i2, t2, e2⟩ fr2
    have t02 := t1.trans t2
    have wait : ∀ {w2 : World K V}, Mv t w w2 → w2.Wait t (.write k v) := by
      rintro w2 t2
      obtain ⟨t0, e⟩ := hw
      exact ⟨t0, t2.ph.trans e⟩
    match o with
    | none => exact write_wp hr k v f w2 (t02.ns hns) (t02.clean hcl) (fr2 rfl) (wait t02)
    | some q =>
      obtain ⟨n, hl, fit⟩ := e2 q rfl
      obtain ⟨n', A, C, B, e1, u2, u3, s2, s3⟩ := leafWrite_ok (hl.ok i2) fit (Bd.leKey_iff'.2 hl.low) (Bd.gtKey_iff'.2 hl.high) v
      simp only
      refine hl.hold.load fun w3 r3 i3 h3 => ?_
      refine h3.upgrade fun w4 k4 i4 h4 => WP.lift e1 (h4.store fun w5 r5 i5 h5 => ?_)
      have k5 : Kp t (· = q) w2 w5 := ((r3.kpE _).trans k4).trans (r5.kpE _)
      obtain ⟨g1, g2, -⟩ := k5.ext.fixed q hl.hold.pub
      obtain ⟨w6, m6, o6, k6, h6⟩ := ok_effect i5 h5 (g1.trans hl.lvl) (n' := n') u3 (by rw [g2]; exact u2) (by rw [g2]; exact hl.low)
        hl.high (wait (t02.trans k5.mv)) (Step.write k v) s2 s3
      refine ⟨w6, m6, o6, h6.unlock fun w7 k7 i7 _ _ => WP.ret ⟨?_, ?_, ?_⟩⟩
      · exact k7.ph.trans (k6.ph.trans (Spec.upd_same _ _ _))
      · exact k7.noStaleT (k6.noStaleT (k5.noStaleT (t02.ns hns)))
      · exact World.Clean.le (w := w5) ((t02.trans k5.mv).clean hcl) (fun q e => k6.pendLe q (k7.pendLe q e))

/-! ## Insertions -/

/-- What follows the search in `Insert`. -/
theorem insertAt_ok {lo : Bd K} {k : K} {n : Node K V} {rc : NodeRC} {pos : Nat} (h : NodeOk cfg false lo n)
    (hroom : n.fitsOne cfg (cfg.klen k + cfg.payLen) = true) (hlo : lo.leKey k) (hhi : (hiB n.high).gtKey k)
    (hs : n.searchRecord k = .ok (rc, pos)) (hrc : rc ≠ .keyAlreadyInserted) (v : V) :
    ∃ n' A B, insertAt cfg n k v rc pos = .ok n' ∧ NodeOk cfg false lo n' ∧ SameFrame n n' ∧
      Around k (pairs n.recs) A none B ∧ Around k (pairs n'.recs) A (some v) B := by
  rcases h.search_leaf k with ⟨T, D, hrecs, hs', h1, h2⟩ | ⟨T, r, D, hrecs, hk, h1, h2, hs'⟩
  · rw [hs] at hs'; cases hs'
    obtain ⟨n', hi, hok, hf, hr'⟩ := insertRecord_leaf (v := v) h hroom hlo hhi hrecs h1 h2
    exact ⟨n', pairs T, pairs D, by simp [insertAt, hi], hok, hf, ⟨by simp [hrecs], h1.pairs, h2.pairs⟩,
      ⟨by simp [hr', pairs_cons, Rec.pair], h1.pairs, h2.pairs⟩⟩
  · obtain ⟨w, hw⟩ := (hrecs ▸ h.leaf : LeafOk lo (hiB n.high) (T ++ r :: D)).val_at
    cases hd : r.del
    · rw [hs, hd] at hs'
      cases hs'
      exact absurd rfl hrc
    · rw [hs, hd] at hs'
      cases hs'
      have hlay := layout_var_of_del h (r := r) (by simp [hrecs]) hd
      obtain ⟨n', hi, hok, hf, hr'⟩ := reuseRecord_leaf (v := v) hlay h hrecs hd
      obtain ⟨rk, rp, rd⟩ := r
      simp at hk hw hd
      subst hk hw hd
      exact ⟨n', pairs T, pairs D, by simp [insertAt, hi, hlay], hok, hf,
        ⟨by simp [hrecs, pairs_cons, Rec.pair], h1.pairs, h2.pairs⟩,
        ⟨by simp [hr', pairs_cons, Rec.pair], h1.pairs, h2.pairs⟩⟩

/-- Outcome of node `Insert`. -/
def insertPost (cfg : Cfg K) (t : Tid) (w : World K V) : Option RC → World K V → Prop
  | none, w' => CInv cfg w' ∧ Mv t w w'
  | some rc, w' => Post t (.code rc) w'

theorem insertPost.from {o : Option RC} {w1 w2 : World K V} (h : insertPost cfg t w1 o w2) (r : Mv t w w1) : insertPost cfg t w o w2 := by
  cases o with
  | none => exact ⟨h.1, r.trans h.2⟩
  | some _ => exact h

theorem nodeInsert_wp (hr : Roomy cfg L) (k : K) (v : V) (t0 : Nat) : ∀ (f : Nat) (p : Ptr) (w : World K V), AtP w t0 k p → w.lvl p = 0 →
    w.NoStale t → w.Clean t → w.ps.ph t = .waiting (.insert k v) t0 → WP cfg t (nodeInsert cfg k v f p) (insertPost cfg t w) w
  | 0, _, _, _, _, _, _, _ => WP.stuck
  | f + 1, p, w, h, hl, hns, hcl, hw => by
    unfold nodeInsert
    refine WP.bind ((checkO_ok k t0 (f + 1) p w h (Or.inr hl)).mono fun o w1 => ?_)
    match o with
    | none =>
      rintro ⟨-, -, -, e⟩
      exact absurd hl e
    | some (q, ver) =>
      rintro ⟨i1, r1, l1, g1, n, f1⟩
      have again : ∀ w3, Mv t w1 w3 → WP cfg t (nodeInsert cfg k v f q) (insertPost cfg t w) w3 := by
        intro w3 r3
        have r := r1.kp.mv.trans r3
        exact (nodeInsert_wp hr k v t0 f q w3 (f1.atp.ext r3.ext) (by rw [(r3.ext.fixed q f1.ge.pub).1, l1]; exact hl) (r.ns hns)
          (r.clean hcl) (r.ph.trans hw)).mono fun x w' hx => hx.from r
      refine WP.bind ((checkSMOs_wp hr (newLen_le hr k) f1.seen.was f1.removed (r1.kp.noStaleT hns)).mono ?_)
      rintro ⟨rc0, v2⟩ w2 ⟨i2, t2, e2⟩
      simp only at e2 ⊢
      have t02 := r1.kp.mv.trans t2
      by_cases c1 : rc0 = .needRetry
      · rw [if_pos c1]; exact again w2 t2
      rw [if_neg c1]
      by_cases c2 : rc0 = .needSplit
      · rw [if_pos c2]
        exact WP.ret ⟨i2, t02⟩
      rw [if_neg c2]
      rcases e2 with e2 | ⟨n', was2, s2, ⟨e2, -⟩ | ⟨-, fit⟩⟩
      · exact absurd e2 c1
      · exact absurd e2 c2
      refine WP.peek was2.pub fun w3 m r3 i3 hm3 => ?_
      have was3 := was2.mono r3.vr
      have t13 := t2.trans r3.kp.mv
      have lq3 : w3.lvl q = 0 := by rw [(t13.ext.fixed q f1.ge.pub).1, l1]; exact hl
      obtain ⟨rc, pos, e1⟩ := i3.search_any was3.pub hm3 lq3 k
      refine WP.lift e1 ?_
      -- the page is validated in `w4`
      have val : ∀ w4, Rely t w3 w4 → CInv cfg w4 → (w4.lk q).x = none → (w4.lk q).ver = v2 →
          m = n' ∧ Found w4 t0 k q n' v2 ∧ w4.lvl q = 0 ∧ w4.NoStale t ∧ w4.Clean t ∧ w4.ps.ph t = .waiting (.insert k v) t0 := by
        intro w4 r4 i4 x4 v4
        have t14 := t13.trans r4.kp.mv
        have tt := r1.kp.mv.trans t14
        exact ⟨was3.mid hm3 r4.vr x4 v4, found_of f1 t14.ext s2 (was3.mono r4.vr) x4 v4, by rw [(r4.kp.ext.fixed q was3.pub).1]; exact lq3,
          tt.ns hns, tt.clean hcl, tt.ph.trans hw⟩
      by_cases hrc : rc = .keyAlreadyInserted
      · simp only [if_pos hrc]
        refine WP.sameG was3.pub (fun w4 r4 i4 x4 v4 => ?_) (fun w4 r4 i4 => ?_)
        on_goal 2 =>
          simp only [Bool.false_eq_true, if_false]
          exact again w4 (t13.trans r4.kp.mv)
        obtain ⟨e, f4, l4, ns4, cl4, hw4⟩ := val w4 r4 i4 x4 v4
        subst e
        obtain ⟨m', rc', A, C, B, u1, u2, u3, s2', u4⟩ := leafUpdate_ok (f4.ok i4 l4) k v
        have hC : C ≠ none := by
          rcases u4 with ⟨hC, -, -⟩ | ⟨-, rfl, -⟩
          · exact hC
          · exfalso
            simp only [Node.leafUpdate, e1, Res.ok_bind, hrc, if_true] at u1
            cases hp : m.setPayload pos v <;> rw [hp] at u1 <;> simp at u1
        refine ⟨w4.done t _, rfl, f4.answer i4 l4 hw4 (out := .code .keyExist) s2' (fun m hm => Step.insertOld k v (by rw [hm]; exact hC)), ?_⟩
        rw [if_pos rfl]
        exact WP.ret (Post.done ns4 cl4)
      · simp only [if_neg hrc]
        refine WP.tryLockXc was3.pub (fun w4 w5 r4 i4 x4 v4 o4 k5 i5 x5 v5 hh5 st5 => ?_) (fun w4 r4 i4 => ?_)
        on_goal 2 =>
          simp only [Bool.false_eq_true, if_false]
          exact again w4 (t13.trans r4.kp.mv)
        obtain ⟨e, f4, l4, ns4, cl4, hw4⟩ := val w4 r4 i4 x4 v4
        subst e
        have h5 := f4.holdX ns4 i4.wr k5 i5 x5 hh5
        obtain ⟨m', A, B, u1, u2, u3, s1, s3⟩ := insertAt_ok (f4.ok i4 l4) fit (Bd.leKey_iff'.2 f4.low)
          (Bd.gtKey_iff'.2 (compHigh_iff.1 f4.high)) e1 hrc v
        rw [if_pos rfl]
        refine h5.load fun w6 r6 i6 h6 => WP.lift u1 (h6.store fun w7 r7 i7 h7 => ?_)
        have k7 : Kp t (· = q) w4 w7 := (k5.trans (r6.kpE _)).trans (r7.kpE _)
        obtain ⟨g1', g2', -⟩ := k7.ext.fixed q f4.ge.pub
        have hhi := compHigh_iff.1 f4.high
        have hmk : w7.maps w7.now k = none := s1.agree ((i7.page h7.st h7.heap).agree (g1'.trans l4)) (by rw [g2']; exact f4.low) hhi
        obtain ⟨w8, m8, o8, k8, h8⟩ := ok_effect i7 h7 (g1'.trans l4) (n' := m') u3 (by rw [g2']; exact u2) (by rw [g2']; exact f4.low)
          hhi ⟨_, k7.ph.trans hw4⟩ (Step.insertNew k v hmk) s1 s3
        refine ⟨w8, m8, o8, h8.unlock fun w9 k9 i9 _ _ => WP.ret ?_⟩
        exact ⟨k9.ph.trans (k8.ph.trans (Spec.upd_same _ _ _)), k9.noStaleT (k8.noStaleT (k7.noStaleT ns4)),
          World.Clean.le (w := w7) (cl4.le k7.pendLe) (fun q e => k8.pendLe q (k9.pendLe q e))⟩

theorem insert_wp (hr : Roomy cfg L) {junk : Node K V → Node K V → K} (k : K) (v : V) (t0 : Nat) : ∀ (f : Nat) (w : World K V), t0 ≤ w.now →
    w.NoStale t → w.Clean t → w.NoLk t → w.ps.ph t = .waiting (.insert k v) t0 → WP cfg t (insert cfg junk k v f) (fun rc w' => Post t (.code rc) w') w
  | 0, _, _, _, _, _, _ => WP.stuck
  | f + 1, w, ht, hns, hcl, fr, hw => by
    unfold insert
    refine WP.bind (WP.noLk searchLeafForWrite_g fr ((searchLeafForWrite_wp hr ht hns fr).mono ?_))
    rintro p w1 ⟨i1, t1, l1, a1⟩ fr1
    refine WP.bind (WP.noLk (nodeInsert_g _ _) fr1 ((nodeInsert_wp hr k v t0 (f + 1) p w1 a1 l1 (t1.ns hns) (t1.clean hcl) (t1.ph.trans hw)).mono
      fun o w2 h2 fr2 => ?_))
    match o, h2 with
    | none, ⟨i2, t2⟩ =>
      have t02 := t1.trans t2
      exact insert_wp hr k v t0 f w2 (le_trans ht t02.ext.now) (t02.ns hns) (t02.clean hcl) fr2 (t02.ph.trans hw)
    | some rc, h2 => exact WP.ret h2

/-! ## Updates and deletions -/

theorem update_wp (hr : Roomy cfg L) {junk : Node K V → Node K V → K} {fuel : Nat} {k : K} {v : V} (hns : w.NoStale t) (hcl : w.Clean t) (fr : w.NoLk t)
    (hw : w.ps.ph t = .waiting (.update k v) w.now) :
    WP cfg t (update cfg junk fuel k v) (fun rc w' => Post t (.code rc) w') w := by
  unfold update
  refine WP.bind ((searchLeafForWrite_wp hr (le_refl w.now) hns fr).mono ?_)
  rintro p w1 ⟨i1, t1, l1, a1⟩
  exact (COsl.nodeUpdate_wp k v w.now fuel p w1 a1 l1 (t1.ns hns) i1.wr (t1.clean hcl) (fun s => (i1.crowd s).elim) (t1.ph.trans hw)).mono
    fun _ _ h => ⟨h.1, h.2.1, h.2.2.1⟩

theorem nodeDelete_wp (k : K) (t0 : Nat) : ∀ (f : Nat) (p : Ptr) (w : World K V), AtP w t0 k p → w.lvl p = 0 →
    w.NoStale t → w.Clean t → w.ps.ph t = .waiting (.delete k) t0 → WP cfg t (nodeDelete cfg k f p) (fun rc w' => Post t (.code rc) w') w
  | 0, _, _, _, _, _, _, _ => WP.stuck
  | f + 1, p, w, h, hl, hns, hcl, hw => by
    unfold nodeDelete
    refine WP.bind ((checkO_ok k t0 (f + 1) p w h (Or.inr hl)).mono fun o w1 => ?_)
    match o with
    | none =>
      rintro ⟨-, -, -, e⟩
      exact absurd hl e
    | some (q, ver) =>
      rintro ⟨i1, r1, l1, g1, n, f1⟩
      refine WP.peek f1.ge.pub fun w2 n' r2 i2 hn2 => ?_
      have q2 := r2.kp.ext.pub f1.ge.pub
      have lq2 : w2.lvl q = 0 := by rw [(r2.kp.ext.fixed q f1.ge.pub).1, l1]; exact hl
      obtain ⟨rc, pos, e1⟩ := i2.search_any q2 hn2 lq2 k
      refine WP.lift e1 ?_
      have again : ∀ w3, Rely t w2 w3 → CInv cfg w3 → WP cfg t (nodeDelete cfg k f q) (fun rc w' => Post t (.code rc) w') w3 := by
        intro w3 r3 i3
        have r23 := r2.trans' r3
        have r := r1.trans' r23
        exact nodeDelete_wp k t0 f q w3 (f1.atp.ext r23.kp.ext) (by rw [(r3.kp.ext.fixed q q2).1]; exact lq2) (r.kp.noStaleT hns)
          (hcl.le r.kp.pendLe) (r.kp.ph.trans hw)
      by_cases hrc : rc = .keyAlreadyInserted
      · simp only [if_pos hrc]
        refine WP.tryLockXc q2 (fun w3 w4 r3 i3 x3 v3 o3 k4 i4 x4 v4 hh4 st4 => ?_) (fun w3 r3 i3 => again w3 r3 i3)
        have e := f1.seen.mid r2 r3 x3 v3 hn2
        subst e
        have r23 := r2.trans' r3
        have f3 := f1.last r23 x3 v3
        have r := r1.trans' r23
        have l3 : w3.lvl q = 0 := by rw [(r3.kp.ext.fixed q q2).1]; exact lq2
        have ns3 := r.kp.noStaleT hns
        have h4 := f3.holdX ns3 i3.wr k4 i4 x4 hh4
        obtain ⟨m, rc', A, C, B, u1, u2, u3, s2, u4⟩ := leafDelete_ok (f3.ok i3 l3) k
        have hup : n'.removeRecord cfg pos = .ok m ∧ rc' = .success := by
          simp only [Node.leafDelete, e1, Res.ok_bind, hrc, if_true] at u1
          cases hp : n'.removeRecord cfg pos with
          | ub => rw [hp] at u1; simp at u1
          | fuel => rw [hp] at u1; simp at u1
          | ok m' => rw [hp] at u1; simp at u1; exact ⟨by rw [u1.2], u1.1.symm⟩
        obtain ⟨u5, rfl⟩ := hup
        rcases u4 with ⟨hC, -, s3⟩ | ⟨-, hbad, -⟩
        · rw [if_pos rfl]
          refine h4.load fun w5 r5 i5 h5 => WP.lift u5 (h5.store fun w6 r6 i6 h6 => ?_)
          have k6 : Kp t (· = q) w3 w6 := (k4.trans (r5.kpE _)).trans (r6.kpE _)
          obtain ⟨g1, g2, -⟩ := k6.ext.fixed q f3.ge.pub
          have hhi := compHigh_iff.1 f3.high
          have hmk : w6.maps w6.now k = C := s2.agree ((i6.page h6.st h6.heap).agree (g1.trans l3)) (by rw [g2]; exact f3.low) hhi
          obtain ⟨w7, m7, o7, k7, h7⟩ := ok_effect i6 h6 (g1.trans l3) (n' := m) u3 (by rw [g2]; exact u2) (by rw [g2]; exact f3.low)
            hhi ⟨_, k6.ph.trans (r.kp.ph.trans hw)⟩ (Step.deleteOld k (by rw [hmk]; exact hC)) s2 s3
          refine ⟨w7, m7, o7, h7.unlock fun w8 k8 i8 _ _ => WP.ret ⟨?_, ?_, ?_⟩⟩
          · exact k8.ph.trans (k7.ph.trans (Spec.upd_same _ _ _))
          · exact k8.noStaleT (k7.noStaleT (k6.noStaleT ns3))
          · exact World.Clean.le (w := w6) (hcl.le (r.kp.pendLe.trans k6.pendLe)) (fun q e => k7.pendLe q (k8.pendLe q e))
        · cases hbad
      · simp only [if_neg hrc]
        refine WP.sameG q2 (fun w3 r3 i3 x3 v3 => ?_) (fun w3 r3 i3 => again w3 r3 i3)
        have e := f1.seen.mid r2 r3 x3 v3 hn2
        subst e
        have r23 := r2.trans' r3
        have f3 := f1.last r23 x3 v3
        have r := r1.trans' r23
        have l3 : w3.lvl q = 0 := by rw [(r3.kp.ext.fixed q q2).1]; exact lq2
        obtain ⟨m, rc', A, C, B, u1, u2, u3, s2, u4⟩ := leafDelete_ok (f3.ok i3 l3) k
        simp only [Node.leafDelete, e1, Res.ok_bind, hrc, if_false] at u1
        rcases u4 with ⟨-, rfl, -⟩ | ⟨rfl, -, -⟩
        · simp at u1
        · refine ⟨w3.done t _, rfl, f3.answer i3 l3 (r.kp.ph.trans hw) (out := .code .keyNotExist) s2 (fun m hm => Step.deleteNew k hm), ?_⟩
          rw [if_pos rfl]
          exact WP.ret (Post.done (r.kp.noStaleT hns) (hcl.le r.kp.pendLe))

theorem delete_wp (hr : Roomy cfg L) {junk : Node K V → Node K V → K} {fuel : Nat} {k : K} (hns : w.NoStale t) (hcl : w.Clean t) (fr : w.NoLk t)
    (hw : w.ps.ph t = .waiting (.delete k) w.now) :
    WP cfg t (delete cfg junk fuel k) (fun rc w' => Post t (.code rc) w') w := by
  unfold delete
  refine WP.bind ((searchLeafForWrite_wp hr (le_refl w.now) hns fr).mono ?_)
  rintro p w1 ⟨i1, t1, l1, a1⟩
  exact nodeDelete_wp k w.now fuel p w1 a1 l1 (t1.ns hns) (t1.clean hcl) (t1.ph.trans hw)

/-! ## Executions -/

theorem exec_ok (hr : Roomy cfg L) {junk : Node K V → Node K V → K} (t : Tid) (fuel : Nat) (op : Op K V) (w : World K V) (_ : CInv cfg w)
    (hns : w.NoStale t) (hcl : w.Clean t) (fr : w.NoLk t) (hw : w.ps.ph t = .waiting op w.now) :
    WP cfg t (exec cfg junk fuel op) (fun out w => w.ps.ph t = .done out ∧ w.NoStale t ∧ w.Clean t) w := by
  cases op with
  | read k => exact WP.bind ((read_wp hns hcl hw).mono fun o w h => WP.ret h)
  | write k v => exact WP.bind ((write_wp hr k v fuel w hns hcl fr ⟨_, hw⟩).mono fun o w h => WP.ret h)
  | insert k v => exact WP.bind ((insert_wp hr k v w.now fuel w (le_refl _) hns hcl fr hw).mono fun o w h => WP.ret h)
  | update k v => exact WP.bind ((update_wp hr hns hcl fr hw).mono fun o w h => WP.ret h)
  | delete k => exact WP.bind ((delete_wp hr hns hcl fr hw).mono fun o w h => WP.ret h)
  | scan _ _ => exact WP.stuck

/-- These entry points return no records. -/
theorem exec_noRecs (cfg : Cfg K) (junk : Node K V → Node K V → K) (fuel : Nat) (op : Op K V) : (exec cfg junk fuel op).NoRecs := by
  cases op <;> first | trivial | exact Prog.NoRecs.bind fun a l h => by cases h

/-- Executions of OML in which none of the noted situations occurs. -/
theorem linearizable {cfg : Cfg K} (hr : Roomy cfg L) (hb : cfg.blink = false) {junk : Node K V → Node K V → K} {m0 : Map K V} {c0 c : Conf K V}
    (h0 : (blg V cfg).Sim m0 c0) (ht : ∀ t, c0.thr t = none) (hh : c0.hist = []) (hc : Conf.Reach (exec cfg junk) c0 c)
    (hn : c.mem.raced = false) : ¬ c.Bad ∧ LinearizableFrom m0 c.hist := by
  have : Fact (cfg.blink = false) := ⟨hb⟩
  obtain ⟨a, b⟩ := Lg.adequate (L := blg V cfg) rfl h0 (fun t fuel op w a b d =>
    withSolo (WP.noLk (exec_gx fuel op) (b.2.2.1 hb) ((exec_ok hr t fuel op w a b.1 b.2.2.2 (b.2.2.1 hb) d).mono fun _ _ h n s =>
      ⟨h.1, h.2.1, s.trans b.2.1, fun _ => n, h.2.2⟩))) hc hn
  exact ⟨a, b.noRecs (Conf.noRecs (exec_noRecs cfg junk) ht hh hc)⟩

end COml
end BT
