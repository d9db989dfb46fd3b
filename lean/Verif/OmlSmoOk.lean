import Verif.OmlFree

/-!
# The descent of OML's writers under concurrency
-/

set_option linter.unusedSectionVars false

namespace BT
open Spec
variable {K V : Type} [LinearOrder K] {cfg : Cfg K} {L : Nat} {w w' : World K V} {t : Tid} {p : Ptr} [Fact (cfg.blink = false)]

theorem WP.tryLockSIXV {α : Type} {k : Bool → Prog K V α} {Q : α → World K V → Prop} {v : Nat} (hp : w.Pub p) (hd : w.Before t p)
    (h1 : ∀ w1 w2, Rely t w w1 → CInv cfg w1 → (w1.lk p).x = none → (w1.lk p).ver = v → ¬ w1.Own t p →
      Kp t (· = p) w1 w2 → CInv cfg w2 → (w2.lk p).six = some t → w2.heap p = w1.heap p → Vr w w2 → WP cfg t (k true) Q w2)
    (h2 : ∀ w1, Rely t w w1 → CInv cfg w1 → WP cfg t (k false) Q w1) :
    WP cfg t (Prog.tryLockSIX p v >>= k) Q w := by
  refine WP.bind (WP.withVr ?_)
  exact WP.tryLockSIXc (k := Prog.ret) hp hd (fun w1 w2 a b c d e f g h i _ => WP.ret fun vr => h1 w1 w2 a b c d e f g h i vr)
    (fun w1 a b => WP.ret fun _ => h2 w1 a b)

/-! ## Slots of inner pages -/

/-- The child in the slot for key `k` does not reach beyond the slot. -/
theorem CInv.slot_high (hI : CInv cfg w) {pn : Node K V} {i : Nat} {T D : List (Rec K V)} {r0 : Rec K V} {c : Ptr} {k : K}
    (hp : w.st p = .live) (hpn : w.heap p = some pn) (hlvl : w.lvl p = i + 1) (hrecs : pn.recs = T ++ r0 :: D) (hc : r0.toPtr = c)
    (hlo : w.lo p ≤ .key k) (hT : T ≠ [] → ∃ a, r0.key = some a ∧ a ≤ k) (hD : .key k < hiB (hdKey D pn.high)) :
    w.st c = .live ∧ w.lvl c = i ∧ (T ≠ [] → w.lo c = hiB r0.key) ∧ w.lo p ≤ w.lo c ∧ w.lo c ≤ .key k ∧
      ∀ n, w.heap c = some n → hiB n.high ≤ hiB (hdKey D pn.high) := by
  have pg := hI.page hp hpn
  have hok := pg.ok
  rw [decide_eq_true (by omega)] at hok
  have hin := hok.inner
  have hmem : ∃ b, b ≤ .key k ∧ w.lo p ≤ b ∧ (T ≠ [] → b = hiB r0.key) ∧ (b, c) ∈ kidsOf (w.lo p) (slots pn.recs pn.high) := by
    by_cases hT' : T = []
    · subst hT'
      refine ⟨w.lo p, hlo, le_refl _, fun e => absurd rfl e, ?_⟩
      rw [hrecs, List.nil_append, slots_cons]
      simp [kidsOf, hc]
    · obtain ⟨a, ha, hak⟩ := hT hT'
      refine ⟨hiB r0.key, ?_, ?_, fun _ => rfl, ?_⟩
      · rw [ha]; exact Bd.key_le_key.2 hak
      · have : r0 ∈ pn.recs.tail := by
          rw [hrecs]
          cases T with
          | nil => exact absurd rfl hT'
          | cons x xs => simp
        obtain ⟨a', e1, e2, -⟩ := hin.keyed r0 this
        rw [e1]
        exact le_of_lt (Bd.lt_iff.1 e2)
      · rw [hrecs, ← hc]
        exact kids_mem hT'
  obtain ⟨b, hb1, hb2, hb3, hm⟩ := hmem
  obtain ⟨c1, c2, c3⟩ := pg.kids i hlvl b c hm
  refine ⟨c1, c2, fun e => c3.trans (hb3 e), by rw [c3]; exact hb2, by rw [c3]; exact hb1, fun n hn => ?_⟩
  by_contra hlt
  rw [not_le] at hlt
  have hnext : ∃ c', w.st c' = .live ∧ w.lvl c' = i ∧ w.lo c' = hiB (hdKey D pn.high) := by
    cases D with
    | nil =>
      simp only [hdKey] at hlt ⊢
      rcases pg.next with ⟨a, -⟩ | ⟨h, q, a, -, b1, b2, b3⟩
      · rw [a] at hlt
        exact absurd hlt (not_lt.2 (by simp [hiB]; exact Bd.le_top _))
      · obtain ⟨x, x1, x2, x3⟩ := hI.descend 1 q b1 i (by omega)
        exact ⟨x, x1, x2, by rw [x3, b3, a]; rfl⟩
    | cons d D' =>
      simp only [hdKey]
      obtain ⟨x1, x2, x3⟩ := pg.kids i hlvl (hiB d.key) d.toPtr (by rw [hrecs]; exact kids_drop.2 (Or.inr rfl))
      exact ⟨d.toPtr, x1, x2, x3⟩
  obtain ⟨c', d1, d2, d3⟩ := hnext
  obtain ⟨m, hm', -⟩ := hI.live c' d1
  have l1 := hI.lo_lt d1 hm'
  have l2 : w.lo c < w.lo c' := by rw [c3, d3]; exact lt_of_le_of_lt hb1 hD
  have : c = c' := hI.disj c c' n m c1 d1 (c2.trans d2.symm) hn hm' (lt_trans l2 l1) (by rw [d3]; exact hlt)
  subst this
  exact lt_irrefl _ l2

namespace COml

theorem room_of_fits (hr : Roomy cfg L) {n : Node K V} (h : n.fitsOne cfg (cfg.maxKeyLen + cfg.maxPayLen) = true) : Room cfg L n := by
  have := hr.le
  cases hlay : cfg.layout
  · rw [fitsOne_fix hlay] at h
    rw [room_fix hlay]
    omega
  · rw [fitsOne_var hlay] at h
    rw [room_var hlay]
    rw [Nat.mul_add] at h
    omega

/-- A page where the search of a writer may go on. -/
structure Stop (cfg : Cfg K) (L : Nat) (w : World K V) (t0 : Nat) (k : K) (p : Ptr) (n : Node K V) (v : Nat) : Prop where
  atp : AtP w t0 k p
  was : Was w p n v
  removed : n.removed = false
  room : Room cfg L n

theorem Stop.mono {t0 v : Nat} {k : K} {n : Node K V} (h : Stop cfg L w t0 k p n v) (e : Vr w w') : Stop cfg L w' t0 k p n v :=
  ⟨h.atp.ext e.ext, h.was.mono e, h.removed, h.room⟩

/-- The slot a writer has found for its key. -/
structure Turn (cfg : Cfg K) (L : Nat) (w : World K V) (t0 : Nat) (k : K) (p : Ptr) (n : Node K V) (v pos : Nat) (c : Ptr) : Prop where
  stop : Stop cfg L w t0 k p n v
  low : w.lo p ≤ .key k
  high : n.compHighKey k = true
  lvl : w.lvl p = w.lvl c + 1
  search : ∃ rc, n.searchRecord k = .ok (rc, pos)
  child : n.getChild pos = .ok c
  atc : AtP w t0 k c

theorem Turn.mono {t0 v pos : Nat} {k : K} {n : Node K V} {c : Ptr} (h : Turn cfg L w t0 k p n v pos c) (e : Vr w w') :
    Turn cfg L w' t0 k p n v pos c := by
  have f1 := e.ext.fixed p h.stop.was.pub
  have f2 := e.ext.fixed c h.atc.ge.pub
  exact ⟨h.stop.mono e, by rw [f1.2.1]; exact h.low, h.high, by rw [f1.1, f2.1]; exact h.lvl, h.search, h.child, h.atc.ext e.ext⟩

/-! ## The root -/

def rootPost (cfg : Cfg K) (L : Nat) (t : Tid) (w : World K V) (t0 : Nat) (k : K) (o : Option (Ptr × Nat)) (w' : World K V) : Prop :=
  CInv cfg w' ∧ Mv t w w' ∧ ∀ q v, o = some (q, v) → ∃ n, Stop cfg L w' t0 k q n v

theorem tryRootSplit_wp (hr : Roomy cfg L) {t0 v : Nat} {k : K} {n : Node K V} (ha : AtP w t0 k p) (h : Was w p n v) (hrm : n.removed = false)
    (hbig : Big cfg n) (hns : w.NoStale t) (fr : w.NoLk t) :
    WP cfg t (tryRootSplit cfg k p v) (rootPost cfg L t w t0 k) w := by
  unfold tryRootSplit
  refine WP.tryLockSIXc h.pub fr.before (fun w1 w2 r1 i1 x1 v1 o1 k2 i2 six2 hh2 st2 => ?_) (fun w1 r1 i1 => ?_)
  on_goal 2 =>
    rw [if_neg (by simp)]
    exact WP.ret ⟨i1, r1.kp.mv, by simp⟩
  rw [if_pos rfl]
  have h2 := (h.mono r1.vr).hold hrm (r1.kp.noStaleT hns) x1 v1 k2 i2 six2 hh2
  refine WP.getRoot fun w3 r3 i3 => ?_
  have h3 := h2.rely r3
  have k3 : Kp t (· = p) w w3 := ((r1.kpE _).trans k2).trans (r3.kpE _)
  by_cases hroot : p ≠ w3.mem.root
  · rw [if_pos hroot]
    exact h3.unlock fun w4 k4 i4 _ _ => WP.ret ⟨i4, (k3.trans k4).mv, by simp⟩
  rw [if_neg hroot]
  refine WP.bind ((splitNode_wp hr i3 h3 hbig).mono ?_)
  rintro r w4 ⟨i4, t4, pl4, hne, ln, rn, sep, sp, hl4, hr4, pd4, lo4, lv4, -⟩
  refine hl4.load fun w5 r5 i5 hl5 => ?_
  have hr5 := hr4.rely r5
  obtain ⟨nr, e1, e2, e3, e4, e5, -⟩ := newRoot_ok (V := V) hr sep p r
  refine WP.lift (by rw [sp.lhigh]; exact e1) ?_
  refine WP.alloc fun w6 q k6 i6 _ s6 m6 _ => ?_
  refine WP.setRoot (fun w7 _ i7 s7 => (i7.crowd s7).elim) (fun w7 r7 _ x hx => ?_) fun w7 r7 i7 hroot7 => ?_
  · cases (r7.kp.priv q (fun e => e) s6).2.1.symm.trans hx |>.symm.trans m6
    exact e2.notRemoved
  have kp : Kp t noE w4 w7 := (r5.kp.trans k6).trans r7.kp
  have hl7 := hl4.kp kp (fun e => e)
  have hr7 := hr4.kp kp (fun e => e)
  obtain ⟨s7, m7, -⟩ := r7.kp.priv q (fun e => e) s6
  have f3 := t4.ext.fixed p h3.pub
  have fp := kp.ext.fixed p hl4.pub
  have fr := kp.ext.fixed r hr4.pub
  have o8 := ok_grow i7 hroot7 hl7.pub (by rw [fp.1, fr.1, lv4, f3.1]) ((kp.pend r).2 pd4) (by rw [fr.2.1]; exact lo4) s7 (m7.trans m6)
    e2 e3 e4 e5 (fun _ => hl7.own)
  refine ⟨_, rfl, o8, ?_⟩
  set w8 := w7.grow q r with hw8
  have st8 : w8.st = Spec.upd w7.st q .live := rfl
  have live8 : ∀ c, w7.st c = .live → w8.st c = .live := by
    intro c hc
    rw [st8]
    by_cases e : c = q
    · subst e; exact Spec.upd_same _ _ _
    · rw [Spec.upd_ne _ _ e]; exact hc
  have hl8 : HoldX w8 t p ln := ⟨hl7.x, live8 _ hl7.st, hl7.heap, hl7.wr⟩
  have hr8 : HoldX w8 t r rn := ⟨hr7.x, live8 _ hr7.st, hr7.heap, hr7.wr⟩
  have t8 : Th t w7 w8 := by
    refine ⟨OkB.ext o8, rfl, fun e => ⟨fun c τ x => ?_, e.2⟩, rfl, id⟩
    rw [st8]
    by_cases hq : c = q
    · subst hq; rw [Spec.upd_same]; simp
    · rw [Spec.upd_ne _ _ hq]; exact e.1 c τ x
  refine WP.bind ((validSplitNode_wp (k := k) hl8 hr8 hne sp.lhigh).mono ?_)
  rintro ⟨q', sep', v'⟩ w9 ⟨i9, k9, -, c9⟩
  have t04 : Th t w w4 := k3.th.trans t4
  have t49 : Th t w4 w9 := (kp.th.trans t8).trans k9.th
  have pl : PendLe t w w9 := fun c hc => by
    have hc : Spec.upd w7.pend r none c = some t := k9.pendLe c hc
    by_cases e : c = r
    · subst e; rw [Spec.upd_same] at hc; cases hc
    · rw [Spec.upd_ne _ _ e] at hc
      exact k3.pendLe c ((pl4 c (kp.pendLe c hc)).resolve_left e)
  refine WP.ret ⟨i9, ⟨t04.trans t49, pl⟩, ?_⟩
  intro a b e
  cases e
  rcases c9 with ⟨e, -, was9⟩ | ⟨e, hk, was9⟩
  · simp only at e was9
    subst e
    exact ⟨ln, ha.ext (t04.trans t49).ext, was9, sp.left.notRemoved, sp.roomL⟩
  · simp only at e was9
    subst e
    refine ⟨rn, AtP.ext (w := w4) ⟨World.ge_live hr4.st _, le_trans ha.now t04.ext.now, Or.inr ?_⟩ t49.ext, was9, sp.right.notRemoved, sp.roomR⟩
    rw [lo4]
    exact Bd.key_le_key.2 hk

theorem tryShrink_wp {v : Nat} {n : Node K V} (h : Was w p n v) (hrm : n.removed = false) (hns : w.NoStale t) (fr : w.NoLk t) :
    WP cfg t (tryShrink p v) (fun _ w' => CInv cfg w' ∧ Mv t w w') w := by
  unfold tryShrink
  refine WP.peek h.pub fun w1 m r1 i1 hm => ?_
  by_cases hc : m.rc > 1 ∨ m.isInner = false
  · rw [if_pos hc]
    exact WP.ret ⟨i1, r1.kp.mv⟩
  rw [if_neg hc]
  have h1 := h.mono r1.vr
  refine WP.tryLockSIXc h1.pub (fr.rely r1).before (fun w2 w3 r2 i2 x2 v2 o2 k3 i3 six3 hh3 st3 => ?_) (fun w2 r2 i2 => ?_)
  on_goal 2 =>
    rw [if_neg (by simp)]
    exact WP.ret ⟨i2, (r1.trans' r2).kp.mv⟩
  rw [if_pos rfl]
  have h3 := (h1.mono r2.vr).hold hrm ((r1.trans' r2).kp.noStaleT hns) x2 v2 k3 i3 six3 hh3
  refine WP.getRoot fun w4 r4 i4 => ?_
  have k4 : Kp t (· = p) w w4 := (((r1.trans' r2).kpE _).trans k3).trans (r4.kpE _)
  by_cases hroot : p ≠ w4.mem.root
  · rw [if_pos hroot]
    exact (h3.rely r4).unlock fun w5 k5 i5 _ _ => WP.ret ⟨i5, (k4.trans k5).mv⟩
  · rw [if_neg hroot]
    exact WP.note (fun s => (i4.crowd s).elim) fun e => by cases e

theorem getRootForWrite_wp (hr : Roomy cfg L) (k : K) (t0 : Nat) : ∀ (f : Nat) (w : World K V), t0 ≤ w.now → w.NoStale t → w.NoLk t →
    WP cfg t (getRootForWrite cfg k f) (fun x w' => CInv cfg w' ∧ Mv t w w' ∧ ∃ n, Stop cfg L w' t0 k x.1 n x.2) w
  | 0, _, _, _, _ => WP.stuck
  | f + 1, w, ht, hns, fr => by
    unfold getRootForWrite
    refine WP.getRoot fun w1 r1 i1 => ?_
    have a1 : AtP w1 t0 k w1.mem.root := AtP.root i1 (le_trans ht r1.kp.ext.now) k
    have again : ∀ w2, Mv t w w2 → w2.NoLk t → WP cfg t (getRootForWrite cfg k f)
        (fun x w' => CInv cfg w' ∧ Mv t w w' ∧ ∃ n, Stop cfg L w' t0 k x.1 n x.2) w2 := by
      intro w2 t2 fr2
      refine (getRootForWrite_wp hr k t0 f w2 (le_trans ht t2.ext.now) (t2.ns hns) fr2).mono ?_
      rintro x w3 ⟨a, b, c⟩
      exact ⟨a, t2.trans b, c⟩
    refine WP.bind (WP.noLk (checkNodeStatus_g _ _) (fr.rely r1) ((checkNodeStatus_wp hr (le_refl _) (f + 1) w1 a1.ge.pub (r1.kp.noStaleT hns)).mono ?_))
    rintro ⟨rc, v⟩ w2 ⟨i2, t2, e2⟩ fr2
    simp only at e2 ⊢
    have t02 := r1.kp.mv.trans t2
    have a2 := a1.ext t2.ext
    by_cases c1 : rc = .needRetry
    · rw [if_pos c1]; exact again w2 t02 fr2
    rw [if_neg c1]
    rcases e2 with e2 | ⟨n, was2, rm2, e2⟩
    · exact absurd e2 c1
    by_cases c2 : rc = .needSplit
    · rw [if_pos c2]
      rcases e2 with ⟨-, big⟩ | ⟨e2, -⟩
      · refine WP.bind (WP.noLk tryRootSplit_g fr2 ((tryRootSplit_wp hr a2 was2 rm2 big (t02.ns hns) fr2).mono ?_))
        rintro o w3 ⟨i3, t3, e3⟩ fr3
        match o with
        | none => exact again w3 (t02.trans t3) fr3
        | some x => exact WP.ret ⟨i3, t02.trans t3, e3 x.1 x.2 rfl⟩
      · rcases e2 with e2 | e2 <;> rw [c2] at e2 <;> cases e2
    rw [if_neg c2]
    have room2 : Room cfg L n := by
      rcases e2 with ⟨e2, -⟩ | ⟨-, e2⟩
      · exact absurd e2 c2
      · exact room_of_fits hr e2
    by_cases c3 : rc = .needMerge
    · rw [if_pos c3]
      refine WP.bind (WP.noLk tryShrink_g fr2 (WP.withVr ((tryShrink_wp was2 rm2 (t02.ns hns) fr2).mono ?_)))
      rintro b w3 ⟨i3, t3⟩ vr fr3
      cases b with
      | true =>
        rw [if_pos rfl]
        exact WP.ret ⟨i3, t02.trans t3, n, (Stop.mk a2 was2 rm2 room2).mono vr⟩
      | false =>
        rw [if_neg (by simp)]
        exact again w3 (t02.trans t3) fr3
    · rw [if_neg c3]
      exact WP.ret ⟨i2, t02, n, a2, was2, rm2, room2⟩

/-! ## Children -/

theorem trySplit_wp (hr : Roomy cfg L) {t0 pv cv pos : Nat} {k : K} {pn cn : Node K V} {c : Ptr} (h : Turn cfg L w t0 k p pn pv pos c)
    (hc : Was w c cn cv) (hrm : cn.removed = false) (hbig : Big cfg cn) (hns : w.NoStale t) (fr : w.NoLk t) :
    WP cfg t (trySplit cfg k c cv p pv pos) (rootPost cfg L t w t0 k) w := by
  unfold trySplit
  refine WP.tryLockSIXV h.stop.was.pub fr.before (fun w1 w2 r1 i1 x1 v1 o1 k2 i2 six2 hh2 vr2 => ?_) (fun w1 r1 i1 => ?_)
  on_goal 2 =>
    rw [if_neg (by simp)]
    exact WP.ret ⟨i1, r1.kp.mv, by simp⟩
  rw [if_pos rfl]
  have hp2 := (h.stop.was.mono r1.vr).hold h.stop.removed (r1.kp.noStaleT hns) x1 v1 k2 i2 six2 hh2
  have h2 := h.mono vr2
  have k02 : Kp t (· = p) w w2 := (r1.kpE _).trans k2
  have hc2 := hc.mono vr2
  have hpc : p ≠ c := by
    rintro rfl
    have := h.lvl
    omega
  have bf2 : w2.Before t c := fun q ho => by
    by_cases e : q = p
    · subst e; exact ⟨hp2.pub, Or.inl (by rw [h2.lvl]; exact Nat.lt_succ_self _)⟩
    · exact absurd ((k02.own_iff e).1 ho) (fr q).1
  refine WP.tryLockSIXc hc2.pub bf2 (fun w3 w4 r3 i3 x3 v3 o3 k4 i4 six4 hh4 st4 => ?_) (fun w3 r3 i3 => ?_)
  on_goal 2 =>
    rw [if_neg (by simp)]
    exact (hp2.rely r3).unlock fun w4 k4 i4 _ _ => WP.ret ⟨i4, ((k02.trans (r3.kpE _)).trans k4).mv, by simp⟩
  rw [if_pos rfl]
  have hc4 := (hc2.mono r3.vr).hold hrm ((k02.trans (r3.kpE _)).noStaleT hns) x3 v3 k4 i4 six4 hh4
  have hp4 := (hp2.rely r3).kp k4 hpc
  have t04 : Mv t w w4 := (k02.mv.trans r3.kp.mv).trans k4.mv
  have e24 : Ext w2 w4 := r3.kp.ext.trans k4.ext
  -- the slot
  have fp4 := e24.fixed p hp2.pub
  have fc4 := e24.fixed c h2.atc.ge.pub
  have low4 : w4.lo p ≤ .key k := by rw [fp4.2.1]; exact h2.low
  have lvl4 : w4.lvl p = w4.lvl c + 1 := by rw [fp4.1, fc4.1]; exact h2.lvl
  have hok := (i4.page hp4.st hp4.heap).ok
  rw [decide_eq_true (by omega)] at hok
  obtain ⟨T, r0, D, rc, c', g1, g2, g3, g4, -, g6, g7, -⟩ := hok.search_inner k (Bd.gtKey_iff'.2 (compHigh_iff.1 h.high))
  obtain ⟨rc', hs⟩ := h.search
  rw [g2] at hs
  cases hs
  have hch := h.child
  rw [g4] at hch
  cases hch
  have hptr : r0.toPtr = c := by cases r0; simp at g3; subst g3; rfl
  obtain ⟨-, -, s3, s4, -, s6⟩ := i4.slot_high hp4.st hp4.heap lvl4 g1 hptr low4 g7 (Bd.gtKey_iff'.1 g6)
  have s6 := s6 cn hc4.heap
  refine WP.bind ((splitNode_wp hr i4 hc4 hbig).mono ?_)
  rintro r w5 ⟨i5, t5, pl5, hne, ln, rn, sep, sp, hl5, hr5, pd5, lo5, lv5, keep5⟩
  obtain ⟨hp5, hpr⟩ := keep5 p pn hpc hp4
  have hlosep : w4.lo c < .key sep := Bd.lt_iff.1 sp.sepLo
  have hsepT : T ≠ [] → ∃ a, r0.key = some a ∧ a < sep := by
    intro e
    obtain ⟨a, ha, -⟩ := g7 e
    refine ⟨a, ha, ?_⟩
    have := s3 e
    rw [ha] at this
    rw [this] at hlosep
    exact Bd.key_lt_key.1 hlosep
  have hsepD : .key sep < hiB (hdKey D pn.high) := lt_of_lt_of_le (Bd.lt_iff.1 sp.sepHi) s6
  obtain ⟨pn', p1, p2, p3, p4⟩ := placeChild_ok (q := r) hok g1 (h.stop.room.fitsOne_inner hr sep) hsepT
    (Bd.lt_iff.2 (lt_of_le_of_lt s4 hlosep)) (Bd.gtKey_iff'.2 hsepD)
  refine WP.bind ((validSplitNode_wp (k := k) hl5 hr5 hne sp.lhigh).mono ?_)
  rintro ⟨q', sep', v'⟩ w6 ⟨i6, k6, e6, c6⟩
  simp only at e6 c6
  subst e6
  have t06 : Th t w w6 := (t04.toTh.trans t5).trans k6.th
  have stop6 : ∃ n, Stop cfg L w6 t0 k q' n v' := by
    rcases c6 with ⟨e, -, was6⟩ | ⟨e, hk, was6⟩
    · subst e
      exact ⟨ln, h.atc.ext t06.ext, was6, sp.left.notRemoved, sp.roomL⟩
    · subst e
      refine ⟨rn, AtP.ext (w := w5) ⟨World.ge_live hr5.st _, ?_, Or.inr ?_⟩ k6.ext, was6, sp.right.notRemoved, sp.roomR⟩
      · exact le_trans h.atc.now (t04.toTh.trans t5).ext.now
      · rw [lo5]
        exact Bd.key_le_key.2 hk
  have hp6 := hp5.kp k6 (by rintro (e | e); exacts [hpc e, hpr e])
  refine WP.withVr ?_
  refine hp6.upgrade fun w7 k7 i7 h7 => ?_
  refine h7.load fun w8 r8 i8 h8 => ?_
  refine WP.lift p1 (h8.store fun w9 r9 i9 h9 => ?_)
  have k69 : Kp t (· = p) w6 w9 := (k7.trans (r8.kpE _)).trans (r9.kpE _)
  have e59 : Ext w5 w9 := k6.ext.trans k69.ext
  have fp5 := t5.ext.fixed p hp4.pub
  have fp9 := e59.fixed p hp5.pub
  have fr9 := e59.fixed r hr5.pub
  obtain ⟨wA, mA, oA, tA, -, plA, hA⟩ := ok_link i9 h9 (r := r) (sep := sep) (n' := pn') (by rw [fp9.1, fr9.1, lv5, fp5.1]; exact lvl4)
    ((k69.pend r).2 ((k6.pend r).2 pd5)) (fr9.2.1.trans lo5) p3 (by rw [fp9.2.1, fp5.2.1]; exact p2) (by
      intro b c
      rw [p4, g1]
      exact kids_place)
  refine ⟨wA, mA, oA, hA.unlock fun wB kB iB _ _ => WP.ret fun vr => ⟨iB, ⟨((t06.trans k69.th).trans tA).trans kB.th, fun q hq => ?_⟩, ?_⟩⟩
  · obtain ⟨hne, hq⟩ := plA q (kB.pendLe q hq)
    exact t04.pl q ((pl5 q (k6.pendLe q (k69.pendLe q hq))).resolve_left hne)
  intro q v e
  cases e
  obtain ⟨n, hn⟩ := stop6
  exact ⟨n, hn.mono vr⟩

theorem tryMerge_wp {junk : Node K V → Node K V → K} {t0 pv cv pos : Nat} {k : K} {pn cn : Node K V} {c : Ptr}
    (h : Turn cfg L w t0 k p pn pv pos c) (hc : Was w c cn cv) (hrm : cn.removed = false) (hns : w.NoStale t) (fr : w.NoLk t) :
    WP cfg t (tryMerge cfg junk c cv p pv pos) (fun o w' => CInv cfg w' ∧ Mv t w w' ∧ ∀ v, o = some v → v = cv) w := by
  unfold tryMerge
  refine WP.tryLockSIXV h.stop.was.pub fr.before (fun w1 w2 r1 i1 x1 v1 o1 k2 i2 six2 hh2 vr2 => ?_) (fun w1 r1 i1 => ?_)
  on_goal 2 =>
    rw [if_neg (by simp)]
    exact WP.ret ⟨i1, r1.kp.mv, by simp⟩
  rw [if_pos rfl]
  have hp2 := (h.stop.was.mono r1.vr).hold h.stop.removed (r1.kp.noStaleT hns) x1 v1 k2 i2 six2 hh2
  have h2 := h.mono vr2
  have k02 : Kp t (· = p) w w2 := (r1.kpE _).trans k2
  have hc2 := hc.mono vr2
  have hpc : p ≠ c := by
    rintro rfl
    have := h.lvl
    omega
  have bf2 : w2.Before t c := fun q ho => by
    by_cases e : q = p
    · subst e; exact ⟨hp2.pub, Or.inl (by rw [h2.lvl]; exact Nat.lt_succ_self _)⟩
    · exact absurd ((k02.own_iff e).1 ho) (fr q).1
  refine WP.tryLockSIXc hc2.pub bf2 (fun w3 w4 r3 i3 x3 v3 o3 k4 i4 six4 hh4 st4 => ?_) (fun w3 r3 i3 => ?_)
  on_goal 2 =>
    rw [if_neg (by simp)]
    exact (hp2.rely r3).unlock fun w4 k4 i4 _ _ => WP.ret ⟨i4, ((k02.trans (r3.kpE _)).trans k4).mv, by simp⟩
  rw [if_pos rfl]
  have hc4 := (hc2.mono r3.vr).hold hrm ((k02.trans (r3.kpE _)).noStaleT hns) x3 v3 k4 i4 six4 hh4
  have hp4 := (hp2.rely r3).kp k4 hpc
  have t04 : Mv t w w4 := (k02.mv.trans r3.kp.mv).trans k4.mv
  have e24 : Ext w2 w4 := r3.kp.ext.trans k4.ext
  have fp4 := e24.fixed p hp2.pub
  have fc4 := e24.fixed c h2.atc.ge.pub
  have lvl4 : w4.lvl p = w4.lvl c + 1 := by rw [fp4.1, fc4.1]; exact h2.lvl
  refine hp4.load fun w5 r5 i5 hp5 => ?_
  have hc5 := hc4.rely r5
  have t05 := t04.trans r5.kp.mv
  by_cases hlast : pos + 1 = pn.rc
  · rw [if_pos hlast]
    refine hp5.unlock fun w6 k6 i6 _ _ => ?_
    refine (hc5.kp k6 (Ne.symm hpc)).unlock fun w7 k7 i7 _ _ => WP.ret ⟨i7, (t05.trans k6.mv).trans k7.mv, ?_⟩
    rintro v e
    cases e; rfl
  rw [if_neg hlast]
  have pg := i4.page hp4.st hp4.heap
  have hok := pg.ok
  rw [decide_eq_true (by omega)] at hok
  obtain ⟨T, r0, D, rc, c', g1, g2, g3, g4, -, g6, g7, -⟩ := hok.search_inner k (Bd.gtKey_iff'.2 (compHigh_iff.1 h.high))
  obtain ⟨rc', hs⟩ := h.search
  rw [g2] at hs
  cases hs
  obtain ⟨d, D', rfl⟩ : ∃ d D', D = d :: D' := by
    cases D with
    | nil =>
      refine absurd ?_ hlast
      show _ = pn.recs.length
      rw [g1]; simp
    | cons d D' => exact ⟨d, D', rfl⟩
  obtain ⟨r, hdr⟩ := hok.inner.ptrs d (by rw [g1]; simp)
  have hptr : d.toPtr = r := by cases d; simp at hdr; subst hdr; rfl
  have hget : pn.getChild (T.length + 1) = .ok r := by
    cases d
    simp at hdr
    subst hdr
    simp [Node.getChild, g1]
  refine WP.lift hget ?_
  obtain ⟨sr, lr, lor⟩ := pg.kids (w4.lvl c) lvl4 (hiB d.key) r (by rw [g1, ← hptr]; exact kids_drop.2 (Or.inr rfl))
  have pr5 : w5.Pub r := r5.kp.ext.pub (World.pub_live sr)
  have bf5 : w5.Before t r := by
    have fr5 := r5.kp.ext.fixed r (World.pub_live sr)
    have fp5 := r5.kp.ext.fixed p hp4.pub
    have fc5 := r5.kp.ext.fixed c hc4.pub
    intro q ho
    by_cases e : q = p
    · subst e; exact ⟨hp5.pub, Or.inl (by rw [fr5.1, fp5.1, lr, lvl4]; exact Nat.lt_succ_self _)⟩
    · by_cases e' : q = c
      · subst e'
        refine ⟨hc5.pub, Or.inr ⟨by rw [fr5.1, fc5.1, lr], ?_⟩⟩
        rw [fr5.2.1, fc5.2.1, lor]
        have hch := h.child
        rw [g4] at hch
        have hcq := Res.ok.inj hch
        have hptr' : r0.toPtr = q := by rw [← hcq]; cases r0; simp at g3; subst g3; rfl
        obtain ⟨-, -, -, -, s5, -⟩ := i4.slot_high hp4.st hp4.heap lvl4 g1 hptr' (by rw [fp4.2.1]; exact h2.low) g7 (Bd.gtKey_iff'.1 g6)
        exact lt_of_le_of_lt s5 (Bd.gtKey_iff'.1 g6)
      · have ho4 := (r5.kp.own_iff (fun e => e)).1 ho
        have ho3 := (k4.own_iff e').1 ho4
        have ho2 := (r3.kp.own_iff (fun e => e)).1 ho3
        exact absurd ((k02.own_iff e).1 ho2) (fr q).1
  refine WP.lockSIXc pr5 bf5 fun w6 no6 k6 i6 six6 => ?_
  have hrp : p ≠ r := by
    rintro rfl
    exact no6 hp5.own
  have hrc : c ≠ r := by
    rintro rfl
    exact no6 hc5.own
  have hp6 := hp5.kp k6 hrp
  have hc6 := hc5.kp k6 hrc
  have t06 := t05.trans k6.mv
  have pr6 := k6.ext.pub pr5
  obtain ⟨rn, hrn⟩ := i6.some_of_own (Or.inl six6)
  refine hc6.load fun w7 r7 i7 hc7 => ?_
  have six7 := (r7.kp.six r (fun e => e)).2 six6
  have hrn7 := ((r7.kp.own r (fun e => e) (Or.inl six6)).1).trans hrn
  refine WP.load (Or.inl six7) hrn7 fun w8 r8 i8 => ?_
  by_cases hcm : cn.canMerge cfg rn = true
  · rw [if_pos hcm]
    exact WP.note (fun s => (i8.crowd s).elim) fun e => by cases e
  rw [if_neg hcm]
  have hp8 := (hp6.rely r7).rely r8
  have hc8 := hc7.rely r8
  have six8 := (r8.kp.six r (fun e => e)).2 six7
  have t08 := (t06.trans r7.kp.mv).trans r8.kp.mv
  refine hp8.unlock fun w9 k9 i9 _ _ => ?_
  refine (hc8.kp k9 (Ne.symm hpc)).unlock fun wA kA iA _ _ => ?_
  have sixA := (kA.six r (Ne.symm hrc)).2 ((k9.six r (Ne.symm hrp)).2 six8)
  have t0A := (t08.trans k9.mv).trans kA.mv
  have prA := (((r7.kp.ext.trans r8.kp.ext).trans k9.ext).trans kA.ext).pub pr6
  refine WP.unlockSIX prA sixA (fun τ q => (t0A.ns hns).1 r τ q) fun wB kB iB _ _ => WP.ret ⟨iB, t0A.trans kB.mv, ?_⟩
  rintro v e
  cases e; rfl

end COml
end BT
