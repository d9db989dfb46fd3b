import Verif.LinFacts
import Verif.ConcMerge

/-!
# The tail of `Write` and `Insert`, and the initial state
-/

set_option linter.unusedSectionVars false

namespace BT
open Spec
variable {K V : Type} [LinearOrder K] {cfg : Cfg K} {L : Nat} {w w' : World K V} {t : Tid} {p : Ptr}

theorem Th.wait {op : Op K V} (h : Th t w w') (hw : w.Wait t op) : w'.Wait t op := by
  obtain ⟨t0, e⟩ := hw
  exact ⟨t0, h.ph.trans e⟩

theorem Th.done {out : Out K V} (h : Th t (w.done t out) w') : w'.ps.ph t = .done out := h.ph.trans (Spec.upd_same _ _ _)

theorem World.Wr.of (h : w.solo = false) : w.Wr t := fun e => by rw [h] at e; cases e

/-- What a call of thread `t` that begins in `w` must achieve. -/
def Ended (t : Tid) (w : World K V) (out : Out K V) (w' : World K V) : Prop :=
  w'.ps.ph t = .done out ∧ w'.NoStale t ∧ w'.Clean t ∧ w'.solo = w.solo

theorem Kp.fin {E : Ptr → Prop} {out : Out K V} {w1 w2 : World K V} (h : Kp t E (w1.done t out) w2) (hns : w1.NoStale t) (hcl : w1.Clean t)
    (hs : w1.solo = w.solo) : Ended t w out w2 :=
  ⟨h.ph.trans (Spec.upd_same _ _ _), h.noStaleT hns, World.Clean.le (w := w1.done t out) hcl h.pendLe, h.wr.1.trans hs⟩

theorem Ended.th {out : Out K V} {w1 w2 : World K V} (h : Ended t w out w1) (h' : Th t w1 w2) (hp : PendLe t w1 w2) : Ended t w out w2 :=
  ⟨h'.ph.trans h.1, h'.ns h.2.1, h.2.2.1.le hp, h'.wr.1.trans h.2.2.2⟩

theorem Ended.now {out : Out K V} {w1 : World K V} (hns : w1.NoStale t) (hcl : w1.Clean t) (hs : w1.solo = w.solo) : Ended t w out (w1.done t out) :=
  ⟨Spec.upd_same _ _ _, hns, hcl, hs⟩

theorem Ended.from {out : Out K V} {w1 w2 : World K V} (h : Ended t w1 out w2) (hs : w1.solo = w.solo) : Ended t w out w2 :=
  ⟨h.1, h.2.1, h.2.2.1, h.2.2.2.trans hs⟩

/-- What thread `t` did from `w` to `w'`, when it may have written more than one page. -/
structure Mv (t : Tid) (w w' : World K V) : Prop extends Th t w w' where
  pl : PendLe t w w'

theorem Mv.trans {w1 w2 : World K V} (h : Mv t w w1) (h' : Mv t w1 w2) : Mv t w w2 := ⟨h.1.trans h'.1, h.2.trans h'.2⟩
theorem Kp.mv {E : Ptr → Prop} (h : Kp t E w w') : Mv t w w' := ⟨h.th, h.pendLe⟩
theorem Mv.clean (h : Mv t w w') (hcl : w.Clean t) : w'.Clean t := hcl.le h.2

namespace CBlink

theorem splitAnd_wp (hr : Roomy cfg L) (hb : cfg.blink = true) {nav : Nav K V} (hnav : NavOk cfg nav) {fuel : Nat} {leaf : Ptr}
    {stack : List Ptr} {k : K} {n : Node K V} {op : Ptr → Prog K V NodeRC} {o : Op K V} {out : Out K V} (hI : CInv cfg w)
    (hns : w.NoStale t) (h : Leaf w t leaf k n) (hbig : Big cfg n) (habs : ∀ v, (k, v) ∉ pairs n.recs) (hs : StackOk w (.key k) 1 stack)
    (hw : w.Wait t o) (hcl : w.Clean t) (hon : w.Only t leaf)
    (hop : ∀ q m w1, CInv cfg w1 → Leaf w1 t q k m → Room cfg L m → (∀ x ∈ m.recs, x.del = false) → (∀ v, (k, v) ∉ pairs m.recs) →
      w1.Wait t o →
      WP cfg t (op q) (fun _ w2 => CInv cfg w2 ∧ Kp t (· = q) (w1.done t out) w2 ∧ ¬ w2.Own t q ∧ Kept w2 q m) w1) :
    WP cfg t (splitAnd nav cfg fuel leaf stack k op) (fun _ w' => CInv cfg w' ∧ w'.ps.ph t = .done out ∧ w'.NoStale t ∧ w'.Clean t ∧
      w'.solo = w.solo) w := by
  unfold splitAnd
  refine WP.bind ((halfSplit_wp hr hI h.hold hbig).mono ?_)
  rintro ⟨r, sepO⟩ w1 ⟨i1, t1, hne, ln, rn, sep, e1, sp, hl1, hr1, pd1, lo1, lv1, -, sub1, own1⟩
  simp only at e1 hr1 pd1 lo1 lv1 hne
  subst e1
  have hnx : ln.next = some r := sp.lnext (by simp [Node.hasNext, hb])
  refine WP.bind ((validSplitNode_wp (k := k) hl1 hr1 hne hnx (by rw [lo1, sp.lhigh]; rfl)).mono ?_)
  rintro target w2 ⟨i2, t2, pd2, h2, own2⟩
  have t02 := t1.trans t2
  have fl2 := t02.ext.fixed leaf h.hold.pub
  have fr2 := t2.ext.fixed r hr1.pub
  have hmem : ∀ v, (k, v) ∉ pairs ln.recs ∧ (k, v) ∉ pairs rn.recs := by
    intro v
    have := habs v
    rw [sp.pairs, List.mem_append, not_or] at this
    exact this
  have htgt : ∃ m, Leaf w2 t target k m ∧ Room cfg L m ∧ (∀ x ∈ m.recs, x.del = false) ∧ (∀ v, (k, v) ∉ pairs m.recs) ∧
      (if target = leaf then m.high else m.low) = some sep := by
    rcases h2 with ⟨rfl, a, b⟩ | ⟨rfl, a, b⟩
    · exact ⟨ln, ⟨a, by rw [fl2.1]; exact h.lvl, by rw [fl2.2.1]; exact h.low, b⟩, sp.roomL, sp.liveL, fun v => (hmem v).1,
        by rw [if_pos rfl]; exact sp.lhigh⟩
    · exact ⟨rn, ⟨a, by rw [fr2.1, lv1]; exact h.lvl, by rw [fr2.2.1]; exact b, by rw [sp.rhigh]; exact h.high⟩, sp.roomR,
        sp.liveR, fun v => (hmem v).2, by rw [if_neg hne]; exact sp.rlow⟩
  obtain ⟨m, hm1, hm2, hm3, hm4, hm5⟩ := htgt
  refine WP.bind ((hop target m w2 i2 hm1 hm2 hm3 hm4 (t02.wait hw)).mono ?_)
  rintro - w3 ⟨i3, k3, own3, kept3⟩
  have e23 : Ext w2 w3 := by
    obtain ⟨a, b, c, d, e, f⟩ := k3.ext
    exact ⟨a, b, c, d, e, f⟩
  refine WP.bind ((separatorKey_wp (sep := sep) (l := leaf) (e23.pub hm1.hold.pub) (k3.wr.2 hm1.hold.wr) (fun s => by
    obtain ⟨m', a, b, c⟩ := kept3 s
    refine ⟨m', a, ?_⟩
    rw [b, c]; exact hm5)).mono ?_)
  rintro key' w4 ⟨i4, k4, rfl⟩
  have e24 := e23.trans k4.ext
  have e14 := t2.ext.trans e24
  have e04 := t02.ext.trans e24
  have wr4 : w4.Wr t := k4.wr.2 (k3.wr.2 hm1.hold.wr)
  have so4 : w4.solo = w.solo := k4.wr.1.trans (k3.wr.1.trans t02.wr.1)
  have hns4 : w4.NoStale t := k4.noStaleT (k3.noStaleT (t02.ns hns))
  have fr4 := e14.fixed r hr1.pub
  have fl4 := e04.fixed leaf h.hold.pub
  have hl4 : w4.lvl r = 0 := by rw [fr4.1, lv1]; exact h.lvl
  have ba4 : w4.Bare t := by
    intro s4 q hq
    have h3 := k4.ownLe q (fun e => e) hq
    have hqt : q ≠ target := by rintro rfl; exact own3 h3
    obtain ⟨x1, x2⟩ := own2 q (k3.ownLe q hqt h3)
    rcases own1 q x1 with e | e | e
    · exact hqt (x2 (Or.inl e))
    · exact hqt (x2 (Or.inr e))
    · exact hqt (x2 (Or.inl (hon (so4.symm.trans s4) q e)))
  refine (completeSplit_wp hr hb hnav fuel stack leaf r key' w4 i4 hns4 wr4 ((k4.pend r).2 ((k3.pend r).2 ((pd2 r).2 pd1)))
    (e04.pub h.hold.pub) (by rw [fl4.1, hl4]; exact h.lvl) (fr4.2.1.trans lo1) ?_ ba4).mono ?_
  · rw [hl4]
    have hbd : StackOk w (w.lo leaf) 1 stack := StackOk.bound hI h.hold.st h.hold.heap h.high (by rw [h.lvl]; omega) hs
    exact (hbd.mono (le_of_lt (Bd.lt_iff.1 sp.sepLo))).ext e04
  · rintro - w5 ⟨i5, t5, p5⟩
    refine ⟨i5, t5.ph.trans (k4.ph.trans (k3.ph.trans (Spec.upd_same _ _ _))), t5.ns hns4, fun q hq => ?_, t5.wr.1.trans so4⟩
    obtain ⟨x1, x2⟩ := p5 q hq
    rcases sub1 q ((pd2 q).1 (k3.pendLe q (k4.pendLe q x2))) with e | e
    · exact x1 e
    · exact hcl q e

end CBlink

/-! ## The empty tree -/

/-- The world of the empty tree. -/
def World.start (strict : Bool) (solo : Bool := false) : World K V where
  mem := (Conf.init : Conf K V).mem
  ps := ⟨0, fun _ => Spec.empty, fun _ => .idle⟩
  lvl := fun _ => 0
  lo := fun _ => .bot
  born := fun _ => 0
  st := fun p => if p = 0 then .live else .free
  rep := id
  pend := fun _ => none
  top := 0
  shr := none
  strict := strict
  solo := solo
  wr := none

theorem World.start_pub {b s : Bool} : (World.start b s : World K V).Pub p ↔ p = 0 := by
  by_cases h : p = 0 <;> simp [World.Pub, World.start, h]

theorem CInv.start (cfg : Cfg K) (so : Bool) (hs : so = true → cfg.blink = true) : CInv cfg (World.start (!cfg.blink) so : World K V) := by
  have hst : ∀ p, (World.start (!cfg.blink) so : World K V).st p = if p = 0 then .live else .free := fun _ => rfl
  have hheap : ∀ p, (World.start (!cfg.blink) so : World K V).heap p = if p = 0 then some Node.emptyLeaf else none := fun _ => rfl
  have h0 : ∀ {p s}, (World.start (!cfg.blink) so : World K V).st p = s → s ≠ .free → p = 0 := by
    intro p s h hs
    by_contra hp
    rw [hst, if_neg hp] at h
    exact hs h.symm
  have hbad : ∀ {p s}, (World.start (!cfg.blink) so : World K V).st p = s → s ≠ .free → s = .live := by
    intro p s h hs
    rw [hst] at h
    split at h
    · exact h.symm
    · exact absurd h.symm hs
  refine ⟨⟨rfl, rfl⟩, ?_, ?_, ?_, ?_, ?_, ?_, ?_, ?_, ?_, ?_, ?_, ?_, ?_, ?_, ?_, ?_, ?_, ?_, ?_, ?_⟩
  · intro p t h; cases h
  · rintro p u - ((h | h) | h) <;> cases h
  · intro p
    rw [hst, hheap]
    split <;> simp
  · intro p hp
    rw [hheap, if_neg]
    rintro rfl
    exact absurd hp (Nat.not_succ_le_zero 0)
  · intro p hp
    have := h0 hp (by simp)
    subst this
    refine ⟨Node.emptyLeaf, rfl, ⟨by simpa [World.start] using emptyLeaf_ok cfg, Or.inl ⟨rfl, fun _ => rfl⟩, fun i hi => (by cases hi), ?_⟩⟩
    intro _
    intro k _ _ v
    have hm : (World.start (!cfg.blink) so : World K V).maps (World.start (!cfg.blink) so : World K V).now k = none := rfl
    rw [hm]
    simp [Node.emptyLeaf, pairs]
  · intro p _; exact le_refl _
  · intro p τ q u h; have := hbad h (by simp); cases this
  · intro p τ q h; have := hbad h (by simp); cases this
  · intro p h; have := hbad h (by simp); cases this
  · intro p q n m hp hq _ _ _ _ _
    rw [h0 hp (by simp), h0 hq (by simp)]
  · intro r t h; cases h
  · exact Or.inl ⟨rfl, rfl, rfl, rfl⟩
  · intro p τ q u n r h; have := hbad h (by simp); cases this
  · intro p _; exact le_refl _
  · intro p hp
    rw [World.start_pub] at hp
    subst hp
    exact ⟨Or.inl rfl, rfl, le_refl _⟩
  · intro p _; rfl
  · intro p τ q u h; have := hbad h (by simp); cases this
  · intro p τ q h; have := hbad h (by simp); cases this
  · intro p _; exact Or.inl rfl
  · intro h
    have h : so = true := h
    exact ⟨by show (!cfg.blink) = false; rw [hs h]; rfl, fun q u e => (by cases e), fun q τ c u e => absurd (h0 e (by simp)) (by rintro rfl; rw [hst] at e; cases e)⟩

theorem World.NoLk.of_lk {w : World K V} {t : Tid} (h : ∀ q, w.lk q = {}) : w.NoLk t := fun q => by simp [World.Own, h q]

theorem sim_start (cfg : Cfg K) : (blg V cfg).Sim Spec.empty (Conf.init : Conf K V) := by
  refine Or.inr ⟨World.start (!cfg.blink), rfl, CInv.start cfg false (by simp), Past.init _ rfl, fun t => ⟨fun _ => ⟨rfl, ?_, rfl, fun _ => .of_lk fun _ => rfl, fun q h => by cases h⟩,
    fun p hp => by cases hp⟩⟩
  refine ⟨fun p τ q h => ?_, fun h => (by cases h)⟩
  have h : (if p = 0 then PSt.live else PSt.free) = .stale τ q t := h
  split at h <;> cases h

end BT
