import Verif.OslConcOk
import Verif.OmlConcOk
import Verif.PslScanOk
import Verif.OscanPart

/-!
# Scans of OSL
-/

set_option linter.unusedSectionVars false

namespace BT
open Spec
variable {K V : Type} [LinearOrder K] {cfg : Cfg K} {L : Nat} {w w' : World K V} {t : Tid} {p : Ptr}

/-- A leaf at the last instant at which it was part of the tree; the page may be marked as removed. -/
theorem CInv.leafSnap (hI : CInv cfg w) {σ : Nat} (hg : w.Ge σ p) (hσ : σ ≤ w.now) {n : Node K V} (hn : w.heap p = some n) (hl : w.lvl p = 0) :
    ∃ τ, σ ≤ τ ∧ τ ≤ w.now ∧ w.Ge τ p ∧ NodeOk cfg false (w.lo p) { n with removed := false } ∧ Agrees (w.maps τ) (w.lo p) n ∧
      (n.next = none → n.high = none) ∧ ∀ q, n.next = some q → w.Ge τ q ∧ w.lvl q = 0 ∧ w.lo q ≤ hiB n.high := by
  have hok := hI.okAny hg.pub hn
  rw [hl] at hok
  cases hr : n.removed with
  | false =>
    obtain ⟨τ, sn⟩ := hI.snap hg hσ hn hr
    have hge : w.Ge τ p := by
      rcases sn.st with e | ⟨q, u, e⟩
      · exact World.ge_live e _
      · unfold World.Ge
        rw [e]
    refine ⟨τ, sn.lo, sn.hi, hge, hok, sn.pg.agree hl, fun e => ?_, fun q e => ?_⟩
    · rcases sn.pg.nextB (Or.inr hl) with ⟨a, -⟩ | ⟨h, q, -, b, -⟩
      · exact a
      · rw [e] at b; cases b
    · rcases sn.pg.nextB (Or.inr hl) with ⟨-, b⟩ | ⟨h, q', a, b, c, d1, d2⟩
      · rw [e] at b; cases b
      · rw [e] at b; cases b
        exact ⟨c.1, d1.trans hl, by rw [d2, a]; exact le_refl _⟩
  | true =>
    rcases World.pub_cases hg.pub with e | ⟨τ, q, u, e⟩ | ⟨τ, q, e⟩ | e
    · have := (hI.page e hn).ok.notRemoved
      rw [hr] at this; cases this
    · obtain ⟨-, -, -, -, -, m, f, g⟩ := hI.stale p τ q u e
      rw [hn] at f; cases f
      have := g.ok.notRemoved
      rw [hr] at this; cases this
    · obtain ⟨a, b, c, d, m, f, -, g2, -, g4⟩ := hI.merged p τ q e
      rw [hn] at f; cases f
      have hστ : σ ≤ τ := by
        unfold World.Ge at hg
        rw [e] at hg; exact hg
      have hge : w.Ge τ p := by
        unfold World.Ge
        rw [e]
      refine ⟨τ, hστ, a, hge, hok, g4 hl, fun e' => ?_, fun q' e' => ?_⟩
      · rw [g2] at e'; cases e'
      · rw [g2] at e'; cases e'
        exact ⟨b, c.trans hl, le_trans (le_of_lt d) (le_of_lt (Bd.lt_iff.1 hok.lt))⟩
    · exact absurd hl (hI.gone p e).1

/-- Page `p` contained `n` at some earlier time, when its version was `v`. -/
def SeenBy (t : Tid) (w : World K V) (p : Ptr) (n : Node K V) (v : Nat) : Prop := ∃ w0, Seen w0 p n v ∧ Rely t w0 w

theorem SeenBy.rely {n : Node K V} {v : Nat} (h : SeenBy t w p n v) (r : Rely t w w') : SeenBy t w' p n v :=
  ⟨h.choose, h.choose_spec.1, h.choose_spec.2.trans' r⟩

theorem Seen.by {n : Node K V} {v : Nat} (h : Seen w p n v) : SeenBy t w p n v := ⟨w, h, Rely.refl t w⟩

theorem SeenBy.last {n : Node K V} {v : Nat} (h : SeenBy t w p n v) (hx : (w.lk p).x = none) (hv : (w.lk p).ver = v) : Seen w p n v := by
  obtain ⟨w0, a, b⟩ := h
  exact a.last b hx hv

theorem SeenBy.mid {n m : Node K V} {v : Nat} {w1 : World K V} (h : SeenBy t w p n v) (r : Rely t w w1)
    (hx : (w1.lk p).x = none) (hv : (w1.lk p).ver = v) (hm : w.heap p = some m) : m = n := by
  obtain ⟨w0, a, b⟩ := h
  exact a.mid b r hx hv hm

/-- A page that is still the same has version `v` and no X lock. -/
def Same (w : World K V) (p : Ptr) (v : Nat) : Prop := (w.lk p).x = none ∧ (w.lk p).ver = v

namespace COsl

/-- What an iterator has yet to read. -/
def It.lo (it : It K) : ScanKey K := it.key.map fun k => (k, it.closed)

/-- A scan in progress. -/
structure Scan (t : Tid) (w : World K V) (t0 : Nat) (b0 e : ScanKey K) (σ : Nat) (b : ScanKey K) (acc : List (K × V)) (H : Bd K) : Prop where
  now : σ ≤ w.now
  ph : w.ps.ph t = .waiting (.scan b0 e) t0
  cov : Cov w.maps t0 (.scan b0 e) σ b e acc H
  key : startB b ≤ H

/-- A leaf where the scan may go on. -/
structure Here (w : World K V) (σ : Nat) (H : Bd K) (p : Ptr) : Prop where
  ge : w.Ge σ p
  lvl : w.lvl p = 0
  low : w.lo p ≤ H

section
variable {t0 σ : Nat} {b0 e b : ScanKey K} {acc : List (K × V)} {H : Bd K}

theorem Scan.rely (h : Scan t w t0 b0 e σ b acc H) (r : Rely t w w') : Scan t w' t0 b0 e σ b acc H :=
  ⟨le_trans h.now r.kp.ext.now, r.kp.ph.trans h.ph, h.cov.congr fun l hl => r.kp.ext.maps l (le_trans hl h.now), h.key⟩

theorem Here.rely (h : Here w σ H p) (hn : σ ≤ w.now) (r : Rely t w w') : Here w' σ H p := by
  have f := r.kp.ext.fixed p h.ge.pub
  exact ⟨r.kp.ext.ge h.ge hn, f.1.trans h.lvl, by rw [f.2.1]; exact h.low⟩

theorem checkO_leaf (k : K) (hk : .key k ≤ H) : ∀ (f : Nat) (p : Ptr) (w : World K V), Here w σ H p → σ ≤ w.now →
    WP cfg t (checkO k f p) (fun o w' => CInv cfg w' ∧ Rely t w w' ∧ ∃ q v n, o = some (q, v) ∧ Seen w' q n v ∧ Here w' σ H q) w
  | 0, _, _, _, _ => WP.stuck
  | f + 1, p, w, h, hσ => by
    unfold checkO
    have hp := h.ge.pub
    refine WP.getVer hp fun w1 r1 i1 x1 => ?_
    have h1 := h.rely hσ r1
    obtain ⟨n, hn⟩ := i1.some_of_pub h1.ge.pub
    have s1 : SeenBy t w1 p n (w1.lk p).ver := Seen.by ⟨h1.ge.pub, x1, rfl, hn⟩
    refine WP.peek h1.ge.pub fun w2 n1 r2 i2 hn1 => ?_
    have r12 := r1.trans' r2
    have h2 := h.rely hσ r12
    refine WP.peek h2.ge.pub fun w3 n2 r3 i3 hn2 => ?_
    have r13 := r12.trans' r3
    have h3 := h.rely hσ r13
    have again : ∀ w', Rely t w w' → WP cfg t (checkO k f p)
        (fun o w' => CInv cfg w' ∧ Rely t w w' ∧ ∃ q v n, o = some (q, v) ∧ Seen w' q n v ∧ Here w' σ H q) w' := fun w' r =>
      (checkO_leaf k hk f p w' (h.rely hσ r) (le_trans hσ r.kp.ext.now)).mono fun o w2 ⟨a, b, c⟩ => ⟨a, r.trans' b, c⟩
    by_cases hc : n1.removed = false ∧ n2.compHighKey k = true
    · rw [if_pos hc]
      refine WP.same h3.ge.pub (fun w4 r4 i4 x4 v4 => ?_) (fun w4 r4 _ => again w4 (r13.trans' r4))
      rw [if_pos rfl]
      have r := r13.trans' r4
      exact WP.ret ⟨i4, r, p, _, n, rfl, (s1.rely ((r2.trans' r3).trans' r4)).last x4 v4, h.rely hσ r⟩
    · rw [if_neg hc]
      refine WP.peek h3.ge.pub fun w4 n3 r4 i4 hn3 => ?_
      have r14 := r13.trans' r4
      have h4 := h.rely hσ r14
      refine WP.same h4.ge.pub (fun w5 r5 i5 x5 v5 => ?_) (fun w5 r5 _ => again w5 (r14.trans' r5))
      have e1 := (s1.rely r2).mid ((r3.trans' r4).trans' r5) x5 v5 hn1
      have e2 := (s1.rely (r2.trans' r3)).mid (r4.trans' r5) x5 v5 hn2
      have e3 := (s1.rely ((r2.trans' r3).trans' r4)).mid r5 x5 v5 hn3
      subst e1; subst e2; subst e3
      have r := r14.trans' r5
      have h5 := h.rely hσ r
      have s5 := (s1.rely (((r2.trans' r3).trans' r4).trans' r5)).last x5 v5
      rw [if_pos rfl]
      have hnow5 := le_trans hσ r.kp.ext.now
      have hq : ∃ q, n3.next = some q ∧ Here w5 σ H q := by
        cases hr : n3.removed with
        | true =>
          rcases i5.fwd h5.ge s5.heap hr with ⟨q, a, b, c, d, -⟩ | ⟨-, -, c⟩
          · exact ⟨q, a, b, c.trans h5.lvl, le_trans d h5.low⟩
          · exact absurd h5.lvl c
        | false =>
          obtain ⟨τ, sn⟩ := i5.snap h5.ge hnow5 s5.heap hr
          obtain ⟨q, a, b, c, d, -⟩ := sn.sibling (Or.inr h5.lvl) (k := k) (fun e => hc ⟨hr, e⟩)
          exact ⟨q, a, b, c.trans h5.lvl, le_trans d hk⟩
      obtain ⟨q, a, b⟩ := hq
      rw [a]
      exact (checkO_leaf k hk f q w5 b hnow5).mono fun o w6 ⟨a, b, c⟩ => ⟨a, r.trans' b, c⟩

/-- The end position is right if the page is still the same afterwards. -/
theorem endPosition_ok (hp : w.Pub p) (hl : w.lvl p = 0) :
    WP cfg t (endPosition e p) (fun r w' => CInv cfg w' ∧ Rely t w w' ∧
      ∀ n v, SeenBy t w p n v → ∀ w1, Rely t w' w1 → Same w1 p v → n.searchEndPositionFor e = .ok r) w := by
  unfold endPosition
  refine WP.peek hp fun w1 n1 r1 i1 hn1 => ?_
  have p1 := r1.kp.ext.pub hp
  have l1 := (r1.kp.ext.fixed p hp).1.trans hl
  by_cases hr : n1.isRightmostOf e = true
  · rw [if_pos hr]
    match e with
    | some (k, cl) =>
      simp only
      refine WP.peek p1 fun w2 n2 r2 i2 hn2 => ?_
      have p2 := r2.kp.ext.pub p1
      obtain ⟨rc, pos, e1⟩ := i2.search_any p2 hn2 ((r2.kp.ext.fixed p p1).1.trans l1) k
      refine WP.lift e1 (WP.ret ⟨i2, r1.trans' r2, fun n v hs w3 r3 hw3 => ?_⟩)
      have a1 := (hs.rely r1).mid (r2.trans' r3) hw3.1 hw3.2 hn1
      have a2 := (hs.rely (r1.trans' r2)).mid r3 hw3.1 hw3.2 hn2
      subst a1; subst a2
      unfold Node.searchEndPositionFor
      rw [hr]
      simp only [e1, Res.ok_bind]
      rfl
    | none =>
      simp only
      refine WP.peek p1 fun w2 n2 r2 i2 hn2 => WP.ret ⟨i2, r1.trans' r2, fun n v hs w3 r3 hw3 => ?_⟩
      have a1 := (hs.rely r1).mid (r2.trans' r3) hw3.1 hw3.2 hn1
      have a2 := (hs.rely (r1.trans' r2)).mid r3 hw3.1 hw3.2 hn2
      subst a1; subst a2
      unfold Node.searchEndPositionFor
      rw [hr]
      rfl
  · rw [if_neg hr]
    refine WP.peek p1 fun w2 n2 r2 i2 hn2 => WP.ret ⟨i2, r1.trans' r2, fun n v hs w3 r3 hw3 => ?_⟩
    have a1 := (hs.rely r1).mid (r2.trans' r3) hw3.1 hw3.2 hn1
    have a2 := (hs.rely (r1.trans' r2)).mid r3 hw3.1 hw3.2 hn2
    subst a1; subst a2
    unfold Node.searchEndPositionFor
    rw [Bool.not_eq_true] at hr
    rw [hr]
    rfl

/-- The positions of an iterator are right if the page is still the same. -/
def Placed (t : Tid) (w : World K V) (e : ScanKey K) (it : It K) : Prop :=
  ∃ n, SeenBy t w it.node n it.ver ∧ ∀ w1, Rely t w w1 → Same w1 it.node it.ver →
    PosOk it.lo n it.pos ∧ n.searchEndPositionFor e = .ok (it.isEnd, it.endPos)

theorem Placed.rely {it : It K} (h : Placed t w e it) (r : Rely t w w') : Placed t w' e it := by
  obtain ⟨n, a, b⟩ := h
  exact ⟨n, a.rely r, fun w1 r1 s => b w1 (r.trans' r1) s⟩

theorem seek_ok {it : It K} {f : Nat} (h : Here w σ H it.node) (hσ : σ ≤ w.now) (hk : startB it.lo ≤ H) :
    WP cfg t (seek e f it) (fun it' w' => CInv cfg w' ∧ Rely t w w' ∧ it'.lo = it.lo ∧ Here w' σ H it'.node ∧ Placed t w' e it') w := by
  unfold seek
  cases hkey : it.key with
  | some k =>
    simp only
    have hlo : it.lo = some (k, it.closed) := by unfold It.lo; rw [hkey]; rfl
    rw [hlo] at hk
    refine WP.bind ((checkO_leaf k hk f it.node w h hσ).mono ?_)
    rintro _ w1 ⟨i1, r1, q, v, n, rfl, s1, h1⟩
    simp only
    refine WP.peek h1.ge.pub fun w2 m r2 i2 hm => ?_
    have hσ1 := le_trans hσ r1.kp.ext.now
    have h2 := h1.rely hσ1 r2
    obtain ⟨rc, pos, e1⟩ := i2.search_any h2.ge.pub hm h2.lvl k
    refine WP.lift e1 ?_
    simp only
    have hsb : SeenBy t w2 q n v := (Seen.by s1 : SeenBy t w1 q n v).rely r2
    refine WP.bind ((endPosition_ok (e := e) h2.ge.pub h2.lvl).mono ?_)
    rintro ⟨isEnd, endPos⟩ w3 ⟨i3, r3, c3⟩
    have hokm := i2.okAny h2.ge.pub hm
    rw [h2.lvl] at hokm
    refine WP.ret ⟨i3, (r1.trans' r2).trans' r3, ?_, h2.rely (le_trans hσ1 r2.kp.ext.now) r3, n, hsb.rely r3, fun w4 r4 s4 => ⟨?_, c3 n v hsb w4 r4 s4⟩⟩
    · unfold It.lo; rw [hkey]
    · have := hsb.mid (r3.trans' r4) s4.1 s4.2 hm
      subst this
      have hp := seekPos_ok (cl := it.closed) hokm e1
      have hlo' : It.lo (⟨q, v, if rc = .keyAlreadyInserted ∧ it.closed = false then pos + 1 else pos, endPos, isEnd, some k, it.closed⟩ : It K) =
        some (k, it.closed) := rfl
      rw [hlo']
      exact ⟨hp.split⟩
  | none =>
    simp only
    refine WP.getVer h.ge.pub fun w1 r1 i1 x1 => ?_
    have h1 := h.rely hσ r1
    obtain ⟨n, hn⟩ := i1.some_of_pub h1.ge.pub
    have s1 : SeenBy t w1 it.node n (w1.lk it.node).ver := Seen.by ⟨h1.ge.pub, x1, rfl, hn⟩
    refine WP.bind ((endPosition_ok (e := e) h1.ge.pub h1.lvl).mono ?_)
    rintro ⟨isEnd, endPos⟩ w3 ⟨i3, r3, c3⟩
    refine WP.ret ⟨i3, r1.trans' r3, ?_, h1.rely (le_trans hσ r1.kp.ext.now) r3, n, s1.rely r3, fun w4 r4 s4 => ⟨PosOk.zero n, c3 n _ s1 w4 r4 s4⟩⟩
    unfold It.lo; rw [hkey]

/-- The scan has read everything. -/
theorem ok_end {it : It K} {n : Node K V} (hI : CInv cfg w) (hs : Scan t w t0 b0 e σ it.lo acc H) (hh : Here w σ H it.node)
    (hn : w.heap it.node = some n) (hp : PosOk it.lo n it.pos) (he : n.searchEndPositionFor e = .ok (it.isEnd, it.endPos))
    (h1 : it.isEnd = true) (h2 : it.endPos ≤ it.pos) : OkB cfg t w (w.done t (.recs acc)) := by
  obtain ⟨τ, a1, a2, -, a3, a4, a5, -⟩ := hI.leafSnap hh.ge hs.now hn hh.lvl
  rw [h1] at he
  exact ok_walk hI hs.ph a2 (Cov.last hs.cov hh.low a1 a3 a4 ⟨hp.split⟩ a5 he h2)

theorem reset_ok (hsolo : w.solo = false) {it : It K} {f : Nat} (hs : Scan t w t0 b0 e σ it.lo acc H) (hh : Here w σ H it.node)
    (hns : w.NoStale t) (hcl : w.Clean t) :
    WP cfg t (reset e f it) (fun it' w' => CInv cfg w' ∧ it'.lo = it.lo ∧
      ((Rely t w w' ∧ Here w' σ H it'.node ∧ Placed t w' e it' ∧ ¬ (it'.isEnd = true ∧ it'.endPos ≤ it'.pos)) ∨
       (it'.isEnd = true ∧ it'.endPos ≤ it'.pos ∧ Ended t w (.recs acc) w'))) w := by
  unfold reset
  refine WP.bind ((seek_ok hh hs.now hs.key).mono ?_)
  rintro it1 w1 ⟨i1, r1, l1, h1, n, s1, p1⟩
  have hs1 := hs.rely r1
  by_cases hc : it1.isEnd = true ∧ it1.endPos ≤ it1.pos
  · unfold noteEnd
    rw [if_pos hc]
    refine WP.bind (WP.sameG h1.ge.pub (fun w2 r2 i2 x2 v2 => ?_) (fun w2 r2 i2 => ?_))
    · obtain ⟨q1, q2⟩ := p1 w2 r2 ⟨x2, v2⟩
      have hs2 := hs1.rely r2
      rw [← l1] at hs2
      have k2 := (r1.trans' r2).kp
      have hok := ok_end i2 hs2 (h1.rely hs1.now r2) ((s1.rely r2).last x2 v2).heap q1 q2 hc.1 hc.2
      refine ⟨w2.done t (.recs acc), rfl, hok, ?_⟩
      have : WP cfg t (Prog.note (!true) >>= pure) (fun _ w3 => CInv cfg w3 ∧ Ended t w (.recs acc) w3) (w2.done t (.recs acc)) := by
        refine WP.note (fun _ => rfl) fun _ w3 r3 i3 => WP.ret ⟨i3, ?_⟩
        exact r3.kp.fin (k2.noStaleT hns) (hcl.le k2.pendLe) k2.wr.1
      exact this.mono fun _ w3 h => WP.ret ⟨h.1, l1, Or.inr ⟨hc.1, hc.2, h.2⟩⟩
    · have : WP cfg t (Prog.note (!false) >>= pure) (fun _ _ => False) w2 := by
        refine WP.note (fun h => ?_) (fun h => by cases h)
        rw [(r1.trans' r2).kp.wr.1, hsolo] at h; cases h
      exact this.mono fun _ _ h => h.elim
  · unfold noteEnd
    rw [if_neg hc]
    exact WP.bind (WP.ret (WP.ret ⟨i1, l1, Or.inl ⟨r1, h1, ⟨n, s1, p1⟩, hc⟩⟩))

/-- At its end the iterator does nothing more. -/
theorem iterate_end {it : It K} {f : Nat} (h1 : it.isEnd = true) (h2 : it.endPos ≤ it.pos) {Q : List (K × V) → World K V → Prop} (h : Q [] w) :
    WP cfg t (iterate e f it) Q w := by
  match f with
  | 0 => exact WP.stuck
  | f + 1 =>
    unfold iterate
    rw [if_neg (by omega), if_pos h1]
    exact WP.ret h

theorem iterate_wp : ∀ (f : Nat) (it : It K) (σ : Nat) (H : Bd K) (acc : List (K × V)) (w : World K V), w.solo = false →
    Scan t w t0 b0 e σ it.lo acc H → Here w σ H it.node → Placed t w e it → ¬ (it.isEnd = true ∧ it.endPos ≤ it.pos) →
    w.NoStale t → w.Clean t → WP cfg t (iterate e f it) (fun l w' => Ended t w (.recs (acc ++ l)) w') w
  | 0, _, _, _, _, _, _, _, _, _, _, _, _ => WP.stuck
  | f + 1, it, σ, H, acc, w, hsolo, hs, hh, hpl, hne, hns, hcl => by
    unfold iterate
    have goOn : ∀ (it0 : It K) (σ : Nat) (H : Bd K) (w1 : World K V), Rely t w w1 → Scan t w1 t0 b0 e σ it0.lo acc H → Here w1 σ H it0.node →
        WP cfg t (do
          let it ← reset e (f + 1) it0
          iterate e f it) (fun l w' => Ended t w (.recs (acc ++ l)) w') w1 := by
      intro it0 σ H w1 r1 hs1 hh1
      have k1 := r1.kp
      refine WP.bind ((reset_ok (k1.wr.1.trans hsolo) hs1 hh1 (k1.noStaleT hns) (hcl.le k1.pendLe)).mono ?_)
      rintro it' w2 ⟨i2, l2, ⟨r2, h2, p2, n2⟩ | ⟨c1, c2, h2⟩⟩
      · have hs2 := hs1.rely r2
        rw [← l2] at hs2
        have k2 := (r1.trans' r2).kp
        exact (iterate_wp f it' σ H acc w2 (k2.wr.1.trans hsolo) hs2 h2 p2 n2 (k2.noStaleT hns)
          (hcl.le k2.pendLe)).mono fun l w3 h => h.from k2.wr.1
      · refine iterate_end c1 c2 ?_
        rw [List.append_nil]
        exact h2.from k1.wr.1
    obtain ⟨n, sb, pl⟩ := hpl
    by_cases hlt : it.pos < it.endPos
    · rw [if_pos hlt]
      refine WP.peek hh.ge.pub fun w1 m r1 i1 hm => ?_
      have hh1 := hh.rely hs.now r1
      have hs1 := hs.rely r1
      refine WP.sameG hh1.ge.pub (fun w2 r2 i2 x2 v2 => ?_) (fun w2 r2 i2 => ?_)
      on_goal 2 =>
        simp only [Bool.false_eq_true, if_false]
        exact goOn it σ H w2 (r1.trans' r2) (hs1.rely r2) (hh1.rely hs1.now r2)
      have r12 := r1.trans' r2
      have := (sb.rely r1).mid r2 x2 v2 hm
      subst this
      obtain ⟨q1, q2⟩ := pl w2 r12 ⟨x2, v2⟩
      have hs2 := hs1.rely r2
      have hh2 := hh1.rely hs1.now r2
      have seen2 := (sb.rely r12).last x2 v2
      obtain ⟨τ, a1, a2, ag, a3, a4, a5, -⟩ := i2.leafSnap hh2.ge hs2.now seen2.heap hh2.lvl
      obtain ⟨r, k, g1, g2, ⟨v, g3⟩, g4, g5⟩ := Cov.rec hs2.cov hh2.low a1 a3 a4 ⟨q1.split⟩ a5 q2 hlt
      have hkl : w2.lo it.node ≤ .key k := by
        obtain ⟨k', b1, b2, -⟩ := (NodeOk.leaf a3).keyed r (List.mem_of_getElem? g1)
        rw [g2] at b1; cases b1
        exact Bd.leKey_iff'.1 b2
      have k2 := r12.kp
      let it' : It K := { it with pos := it.pos + 1, key := some k, closed := false }
      have hs' : Scan t w2 t0 b0 e τ it'.lo (acc ++ r.pair.toList) (.key k) := ⟨a2, hs2.ph, g4, le_refl _⟩
      have hh' : Here w2 τ (.key k) it'.node := ⟨ag, hh2.lvl, hkl⟩
      have put : ∀ w3, WP cfg t (iterate e f it') (fun l w' => Ended t w (.recs (acc ++ r.pair.toList ++ l)) w') w3 →
          WP cfg t (if r.del then iterate e f it'
            else
              match r.pay with
              | .ptr _ => Prog.ub
              | .val v => do
                let l ← iterate e f it'
                return (k, v) :: l) (fun l w' => Ended t w (.recs (acc ++ l)) w') w3 := by
        intro w3 h3
        cases hd : r.del with
        | true =>
          have : r.pair = none := by unfold Rec.pair; rw [hd]; rfl
          rw [if_pos rfl]
          rw [this] at h3
          simpa using h3
        | false =>
          have : r.pair = some (k, v) := by unfold Rec.pair; rw [hd, g2, g3]; rfl
          rw [if_neg (by simp), g3]
          rw [this] at h3
          refine WP.bind (h3.mono fun l w4 h4 => WP.ret ?_)
          simpa using h4
      by_cases hend : it.isEnd = true ∧ it.endPos ≤ it.pos + 1
      · have hok := ok_end (it := it') i2 hs' hh' seen2.heap ⟨g5.split⟩ q2 hend.1 hend.2
        refine ⟨w2.done t (.recs (acc ++ r.pair.toList)), rfl, hok, ?_⟩
        rw [if_pos rfl, g1]
        simp only [g2]
        refine put _ (iterate_end (it := it') hend.1 hend.2 ?_)
        rw [List.append_nil]
        exact Ended.now (k2.noStaleT hns) (hcl.le k2.pendLe) k2.wr.1
      · refine ⟨w2, rfl, OkB.refl i2, ?_⟩
        rw [if_pos rfl, g1]
        simp only [g2]
        refine put _ ((iterate_wp f it' τ (.key k) _ w2 (k2.wr.1.trans hsolo) hs' hh' ?_ hend (k2.noStaleT hns)
          (hcl.le k2.pendLe)).mono fun l w3 h3 => h3.from k2.wr.1)
        refine ⟨m, sb.rely r12, fun w3 r3 s3 => ⟨⟨g5.split⟩, q2⟩⟩
    · have hnend : it.isEnd = false := by
        cases hb : it.isEnd with
        | false => rfl
        | true => exact absurd ⟨hb, by omega⟩ hne
      rw [if_neg hlt, if_neg (by rw [hnend]; simp)]
      refine WP.peek hh.ge.pub fun w1 m r1 i1 hm => ?_
      have hh1 := hh.rely hs.now r1
      have hs1 := hs.rely r1
      refine WP.same hh1.ge.pub (fun w2 r2 i2 x2 v2 => ?_) (fun w2 r2 i2 => ?_)
      on_goal 2 =>
        simp only [Bool.false_eq_true, if_false]
        exact goOn it σ H w2 (r1.trans' r2) (hs1.rely r2) (hh1.rely hs1.now r2)
      have r12 := r1.trans' r2
      have := (sb.rely r1).mid r2 x2 v2 hm
      subst this
      obtain ⟨q1, q2⟩ := pl w2 r12 ⟨x2, v2⟩
      have hs2 := hs1.rely r2
      have hh2 := hh1.rely hs1.now r2
      have seen2 := (sb.rely r12).last x2 v2
      obtain ⟨τ, a1, a2, ag, a3, a4, a5, a6⟩ := i2.leafSnap hh2.ge hs2.now seen2.heap hh2.lvl
      rw [hnend] at q2
      have hcov := Cov.page hs2.cov hh2.low a1 a3 a4 ⟨q1.split⟩ a5 q2 (by omega)
      rw [if_pos rfl]
      cases hx : m.next with
      | none =>
        exfalso
        have hb : m.isRightmostOf e = true := by unfold Node.isRightmostOf; rw [hx]
        unfold Node.searchEndPositionFor at q2
        rw [hb] at q2
        cases e with
        | none => cases q2
        | some kc =>
          obtain ⟨k, cl⟩ := kc
          simp only at q2
          cases hsr : m.searchRecord k with
          | ok x => rw [hsr] at q2; cases q2
          | _ => rw [hsr] at q2; cases q2
      | some q =>
        obtain ⟨c1, c2, c3⟩ := a6 q hx
        exact goOn { it with node := q } τ (max H (hiB m.high)) w2 r12 ⟨a2, hs2.ph, hcov, le_trans hs2.key (le_max_left _ _)⟩
          ⟨c1, c2, le_trans c3 (le_max_right _ _)⟩

/-- The loop over an iterator. -/
theorem scanFrom_wp (hsolo : w.solo = false) {fuel : Nat} {leaf : Ptr} (ht : t0 ≤ w.now) (hh : Here w t0 (startB b) leaf)
    (hns : w.NoStale t) (hcl : w.Clean t) (hw : w.ps.ph t = .waiting (.scan b e) t0) :
    WP cfg t (scanFrom fuel b e leaf) (fun l w' => Ended t w (.recs l) w') w := by
  unfold scanFrom
  have hlo : It.lo (⟨leaf, 0, 0, 0, false, b.map Prod.fst, (b.map Prod.snd).getD false⟩ : It K) = b := by
    cases b with
    | none => rfl
    | some kc => rfl
  have hs : Scan t w t0 b e t0 (It.lo (⟨leaf, 0, 0, 0, false, b.map Prod.fst, (b.map Prod.snd).getD false⟩ : It K)) [] (startB b) := by
    rw [hlo]
    exact ⟨ht, hw, Cov.start b e, le_refl _⟩
  refine WP.bind ((reset_ok hsolo hs hh hns hcl).mono ?_)
  rintro it w1 ⟨i1, l1, ⟨r1, h1, p1, n1⟩ | ⟨c1, c2, h1⟩⟩
  · have hs1 := hs.rely r1
    rw [← l1] at hs1
    have k1 := r1.kp
    refine (iterate_wp fuel it t0 (startB b) [] w1 (k1.wr.1.trans hsolo) hs1 h1 p1 n1 (k1.noStaleT hns)
      (hcl.le k1.pendLe)).mono fun l w2 h => ?_
    rw [List.nil_append] at h
    exact h.from k1.wr.1
  · exact iterate_end c1 c2 h1

/-- `GetLeftmostChild`. -/
theorem leftmostChild_ok (t0 : Nat) {i : Nat} : ∀ (f : Nat) (w : World K V), CPsl.AtL w t0 p → w.lvl p = i + 1 →
    WP cfg t (leftmostChild f p) (fun o w' => CInv cfg w' ∧ Rely t w w' ∧ ∀ c, o = some c → CPsl.AtL w' t0 c) w
  | 0, _, _, _ => WP.stuck
  | f + 1, w, h, hi => by
    unfold leftmostChild
    refine WP.getVer h.ge.pub fun w1 r1 i1 x1 => ?_
    have h1 := h.ext r1.kp.ext
    obtain ⟨n, hn⟩ := i1.some_of_pub h1.ge.pub
    have s1 : SeenBy t w1 p n (w1.lk p).ver := Seen.by ⟨h1.ge.pub, x1, rfl, hn⟩
    refine WP.peek h1.ge.pub fun w2 m r2 i2 hm => ?_
    have r12 := r1.trans' r2
    have h2 := h.ext r12.kp.ext
    refine WP.same h2.ge.pub (fun w3 r3 i3 x3 v3 => ?_) (fun w3 r3 i3 => ?_)
    · have := (s1.rely r2).mid r3 x3 v3 hm
      subst this
      have s3 := (s1.rely (r2.trans' r3)).last x3 v3
      have r13 := r12.trans' r3
      have h3 := h.ext r13.kp.ext
      rw [if_pos rfl]
      cases hrem : m.removed with
      | true =>
        rw [if_pos rfl]
        exact WP.ret ⟨i3, r13, fun c hc => by cases hc⟩
      | false =>
        rw [if_neg (by simp)]
        obtain ⟨τ, sn⟩ := i3.snap h3.ge h3.now s3.heap hrem
        obtain ⟨c, c1, c2, c3, c4⟩ := CPsl.Snap.first sn (i := i) ((r13.kp.ext.fixed p h.ge.pub).1.trans hi)
        have lo3 : w3.lo p = .bot := by
          rcases h3.low with e | e
          · obtain ⟨-, m', a, b, -⟩ := i3.gone p e
            rw [s3.heap] at a; cases a
            rw [hrem] at b; cases b
          · exact e
        refine WP.lift c1 (WP.ret ⟨i3, r13, fun c' hc => ?_⟩)
        cases hc
        exact ⟨c2, h3.now, Or.inr (c4.trans lo3)⟩
    · simp only [Bool.false_eq_true, if_false]
      have r13 := r12.trans' r3
      refine (leftmostChild_ok t0 f w3 (h.ext r13.kp.ext) ((r13.kp.ext.fixed p h.ge.pub).1.trans hi)).mono ?_
      rintro o w4 ⟨i4, r4, e4⟩
      exact ⟨i4, r13.trans' r4, e4⟩

theorem leftmost_ok (t0 : Nat) : ∀ (f : Nat) (p : Ptr) (w : World K V), CPsl.AtL w t0 p →
    WP cfg t (leftmost f p) (fun q w' => CInv cfg w' ∧ Rely t w w' ∧ Here w' t0 .bot q) w
  | 0, _, _, _ => WP.stuck
  | f + 1, p, w, h => by
    unfold leftmost
    refine WP.isInner h.ge.pub fun w1 r1 i1 => ?_
    have h1 := h.ext r1.kp.ext
    have l1 := (r1.kp.ext.fixed p h.ge.pub).1
    by_cases hl : w.lvl p = 0
    · simp only [hl]
      rw [if_neg (by simp)]
      have lv1 := l1.trans hl
      refine WP.ret ⟨i1, r1, h1.ge, lv1, ?_⟩
      rcases h1.low with e | e
      · exact absurd lv1 (i1.gone p e).1
      · rw [e]
    · obtain ⟨i, hi⟩ := Nat.exists_eq_succ_of_ne_zero hl
      rw [if_pos (decide_eq_true hl)]
      refine WP.bind ((leftmostChild_ok t0 (i := i) (f + 1) w1 h1 (l1.trans hi)).mono ?_)
      rintro o w2 ⟨i2, r2, e2⟩
      have r12 := r1.trans' r2
      cases o with
      | none =>
        refine WP.getRoot fun w3 r3 i3 => ?_
        have r13 := r12.trans' r3
        refine (leftmost_ok t0 f _ w3 (CPsl.AtL.root i3 (le_trans h.now r13.kp.ext.now))).mono ?_
        rintro q w4 ⟨i4, r4, e4⟩
        exact ⟨i4, r13.trans' r4, e4⟩
      | some c =>
        refine (leftmost_ok t0 f c w2 (e2 c rfl)).mono ?_
        rintro q w4 ⟨i4, r4, e4⟩
        exact ⟨i4, r12.trans' r4, e4⟩

theorem Here.of {k : K} {cl : Bool} (hI : CInv cfg w) (h : AtP w t0 k p) (hl : w.lvl p = 0) : Here w t0 (startB (some (k, cl))) p := by
  refine ⟨h.ge, hl, ?_⟩
  rcases h.low with e | e
  · exact absurd hl (hI.gone p e).1
  · exact e

theorem scan_wp (hb : cfg.blink = true) (hsolo : w.solo = false) {fuel : Nat} (hns : w.NoStale t) (hcl : w.Clean t)
    (hw : w.ps.ph t = .waiting (.scan b e) w.now) :
    WP cfg t (scan fuel b e) (fun l w' => Ended t w (.recs l) w') w := by
  unfold scan
  refine WP.getRoot fun w1 r1 i1 => ?_
  have fin : ∀ w2 leaf, Rely t w1 w2 → Here w2 w.now (startB b) leaf →
      WP cfg t (scanFrom fuel b e leaf) (fun l w' => Ended t w (.recs l) w') w2 := by
    intro w2 leaf r2 h2
    have k2 := (r1.trans' r2).kp
    exact (scanFrom_wp (k2.wr.1.trans hsolo) k2.ext.now h2 (k2.noStaleT hns) (hcl.le k2.pendLe) (k2.ph.trans hw)).mono
      fun l w3 h3 => h3.from k2.wr.1
  cases b with
  | none =>
    simp only
    refine WP.bind ((leftmost_ok w.now fuel w1.mem.root w1 (CPsl.AtL.root i1 r1.kp.ext.now)).mono ?_)
    rintro leaf w2 ⟨i2, r2, h2⟩
    exact fin w2 leaf r2 h2
  | some kc =>
    obtain ⟨k, cl⟩ := kc
    simp only
    refine WP.bind ((searchLeaf_ok hb k w.now fuel w1.mem.root w1 (AtP.root i1 r1.kp.ext.now k)).mono ?_)
    rintro leaf w2 ⟨i2, r2, l2, h2⟩
    exact fin w2 leaf r2 (Here.of i2 h2 l2)
end

theorem execS_ok (hr : Roomy cfg L) (hb : cfg.blink = true) (t : Tid) (fuel : Nat) (op : Op K V) (w : World K V) (hI : CInv cfg w)
    (hsolo : w.solo = false) (hcl : w.Clean t)
    (hns : w.NoStale t) (hw : w.ps.ph t = .waiting op w.now) :
    WP cfg t (execS cfg fuel op) (fun out w' => Ended t w out w') w := by
  have hg : Writes op → w.Wr t := fun _ => World.Wr.of hsolo
  cases op with
  | scan b e => exact WP.bind ((scan_wp hb hsolo hns hcl hw).mono fun o w h => WP.ret h)
  | read k => exact exec_ok hr hb t fuel _ w hI hns hg hcl (World.Bare.of hsolo) hw
  | write k v => exact exec_ok hr hb t fuel _ w hI hns hg hcl (World.Bare.of hsolo) hw
  | insert k v => exact exec_ok hr hb t fuel _ w hI hns hg hcl (World.Bare.of hsolo) hw
  | update k v => exact exec_ok hr hb t fuel _ w hI hns hg hcl (World.Bare.of hsolo) hw
  | delete k => exact exec_ok hr hb t fuel _ w hI hns hg hcl (World.Bare.of hsolo) hw

/-- Executions of OSL with scans in which none of the noted situations occurs. -/
theorem partwise (hr : Roomy cfg L) (hb : cfg.blink = true) {m0 : Map K V} {c0 c : Conf K V} (h0 : (blg V cfg).Sim m0 c0)
    (hc : Conf.Reach (execS cfg) c0 c) (hn : c.mem.raced = false) : ¬ c.Bad ∧ PartwiseLinearizableFrom m0 c.hist :=
  Lg.adequate (L := blg V cfg) rfl h0 (fun t fuel op w a b d => (execS_ok hr hb t fuel op w a b.2.1 b.2.2.2 b.1 d).mono
    fun _ _ h => ⟨h.1, h.2.1, h.2.2.2.trans b.2.1, (fun e => by rw [hb] at e; cases e), h.2.2.1⟩) hc hn

end COsl

namespace COml

theorem scan_wp [Fact (cfg.blink = false)] {b e : ScanKey K} (hsolo : w.solo = false) {fuel : Nat} (hns : w.NoStale t)
    (hcl : w.Clean t) (hw : w.ps.ph t = .waiting (.scan b e) w.now) :
    WP cfg t (scan fuel b e) (fun l w' => Ended t w (.recs l) w') w := by
  unfold scan
  refine WP.getRoot fun w1 r1 i1 => ?_
  have fin : ∀ w2 leaf, Rely t w1 w2 → COsl.Here w2 w.now (startB b) leaf →
      WP cfg t (COsl.scanFrom fuel b e leaf) (fun l w' => Ended t w (.recs l) w') w2 := by
    intro w2 leaf r2 h2
    have k2 := (r1.trans' r2).kp
    exact (COsl.scanFrom_wp (k2.wr.1.trans hsolo) k2.ext.now h2 (k2.noStaleT hns) (hcl.le k2.pendLe) (k2.ph.trans hw)).mono
      fun l w3 h3 => h3.from k2.wr.1
  cases b with
  | none =>
    simp only
    refine WP.bind ((COsl.leftmost_ok w.now fuel w1.mem.root w1 (CPsl.AtL.root i1 r1.kp.ext.now)).mono ?_)
    rintro leaf w2 ⟨i2, r2, h2⟩
    exact fin w2 leaf r2 h2
  | some kc =>
    obtain ⟨k, cl⟩ := kc
    simp only
    refine WP.bind ((descendForRead_ok k w.now fuel w1.mem.root w1 (AtP.root i1 r1.kp.ext.now k)).mono ?_)
    rintro leaf w2 ⟨i2, r2, l2, h2⟩
    exact fin w2 leaf r2 (COsl.Here.of i2 h2 l2)

theorem execS_ok [Fact (cfg.blink = false)] (hr : Roomy cfg L) {junk : Node K V → Node K V → K} (t : Tid) (fuel : Nat) (op : Op K V)
    (w : World K V) (hI : CInv cfg w) (hsolo : w.solo = false) (hns : w.NoStale t) (hcl : w.Clean t) (fr : w.NoLk t)
    (hw : w.ps.ph t = .waiting op w.now) :
    WP cfg t (execS cfg junk fuel op) (fun out w' => w'.ps.ph t = .done out ∧ w'.NoStale t ∧ w'.Clean t) w := by
  cases op with
  | scan b e => exact WP.bind ((scan_wp hsolo hns hcl hw).mono fun o w h => WP.ret ⟨h.1, h.2.1, h.2.2.1⟩)
  | read k => exact exec_ok (junk := junk) hr t fuel _ w hI hns hcl fr hw
  | write k v => exact exec_ok (junk := junk) hr t fuel _ w hI hns hcl fr hw
  | insert k v => exact exec_ok (junk := junk) hr t fuel _ w hI hns hcl fr hw
  | update k v => exact exec_ok (junk := junk) hr t fuel _ w hI hns hcl fr hw
  | delete k => exact exec_ok (junk := junk) hr t fuel _ w hI hns hcl fr hw

/-- Executions of OML with scans in which none of the noted situations occurs. -/
theorem partwise {cfg : Cfg K} (hr : Roomy cfg L) (hb : cfg.blink = false) {junk : Node K V → Node K V → K} {m0 : Map K V} {c0 c : Conf K V}
    (h0 : (blg V cfg).Sim m0 c0) (hc : Conf.Reach (execS cfg junk) c0 c) (hn : c.mem.raced = false) :
    ¬ c.Bad ∧ PartwiseLinearizableFrom m0 c.hist := by
  have : Fact (cfg.blink = false) := ⟨hb⟩
  exact Lg.adequate (L := blg V cfg) rfl h0 (fun t fuel op w a b d =>
    withSolo (WP.noLk (exec_g fuel op) (b.2.2.1 hb) ((execS_ok hr t fuel op w a b.2.1 b.1 b.2.2.2 (b.2.2.1 hb) d).mono fun _ _ h n s =>
      ⟨h.1, h.2.1, s.trans b.2.1, fun _ => n, h.2.2⟩))) hc hn

end COml
end BT
