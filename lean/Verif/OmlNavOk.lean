import Verif.OslConcOk
import Verif.OmlConc

/-!
# Pages, versions and structure modifications of OML under concurrency
-/

set_option linter.unusedSectionVars false

namespace BT
open Spec
variable {K V : Type} [LinearOrder K] {cfg : Cfg K} {L : Nat} {w w' : World K V} {t : Tid} {p : Ptr} [Fact (cfg.blink = false)]

/-! ## Locks, without the obligations of a single writer -/

section rules
variable {α : Type} {Q : α → World K V → Prop}

theorem WP.lockSIXc {k : Unit → Prog K V α} (hp : w.Pub p) (hd : w.Before t p)
    (h : ∀ w', ¬ w.Own t p → Kp t (· = p) w w' → CInv cfg w' → (w'.lk p).six = some t → WP cfg t (k ()) Q w') :
    WP cfg t (Prog.lockSIX p >>= k) Q w := fun w1 hr hi =>
  WP.lockSIX (k := k) (hr.kp.ext.pub hp) (fun s => (hi.crowd s).elim) (fun _ => hd.rely hp hr)
    (fun w' no kp i _ x => h w' (fun ho => no (hr.own ho)) ((hr.kpE _).trans kp) i x) w1 (Rely.refl t w1) hi

theorem WP.tryLockSIXc {k : Bool → Prog K V α} {v : Nat} (hp : w.Pub p) (hd : w.Before t p)
    (h1 : ∀ w1 w2, Rely t w w1 → CInv cfg w1 → (w1.lk p).x = none → (w1.lk p).ver = v → ¬ w1.Own t p →
      Kp t (· = p) w1 w2 → CInv cfg w2 → (w2.lk p).six = some t → w2.heap p = w1.heap p → w2.st p = w1.st p →
      WP cfg t (k true) Q w2)
    (h2 : ∀ w1, Rely t w w1 → CInv cfg w1 → WP cfg t (k false) Q w1) :
    WP cfg t (Prog.tryLockSIX p v >>= k) Q w := fun w1 hr hi =>
  WP.tryLockSIX (k := k) (hr.kp.ext.pub hp) (fun s => (hi.crowd s).elim) (fun _ => hd.rely hp hr) (fun w2 w3 r2 => h1 w2 w3 (hr.trans' r2)) (fun w2 r2 => h2 w2 (hr.trans' r2))
    w1 (Rely.refl t w1) hi

theorem WP.tryLockXc {k : Bool → Prog K V α} {v : Nat} (hp : w.Pub p)
    (h1 : ∀ w1 w2, Rely t w w1 → CInv cfg w1 → (w1.lk p).x = none → (w1.lk p).ver = v → ¬ w1.Own t p →
      Kp t (· = p) w1 w2 → CInv cfg w2 → (w2.lk p).x = some t → (w2.lk p).ver = v → w2.heap p = w1.heap p → w2.st p = w1.st p →
      WP cfg t (k true) Q w2)
    (h2 : ∀ w1, Rely t w w1 → CInv cfg w1 → WP cfg t (k false) Q w1) :
    WP cfg t (Prog.tryLockX p v >>= k) Q w := fun w1 hr hi =>
  WP.tryLockX (k := k) (hr.kp.ext.pub hp) (fun s => (hi.crowd s).elim) (fun w2 w3 r2 => h1 w2 w3 (hr.trans' r2)) (fun w2 r2 => h2 w2 (hr.trans' r2))
    w1 (Rely.refl t w1) hi

end rules

/-! ## What every step does to the versions -/

/-- Steps of any thread, as far as the versions of the pages tell. -/
structure Vr (w w' : World K V) : Prop where
  ext : Ext w w'
  ver : ∀ p, w.Pub p → (w.lk p).ver ≤ (w'.lk p).ver ∧
    ((w.lk p).x = none → (w'.lk p).x = none → (w'.lk p).ver = (w.lk p).ver → w'.heap p = w.heap p) ∧
    ((w'.lk p).ver = (w.lk p).ver → (w.lk p).x ≠ none → (w'.lk p).x = (w.lk p).x)

theorem Vr.refl (w : World K V) : Vr w w := ⟨Ext.refl w, fun _ _ => ⟨le_refl _, fun _ _ _ => rfl, fun _ _ => rfl⟩⟩

theorem Vr.trans {w1 w2 : World K V} (h : Vr w w1) (h' : Vr w1 w2) : Vr w w2 := by
  refine ⟨h.ext.trans h'.ext, fun p hp => ?_⟩
  obtain ⟨a, b, c⟩ := h.ver p hp
  obtain ⟨a', b', c'⟩ := h'.ver p (h.ext.pub hp)
  refine ⟨le_trans a a', fun x x2 e => ?_, fun e x => ?_⟩
  · have e1 : (w1.lk p).ver = (w.lk p).ver := by omega
    have e2 : (w2.lk p).ver = (w1.lk p).ver := by omega
    have x1 : (w1.lk p).x = none := by
      by_contra hx
      have := c' e2 hx
      rw [x2] at this
      exact hx this.symm
    exact (b' x1 x2 e2).trans (b x x1 e1)
  · have e1 : (w1.lk p).ver = (w.lk p).ver := by omega
    have e2 : (w2.lk p).ver = (w1.lk p).ver := by omega
    have x1 := c e1 x
    rw [← x1]
    exact c' e2 (by rw [x1]; exact x)

theorem Rely.vr (h : Rely t w w') : Vr w w' := ⟨h.kp.ext, h.ver⟩
theorem OkB.vr (h : OkB cfg t w w') : Vr w w' :=
  (show Rely (t + 1) w w' from h.guar (t + 1) (Nat.succ_ne_self t)).vr

/-- Whatever a piece of code does, it respects the versions. -/
theorem WP.withVr {α : Type} {m : Prog K V α} {Q : α → World K V → Prop} (h : WP cfg t m (fun a w' => Vr w w' → Q a w') w) :
    WP cfg t m Q w := by
  induction m generalizing w with
  | ret a => exact h (Vr.refl w)
  | ub => exact h.elim
  | stuck => trivial
  | act a k ih =>
    intro w1 r1 i1
    obtain ⟨h1, h2⟩ := h w1 r1 i1
    refine ⟨h1, fun b m e => ?_⟩
    rcases h2 b m e with h2 | ⟨w2, e2, o2, h2⟩
    · exact Or.inl h2
    · refine Or.inr ⟨w2, e2, o2, ih b ?_⟩
      have v2 : Vr w w2 := (Rely.vr (t := t) r1).trans (OkB.vr (cfg := cfg) (t := t) o2)
      exact Lg.wp_mono h2 fun a w3 hq v3 => hq (v2.trans v3)

/-- Page `p` has contents `n` whenever its version is `v` and nobody holds its X lock. -/
structure Was (w : World K V) (p : Ptr) (n : Node K V) (v : Nat) : Prop where
  pub : w.Pub p
  le : v ≤ (w.lk p).ver
  get : (w.lk p).x = none → (w.lk p).ver = v → w.heap p = some n

theorem Was.mono {n : Node K V} {v : Nat} (h : Was w p n v) (e : Vr w w') : Was w' p n v := by
  obtain ⟨a, b, c⟩ := e.ver p h.pub
  have hle := h.le
  refine ⟨e.ext.pub h.pub, le_trans h.le a, fun x1 v1 => ?_⟩
  have v0 : (w.lk p).ver = v := by omega
  have x0 : (w.lk p).x = none := by
    by_contra hx
    have := c (v1.trans v0.symm) hx
    rw [x1] at this
    exact hx this.symm
  exact (b x0 x1 (v1.trans v0.symm)).trans (h.get x0 v0)

/-- It had the same contents at an earlier look. -/
theorem Was.mid {n m : Node K V} {v : Nat} (h : Was w p n v) (hm : w.heap p = some m) (e : Vr w w') (x1 : (w'.lk p).x = none)
    (v1 : (w'.lk p).ver = v) : m = n := by
  obtain ⟨a, b, c⟩ := e.ver p h.pub
  have hle := h.le
  have v0 : (w.lk p).ver = v := by omega
  have x0 : (w.lk p).x = none := by
    by_contra hx
    have := c (v1.trans v0.symm) hx
    rw [x1] at this
    exact hx this.symm
  have := h.get x0 v0
  rw [hm] at this
  exact Option.some.inj this

theorem Seen.was {n : Node K V} {v : Nat} (h : Seen w p n v) : Was w p n v :=
  ⟨h.pub, le_of_eq h.ver.symm, fun _ _ => h.heap⟩

theorem Was.seen {n : Node K V} {v : Nat} (h : Was w p n v) (x1 : (w.lk p).x = none) (v1 : (w.lk p).ver = v) : Seen w p n v :=
  ⟨h.pub, x1, v1, h.get x1 v1⟩

/-- With its lock taken, a page that was seen unmarked is part of the tree. -/
theorem Was.hold {n : Node K V} {v : Nat} {w1 w2 : World K V} (h : Was w1 p n v) (hr : n.removed = false) (hns : w1.NoStale t)
    (x1 : (w1.lk p).x = none) (v1 : (w1.lk p).ver = v) (k2 : Kp t (· = p) w1 w2) (i2 : CInv cfg w2) (h6 : (w2.lk p).six = some t)
    (hh : w2.heap p = w1.heap p) : Hold w2 t p n :=
  ⟨h6, i2.live_of_own (Or.inl h6) (k2.ext.pub h.pub) (k2.noStaleT hns) (hh.trans (h.get x1 v1)) hr, hh.trans (h.get x1 v1), i2.wr⟩

theorem Was.holdX {n : Node K V} {v : Nat} {w1 w2 : World K V} (h : Was w1 p n v) (hr : n.removed = false) (hns : w1.NoStale t)
    (x1 : (w1.lk p).x = none) (v1 : (w1.lk p).ver = v) (k2 : Kp t (· = p) w1 w2) (i2 : CInv cfg w2) (hx : (w2.lk p).x = some t)
    (hh : w2.heap p = w1.heap p) : HoldX w2 t p n :=
  ⟨hx, i2.live_of_own (Or.inr hx) (k2.ext.pub h.pub) (k2.noStaleT hns) (hh.trans (h.get x1 v1)) hr, hh.trans (h.get x1 v1), i2.wr⟩

theorem HoldX.unlockVer {α : Type} {k : Nat → Prog K V α} {Q : α → World K V → Prop} {n : Node K V} (h : HoldX w t p n)
    (h' : ∀ w' v, Kp t (· = p) w w' → CInv cfg w' → ¬ w'.Own t p → Was w' p n v → w'.st p = .live → WP cfg t (k v) Q w') :
    WP cfg t (Prog.unlockXVer p >>= k) Q w :=
  WP.unlockXVer h.pub h.x (by intro _ _; rw [h.st]; simp) fun w1 k1 i1 o1 x1 hh1 st1 =>
    h' w1 _ k1 i1 o1 ⟨k1.ext.pub h.pub, le_refl _, fun _ _ => hh1.trans h.heap⟩ (st1.trans h.st)

/-- A marked page stays marked. -/
theorem CInv.marked (hI : CInv cfg w) (hI' : CInv cfg w') (e : Ext w w') (hp : w.Pub p) {n m : Node K V} (hn : w.heap p = some n)
    (hm : w'.heap p = some m) (hr : n.removed = true) : m.removed = true := by
  have h1 := e.st p
  rcases World.pub_cases hp with s | ⟨τ, q, u, s⟩ | ⟨τ, q, s⟩ | s
  · have := (hI.page s hn).ok.notRemoved
    rw [hr] at this; cases this
  · obtain ⟨-, -, -, -, -, m', f, g⟩ := hI.stale p τ q u s
    rw [hn] at f; cases f
    have := g.ok.notRemoved
    rw [hr] at this; cases this
  · rw [s] at h1
    obtain ⟨-, -, -, -, m', f, g, -⟩ := hI'.merged p τ q h1
    rw [hm] at f; cases f
    exact g
  · rw [s] at h1
    obtain ⟨-, m', f, g, -⟩ := hI'.gone p h1
    rw [hm] at f; cases f
    exact g

namespace COml

/-! ## Size checks -/

theorem ifSame_wp {n m : Node K V} {v : Nat} {rc : NodeRC} (h : Was w p n v) (hm : w.heap p = some m) :
    WP cfg t (ifSame p v rc) (fun x w' => CInv cfg w' ∧ Rely t w w' ∧ x.2 = v ∧ (x.1 = .needRetry ∨ (x.1 = rc ∧ m = n))) w := by
  unfold ifSame
  refine WP.same h.pub (fun w1 r1 i1 x1 v1 => ?_) (fun w1 r1 i1 => ?_)
  · exact WP.ret ⟨i1, r1, rfl, Or.inr ⟨by simp, h.mid hm r1.vr x1 v1⟩⟩
  · exact WP.ret ⟨i1, r1, rfl, Or.inl (by simp)⟩

theorem tryCleanUp_wp (hr : Roomy cfg L) (hlay : cfg.layout = .var) {n m : Node K V} {v : Nat} (h : Was w p n v) (hrm : n.removed = false)
    (hns : w.NoStale t) (hm : w.heap p = some m) :
    WP cfg t (tryCleanUp cfg p v) (fun x w' => CInv cfg w' ∧ Mv t w w' ∧ (x.1 = .needRetry ∨ (x.1 = .completed ∧ m = n ∧ ∃ n', Was w' p n' x.2 ∧
      SamePage n n' ∧ cfg.metaLen * n'.recs.length + n'.block + n.dead ≤ cfg.metaLen * n.recs.length + n.block))) w := by
  unfold tryCleanUp
  refine WP.tryLockXc h.pub (fun w1 w2 r1 i1 x1 v1 o1 k2 i2 x2 v2 hh2 st2 => ?_) (fun w1 r1 i1 => ?_)
  · have h1 := h.mono r1.vr
    have h2 := h1.holdX hrm (r1.kp.noStaleT hns) x1 v1 k2 i2 x2 hh2
    rw [if_pos rfl]
    refine h2.load fun w3 r3 i3 h3 => ?_
    obtain ⟨n', e1, e2, e3, -, -, e6⟩ := cleanUp_ok hr hlay (i3.page h3.st h3.heap).ok
    refine WP.lift e1 (h3.store fun w4 r4 i4 h4 => ?_)
    have f4 := r4.kp.ext.fixed p h3.pub
    obtain ⟨o5, k5⟩ := ok_same i4 h4 e3 (by rw [f4.1, f4.2.1]; exact e2)
    refine ⟨{ w4 with mem := w4.mem.setHeap p n' }, rfl, o5, ?_⟩
    have h5 : HoldX { w4 with mem := w4.mem.setHeap p n' } t p n' := ⟨h4.x, h4.st, setHeap_same _ _ _, h4.wr⟩
    refine h5.unlockVer fun w6 v6 k6 i6 _ was6 _ => WP.ret ⟨i6, ?_, Or.inr ⟨rfl, h.mid hm r1.vr x1 v1, n', was6, e3, e6⟩⟩
    exact ((((((r1.kpE _).trans k2).trans (r3.kpE _)).trans (r4.kpE _)).trans k5).trans k6).mv
  · rw [if_neg (by simp)]
    exact WP.ret ⟨i1, r1.kp.mv, Or.inl rfl⟩

/-- Outcome of the size checks. -/
def checkPost (cfg : Cfg K) (t : Tid) (w : World K V) (p : Ptr) (n : Node K V) (newLen : Nat) (x : NodeRC × Nat) (w' : World K V) : Prop :=
  CInv cfg w' ∧ Mv t w w' ∧ (x.1 = .needRetry ∨ ∃ n', Was w' p n' x.2 ∧ SamePage n n' ∧
    ((x.1 = .needSplit ∧ Big cfg n') ∨ ((x.1 = .completed ∨ x.1 = .needMerge) ∧ n'.fitsOne cfg newLen = true)))

theorem needSplit_wp (hr : Roomy cfg L) {n : Node K V} {v newLen : Nat} (hlen : newLen ≤ cfg.maxKeyLen + cfg.maxPayLen) (h : Was w p n v)
    (hrm : n.removed = false) (hns : w.NoStale t) :
    WP cfg t (needSplit cfg p newLen v) (checkPost cfg t w p n newLen) w := by
  unfold needSplit
  refine WP.peek h.pub fun w1 m r1 i1 hm => ?_
  have h1 := h.mono r1.vr
  have hns1 := r1.kp.noStaleT hns
  have hmr : cfg.maxRecLen = cfg.maxKeyLen + cfg.maxPayLen + cfg.mlen := rfl
  have same : ∀ rc, (m = n → (rc = .needSplit ∧ Big cfg n) ∨ ((rc = .completed ∨ rc = .needMerge) ∧ n.fitsOne cfg newLen = true)) →
      WP cfg t (ifSame p v rc) (checkPost cfg t w p n newLen) w1 := by
    intro rc hrc
    refine (ifSame_wp h1 hm).mono ?_
    rintro x w2 ⟨i2, r2, e2, e3⟩
    refine ⟨i2, (r1.trans' r2).kp.mv, ?_⟩
    rcases e3 with e3 | ⟨e3, e4⟩
    · exact Or.inl e3
    · rw [e3, e2]
      exact Or.inr ⟨n, h1.mono r2.vr, SamePage.refl n, hrc e4⟩
  cases hlay : cfg.layout with
  | fix =>
    simp only
    by_cases hc : m.usedSize cfg + newLen > cfg.cap
    · rw [if_pos hc]
      refine same _ fun e => Or.inl ⟨rfl, ?_⟩
      subst e
      rw [big_fix hlay]
      rw [usedSize_fix hlay] at hc
      omega
    · rw [if_neg hc]
      refine same _ fun e => Or.inr ⟨Or.inl rfl, ?_⟩
      subst e
      rw [fitsOne_fix hlay]
      rw [usedSize_fix hlay] at hc
      omega
  | var =>
    simp only
    have hml : cfg.mlen = cfg.metaLen := by simp [Cfg.mlen, hlay]
    have hrc : m.rc = m.recs.length := rfl
    have hexp := Nat.mul_add cfg.metaLen m.recs.length 1
    by_cases c1 : cfg.metaLen * (m.rc + 1) + m.block + newLen ≤ cfg.cap
    · rw [if_pos c1]
      refine same _ fun e => Or.inr ⟨Or.inl rfl, ?_⟩
      subst e
      rw [fitsOne_var hlay]
      exact c1
    · rw [if_neg c1]
      by_cases c2 : cfg.metaLen * (m.rc + 1) + m.block + newLen - m.dead > cfg.maxUsed
      · rw [if_pos c2]
        refine same _ fun e => Or.inl ⟨rfl, ?_⟩
        subst e
        rw [big_var hlay]
        rw [hrc] at c2
        omega
      · rw [if_neg c2]
        refine (tryCleanUp_wp hr hlay h1 hrm hns1 hm).mono ?_
        rintro x w2 ⟨i2, t2, e2⟩
        refine ⟨i2, r1.kp.mv.trans t2, ?_⟩
        rcases e2 with e2 | ⟨e2, rfl, n', was, e3, e4⟩
        · exact Or.inl e2
        · refine Or.inr ⟨n', was, e3, Or.inr ⟨Or.inl e2, ?_⟩⟩
          rw [fitsOne_var hlay]
          have hexp' := Nat.mul_add cfg.metaLen n'.recs.length 1
          have : cfg.maxUsed ≤ cfg.cap := by simp only [Cfg.maxUsed, Cfg.cap]; omega
          rw [hrc] at c2
          omega

theorem needMerge_wp (hr : Roomy cfg L) {n : Node K V} {v newLen : Nat} (h : Was w p n v)
    (hrm : n.removed = false) (hns : w.NoStale t) (hfit : n.fitsOne cfg newLen = true) :
    WP cfg t (needMerge cfg p v) (checkPost cfg t w p n newLen) w := by
  unfold needMerge
  refine WP.peek h.pub fun w1 m r1 i1 hm => ?_
  have h1 := h.mono r1.vr
  have hns1 := r1.kp.noStaleT hns
  have same : ∀ rc, rc = .completed ∨ rc = .needMerge → WP cfg t (ifSame p v rc) (checkPost cfg t w p n newLen) w1 := by
    intro rc hrc
    refine (ifSame_wp h1 hm).mono ?_
    rintro x w2 ⟨i2, r2, e2, e3⟩
    refine ⟨i2, (r1.trans' r2).kp.mv, ?_⟩
    rcases e3 with e3 | ⟨e3, e4⟩
    · exact Or.inl e3
    · rw [e3, e2]
      exact Or.inr ⟨n, h1.mono r2.vr, SamePage.refl n, Or.inr ⟨hrc, hfit⟩⟩
  cases hlay : cfg.layout with
  | fix =>
    simp only
    by_cases hc : m.usedSize cfg < cfg.minUsed
    · rw [if_pos hc]; exact same _ (Or.inr rfl)
    · rw [if_neg hc]; exact same _ (Or.inl rfl)
  | var =>
    simp only
    by_cases c1 : m.usedSize cfg < cfg.minUsed
    · rw [if_pos c1]; exact same _ (Or.inr rfl)
    · rw [if_neg c1]
      by_cases c2 : m.dead ≤ cfg.maxDeleted
      · rw [if_pos c2]; exact same _ (Or.inl rfl)
      · rw [if_neg c2]
        refine (tryCleanUp_wp hr hlay h1 hrm hns1 hm).mono ?_
        rintro x w2 ⟨i2, t2, e2⟩
        refine ⟨i2, r1.kp.mv.trans t2, ?_⟩
        rcases e2 with e2 | ⟨e2, rfl, n', was, e3, e4⟩
        · exact Or.inl e2
        · refine Or.inr ⟨n', was, e3, Or.inr ⟨Or.inl e2, ?_⟩⟩
          rw [fitsOne_var hlay] at hfit ⊢
          have hexp := Nat.mul_add cfg.metaLen m.recs.length 1
          have hexp' := Nat.mul_add cfg.metaLen n'.recs.length 1
          omega

theorem checkSMOs_wp (hr : Roomy cfg L) {n : Node K V} {v newLen : Nat} (hlen : newLen ≤ cfg.maxKeyLen + cfg.maxPayLen) (h : Was w p n v)
    (hrm : n.removed = false) (hns : w.NoStale t) :
    WP cfg t (checkSMOs cfg p newLen v) (checkPost cfg t w p n newLen) w := by
  unfold checkSMOs
  refine WP.bind ((needSplit_wp hr hlen h hrm hns).mono ?_)
  rintro ⟨rc, v1⟩ w1 ⟨i1, t1, e1⟩
  simp only at e1 ⊢
  by_cases hc : rc ≠ .completed
  · rw [if_pos hc]
    exact WP.ret ⟨i1, t1, e1⟩
  · rw [if_neg hc]
    rw [not_not] at hc
    subst hc
    rcases e1 with e1 | ⟨n1, was1, s1, ⟨e1, -⟩ | ⟨-, f1⟩⟩
    · cases e1
    · cases e1
    · refine (needMerge_wp hr was1 (s1.frame.removed.trans hrm) (t1.ns hns) f1).mono ?_
      rintro x w2 ⟨i2, t2, e2⟩
      refine ⟨i2, t1.trans t2, ?_⟩
      rcases e2 with e2 | ⟨n2, a, b, c⟩
      · exact Or.inl e2
      · exact Or.inr ⟨n2, a, s1.trans b, c⟩

/-- Outcome of `CheckNodeStatus`. -/
def statusPost (cfg : Cfg K) (t : Tid) (w : World K V) (p : Ptr) (newLen : Nat) (x : NodeRC × Nat) (w' : World K V) : Prop :=
  CInv cfg w' ∧ Mv t w w' ∧ (x.1 = .needRetry ∨ ∃ n, Was w' p n x.2 ∧ n.removed = false ∧
    ((x.1 = .needSplit ∧ Big cfg n) ∨ ((x.1 = .completed ∨ x.1 = .needMerge) ∧ n.fitsOne cfg newLen = true)))

theorem statusPost.from {newLen : Nat} {x : NodeRC × Nat} {w1 w2 : World K V} (h : statusPost cfg t w1 p newLen x w2) (r : Mv t w w1) :
    statusPost cfg t w p newLen x w2 := ⟨h.1, r.trans h.2.1, h.2.2⟩

theorem checkNodeStatus_wp (hr : Roomy cfg L) {newLen : Nat} (hlen : newLen ≤ cfg.maxKeyLen + cfg.maxPayLen) :
    ∀ (f : Nat) (w : World K V), w.Pub p → w.NoStale t → WP cfg t (checkNodeStatus cfg newLen f p) (statusPost cfg t w p newLen) w
  | 0, _, _, _ => WP.stuck
  | f + 1, w, hp, hns => by
    unfold checkNodeStatus
    refine WP.getVer hp fun w1 r1 i1 x1 => ?_
    have p1 := r1.kp.ext.pub hp
    obtain ⟨n, hn⟩ := i1.some_of_pub p1
    have s1 : Was w1 p n (w1.lk p).ver := ⟨p1, le_refl _, fun _ _ => hn⟩
    refine WP.peek p1 fun w2 m r2 i2 hm => ?_
    have p2 := r2.kp.ext.pub p1
    have again : ∀ w3, Mv t w w3 → w3.Pub p → WP cfg t (checkNodeStatus cfg newLen f p) (statusPost cfg t w p newLen) w3 :=
      fun w3 t3 p3 => (checkNodeStatus_wp hr hlen f w3 p3 (t3.ns hns)).mono fun x w4 h4 => h4.from t3
    have r12 := r1.trans' r2
    have s2 := s1.mono r2.vr
    by_cases hrm : m.removed = true
    · rw [if_pos hrm]
      refine WP.same p2 (fun w3 r3 i3 x3 v3 => ?_) (fun w3 r3 i3 => ?_)
      · rw [if_pos rfl]
        exact WP.ret ⟨i3, (r12.trans' r3).kp.mv, Or.inl rfl⟩
      · rw [if_neg (by simp)]
        exact again w3 (r12.trans' r3).kp.mv (r3.kp.ext.pub p2)
    · rw [if_neg hrm]
      have hrn : n.removed = false := by
        cases e : n.removed with
        | false => rfl
        | true => exact absurd (i1.marked i2 r2.kp.ext p1 hn hm e) hrm
      refine WP.bind ((checkSMOs_wp hr hlen s2 hrn (r12.kp.noStaleT hns)).mono ?_)
      rintro ⟨rc, v3⟩ w3 ⟨i3, t3, e3⟩
      simp only at e3 ⊢
      have t03 := r12.kp.mv.trans t3
      by_cases hc : rc = .needRetry
      · rw [if_pos hc]
        exact again w3 t03 (t3.ext.pub p2)
      · rw [if_neg hc]
        refine WP.ret ⟨i3, t03, Or.inr ?_⟩
        rcases e3 with e3 | ⟨n', a, b, c⟩
        · exact absurd e3 hc
        · exact ⟨n', a, b.frame.removed.trans hrn, c⟩

/-! ## Splitting a page -/

theorem splitNode_wp (hr : Roomy cfg L) {l : Ptr} {n : Node K V} (hI : CInv cfg w) (h : Hold w t l n) (hbig : Big cfg n) :
    WP cfg t (splitNode cfg l) (fun r w' => CInv cfg w' ∧ Th t w w' ∧ (∀ q, w'.pend q = some t → q = r ∨ w.pend q = some t) ∧ r ≠ l ∧ ∃ ln rn sep,
      SplitPost cfg L (decide (w.lvl l ≠ 0)) (w.lo l) n r ln rn sep ∧ HoldX w' t l ln ∧ HoldX w' t r rn ∧
      w'.pend r = some t ∧ w'.lo r = .key sep ∧ w'.lvl r = w.lvl l ∧ (∀ q m, q ≠ l → Hold w t q m → Hold w' t q m ∧ q ≠ r)) w := by
  unfold splitNode
  refine h.load fun w1 r1 i1 h1 => ?_
  refine WP.alloc fun w3 r k2 i3 _ s3 m2 _ => ?_
  have h3 := h1.kp k2 (fun e => e)
  obtain ⟨ln, rn, sep, e1, sp⟩ := split_ok hr (hI.page h.st h.heap).ok hbig r
  refine WP.lift e1 ?_
  refine WP.lockX s3 fun w4 k4 i4 x4 m4 s4 => ?_
  have hlr : l ≠ r := by
    rintro rfl
    rw [h3.st] at s3; cases s3
  have h4 := h3.kp k4 hlr
  refine WP.store x4 (fun e => by rw [sp.right.notRemoved] at e; cases e) fun w5 r5 i5 x5 m5 s5 => ?_
  have s5' := s5.trans s4
  have o6 := ok_priv (cfg := cfg) i5 s5' rn
  refine ⟨_, rfl, o6, ?_⟩
  set w6 : World K V := { w5 with mem := w5.mem.setHeap r rn } with hw6
  have h5 := h4.rely r5
  have h6 : Hold w6 t l n := ⟨h5.six, h5.st, (setHeap_ne _ _ hlr).trans h5.heap, h5.wr⟩
  have m6 : w6.heap r = some rn := setHeap_same _ _ _
  have s6 : w6.st r = .priv t := s5'
  have k6 : Kp t (· = r) w5 w6 := kp_store' (OkB.ext o6) rfl rfl rfl rfl rfl (fun q hq => setHeap_ne _ _ hq)
  refine h6.upgrade fun w8 k8 i8 h8 => ?_
  obtain ⟨s8, m8, l8⟩ := k8.priv r (Ne.symm hlr) s6
  refine h8.store fun w9 r9 i9 h9 => ?_
  obtain ⟨s9, m9, l9⟩ := r9.kp.priv r (fun e => e) s8
  have hk : Kp t (fun q => q = r ∨ q = l) w w9 := by
    have a1 : Kp t (fun q => q = r ∨ q = l) w w5 :=
      (((r1.kpE _).trans k2.toE).trans (k4.mono (fun _ e => Or.inl e))).trans (r5.kpE _)
    exact ((a1.trans (k6.mono (fun _ e => Or.inl e))).trans (k8.mono (fun _ e => Or.inr e))).trans (r9.kpE _)
  obtain ⟨f1, f2, -⟩ := hk.ext.fixed l h.pub
  have sp' : SplitPost cfg L (decide (w9.lvl l ≠ 0)) (w9.lo l) n r ln rn sep := by rw [f1, f2]; exact sp
  have o10 := ok_split i9 h9.x h9.st h9.heap s9 (m9.trans (m8.trans m6)) sp' h9.wr
  refine ⟨_, rfl, o10, ?_⟩
  set w10 := w9.split t l r ln sep with hw10
  have st10 : w10.st = Spec.upd w9.st r .live := rfl
  have h10 : HoldX w10 t l ln := ⟨h9.x, by rw [st10, Spec.upd_ne _ _ hlr]; exact h9.st, setHeap_same _ _ _, h9.wr⟩
  have q10 : HoldX w10 t r rn := by
    refine ⟨?_, ?_, ?_, h9.wr⟩
    · show (w9.lk r).x = some t
      exact (congrArg Lk.x (l9.trans l8)).trans x5
    · rw [st10, Spec.upd_same]
    · exact (setHeap_ne _ _ (Ne.symm hlr)).trans (m9.trans (m8.trans m6))
  have ns10 : w9.NoStale t → w10.NoStale t := by
    refine fun e => ⟨fun q τ c => ?_, e.2⟩
    rw [st10]
    by_cases hq : q = r
    · subst hq; rw [Spec.upd_same]; simp
    · rw [Spec.upd_ne _ _ hq]; exact e.1 q τ c
  have pd10 : ∀ q, w10.pend q = some t → q = r ∨ w.pend q = some t := fun q hq => by
    by_cases e : q = r
    · exact Or.inl e
    · have hq : Spec.upd w9.pend r (some t) q = some t := hq
      rw [Spec.upd_ne _ _ e] at hq
      exact Or.inr (hk.pendLe q hq)
  refine WP.ret ⟨o10.inv, hk.th.trans ⟨OkB.ext o10, rfl, ns10, rfl, id⟩, pd10, Ne.symm hlr, ln, rn, sep, sp, h10, q10, ?_, ?_, ?_, ?_⟩
  · exact Spec.upd_same _ _ _
  · exact Spec.upd_same _ _ _
  · exact (Spec.upd_same _ _ _).trans f1
  · intro q m hq hh
    have hqr : q ≠ r := by
      rintro rfl
      have := (hh.rely r1).kp k2 (fun e => e)
      rw [this.st] at s3; cases s3
    have h9' : Hold w9 t q m := hh.kp hk (by rintro (e | e); exacts [hqr e, hq e])
    exact ⟨⟨h9'.six, by rw [st10, Spec.upd_ne _ _ hqr]; exact h9'.st, (setHeap_ne _ _ hq).trans h9'.heap, h9'.wr⟩, hqr⟩

/-- `GetValidSplitNode`: both pages are released. -/
theorem validSplitNode_wp {l r : Ptr} {ln rn : Node K V} {k sep : K} (hl : HoldX w t l ln) (hr : HoldX w t r rn) (hlr : r ≠ l)
    (hsep : ln.high = some sep) :
    WP cfg t (validSplitNode k l r) (fun x w' => CInv cfg w' ∧ Kp t (fun q => q = l ∨ q = r) w w' ∧ x.2.1 = some sep ∧
      ((x.1 = l ∧ k < sep ∧ Was w' l ln x.2.2) ∨ (x.1 = r ∧ sep ≤ k ∧ Was w' r rn x.2.2))) w := by
  unfold validSplitNode
  refine hl.load fun w1 r1 i1 h1 => ?_
  have q1 := hr.rely r1
  by_cases hc : ln.compHighKey k = true
  · rw [if_pos hc]
    refine q1.unlock fun w2 k2 i2 _ _ => ?_
    refine (h1.kp k2 (Ne.symm hlr)).unlockVer fun w3 v3 k3 i3 _ was3 _ => WP.ret ⟨i3, ?_, hsep, Or.inl ⟨rfl, ?_, was3⟩⟩
    · exact ((r1.kpE _).trans (k2.mono (fun _ e => Or.inr e))).trans (k3.mono (fun _ e => Or.inl e))
    · rw [compHigh_iff, hsep] at hc
      exact Bd.key_lt_key.1 hc
  · rw [if_neg hc]
    refine q1.unlockVer fun w2 v2 k2 i2 _ was2 _ => ?_
    refine WP.withVr ?_
    refine (h1.kp k2 (Ne.symm hlr)).unlock fun w3 k3 i3 _ _ => WP.ret fun vr => ⟨i3, ?_, hsep, Or.inr ⟨rfl, ?_, was2.mono vr⟩⟩
    · exact ((r1.kpE _).trans (k2.mono (fun _ e => Or.inr e))).trans (k3.mono (fun _ e => Or.inl e))
    · rw [compHigh_iff, not_lt, hsep] at hc
      exact Bd.key_le_key.1 hc

end COml
end BT
