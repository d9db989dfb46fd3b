import Verif.ConcOps

/-!
# Proof rules for the optimistic lock
-/

set_option linter.unusedSectionVars false

namespace BT
open Spec
variable {K V : Type} [LinearOrder K] {cfg : Cfg K} {w w' : World K V} {t : Tid} {p : Ptr}

section rules
variable {α : Type} {Q : α → World K V → Prop}

theorem WP.getVer {k : Nat → Prog K V α} (hp : w.Pub p)
    (h : ∀ w1, Rely t w w1 → CInv cfg w1 → (w1.lk p).x = none → WP cfg t (k (w1.lk p).ver) Q w1) :
    WP cfg t (Prog.getVer p >>= k) Q w := by
  refine WP.act fun w1 hr hi => ?_
  obtain ⟨n, hn⟩ := hi.some_of_pub (hr.kp.ext.pub hp)
  simp only [Act.run]
  rw [show w1.mem.heap p = some n from hn]
  simp only
  split
  · next hx =>
    refine ⟨by simp, fun b m e => Or.inr ?_⟩
    cases e
    exact ⟨w1, rfl, OkB.refl hi, h w1 hr hi hx⟩
  · exact ⟨by simp, fun b m e => by cases e⟩

/-- `HasSameVersion`, with a ghost step when it says yes. -/
theorem WP.sameG {k : Bool → Prog K V α} {v : Nat} (hp : w.Pub p)
    (h1 : ∀ w1, Rely t w w1 → CInv cfg w1 → (w1.lk p).x = none → (w1.lk p).ver = v →
      ∃ w2 : World K V, w2.mem = w1.mem ∧ OkB cfg t w1 w2 ∧ WP cfg t (k true) Q w2)
    (h2 : ∀ w1, Rely t w w1 → CInv cfg w1 → WP cfg t (k false) Q w1) :
    WP cfg t (Prog.same p v >>= k) Q w := by
  refine WP.run fun w1 hr hi => ?_
  obtain ⟨n, hn⟩ := hi.some_of_pub (hr.kp.ext.pub hp)
  by_cases hx : (w1.lk p).x = none ∧ (w1.lk p).ver = v
  · refine ⟨true, w1.mem, ?_, h1 w1 hr hi hx.1 hx.2⟩
    simp only [Act.run]
    rw [show w1.mem.heap p = some n from hn]
    simp only
    rw [decide_eq_true (show (w1.mem.lk p).x = none ∧ (w1.mem.lk p).ver = v from hx)]
  · refine ⟨false, w1.mem, ?_, w1, rfl, OkB.refl hi, h2 w1 hr hi⟩
    simp only [Act.run]
    rw [show w1.mem.heap p = some n from hn]
    simp only
    rw [decide_eq_false (show ¬ ((w1.mem.lk p).x = none ∧ (w1.mem.lk p).ver = v) from hx)]

theorem WP.same {k : Bool → Prog K V α} {v : Nat} (hp : w.Pub p)
    (h1 : ∀ w1, Rely t w w1 → CInv cfg w1 → (w1.lk p).x = none → (w1.lk p).ver = v → WP cfg t (k true) Q w1)
    (h2 : ∀ w1, Rely t w w1 → CInv cfg w1 → WP cfg t (k false) Q w1) :
    WP cfg t (Prog.same p v >>= k) Q w :=
  WP.sameG hp (fun w1 a b c d => ⟨w1, rfl, OkB.refl b, h1 w1 a b c d⟩) h2

theorem WP.tryLockSIX {k : Bool → Prog K V α} {v : Nat} (hp : w.Pub p) (hf : w.solo = true → ¬ w.Own t p) (hd : cfg.blink = false → w.Before t p)
    (h1 : ∀ w1 w2, Rely t w w1 → CInv cfg w1 → (w1.lk p).x = none → (w1.lk p).ver = v → ¬ w1.Own t p →
      Kp t (· = p) w1 w2 → CInv cfg w2 → (w2.lk p).six = some t → w2.heap p = w1.heap p → w2.st p = w1.st p →
      WP cfg t (k true) Q w2)
    (h2 : ∀ w1, Rely t w w1 → CInv cfg w1 → WP cfg t (k false) Q w1) :
    WP cfg t (Prog.tryLockSIX p v >>= k) Q w := by
  refine WP.act (fun w1 hr hi => ?_) (fun w1 hr _ => hr.noSelf hf) (ho := fun e w1 hr _ => ⟨hr.kp.ext.pub hp, (hd e).rely hp hr⟩)
  have hp1 := hr.kp.ext.pub hp
  obtain ⟨n, hn⟩ := hi.some_of_pub hp1
  simp only [Act.run]
  rw [show w1.mem.heap p = some n from hn]
  simp only
  split
  on_goal 2 =>
    refine ⟨by simp, fun b m e => Or.inr ?_⟩
    cases e
    exact ⟨w1, rfl, OkB.refl hi, h2 w1 hr hi⟩
  · next hx =>
    split
    · next h6 =>
      refine ⟨by simp, fun b m e => Or.inr ?_⟩
      cases e
      have hno : ¬ w1.Own t p := by
        rintro (e | e)
        · rw [show (w1.lk p).six = none from h6] at e; cases e
        · rw [show (w1.lk p).x = none from hx.1] at e; cases e
      have hl : LkOk t (w1.lk p) { w1.lk p with six := some t } :=
        ⟨fun u hu => (by rw [show (w1.lk p).x = none from hx.1] at hu; cases hu), fun u hu => (by
            show some t = some u ↔ (w1.mem.lk p).six = some u
            rw [h6]; simp; exact fun e => hu e.symm), fun _ _ => Iff.rfl, fun _ _ => rfl, le_refl _, fun _ _ => rfl⟩
      have hok := ok_setLk (cfg := cfg) hi hl (Or.inl hp1) (fun τ q e => Or.inl rfl)
      exact ⟨w1.setLk p _, rfl, hok, h1 w1 _ hr hi hx.1 hx.2 hno (kp_setLk rfl) hok.inv (by rw [World.setLk_same]) rfl rfl⟩
    · exact ⟨by simp, fun b m e => by cases e⟩

theorem WP.tryLockX {k : Bool → Prog K V α} {v : Nat} (hp : w.Pub p) (hf : w.solo = true → ¬ w.Own t p)
    (h1 : ∀ w1 w2, Rely t w w1 → CInv cfg w1 → (w1.lk p).x = none → (w1.lk p).ver = v → ¬ w1.Own t p →
      Kp t (· = p) w1 w2 → CInv cfg w2 → (w2.lk p).x = some t → (w2.lk p).ver = v → w2.heap p = w1.heap p → w2.st p = w1.st p →
      WP cfg t (k true) Q w2)
    (h2 : ∀ w1, Rely t w w1 → CInv cfg w1 → WP cfg t (k false) Q w1) :
    WP cfg t (Prog.tryLockX p v >>= k) Q w := by
  refine WP.act (fun w1 hr hi => ?_) (fun w1 hr _ => hr.noSelf hf)
  have hp1 := hr.kp.ext.pub hp
  obtain ⟨n, hn⟩ := hi.some_of_pub hp1
  simp only [Act.run]
  rw [show w1.mem.heap p = some n from hn]
  simp only
  split
  on_goal 2 =>
    refine ⟨by simp, fun b m e => Or.inr ?_⟩
    cases e
    exact ⟨w1, rfl, OkB.refl hi, h2 w1 hr hi⟩
  · next hx =>
    split
    · next h6 =>
      refine ⟨by simp, fun b m e => Or.inr ?_⟩
      cases e
      have hno : ¬ w1.Own t p := by
        rintro (e | e)
        · rw [show (w1.lk p).six = none from h6.1] at e; cases e
        · rw [show (w1.lk p).x = none from hx.1] at e; cases e
      have hl : LkOk t (w1.lk p) { w1.lk p with x := some t } :=
        ⟨fun u hu => ⟨h6.1, h6.2⟩, fun _ _ => Iff.rfl, fun u hu => (by
            show some t = some u ↔ (w1.mem.lk p).x = some u
            rw [hx.1]; simp; exact fun e => hu e.symm), fun _ _ => rfl, le_refl _, fun _ h => absurd hx.1 h⟩
      have hok := ok_setLk (cfg := cfg) hi hl (Or.inl hp1) (fun τ q e => Or.inr rfl)
      exact ⟨w1.setLk p _, rfl, hok, h1 w1 _ hr hi hx.1 hx.2 hno (kp_setLk rfl) hok.inv (by rw [World.setLk_same])
        (by rw [World.setLk_same]; exact hx.2) rfl rfl⟩
    · exact ⟨by simp, fun b m e => by cases e⟩

theorem WP.unlockXVer {k : Nat → Prog K V α} (hp : w.Pub p) (hx : (w.lk p).x = some t) (hns : ∀ τ q, w.st p ≠ .stale τ q t)
    (h : ∀ w', Kp t (· = p) w w' → CInv cfg w' → ¬ w'.Own t p → (w'.lk p).x = none → w'.heap p = w.heap p → w'.st p = w.st p →
      WP cfg t (k (w'.lk p).ver) Q w') :
    WP cfg t (Prog.unlockXVer p >>= k) Q w := by
  refine WP.run fun w1 hr hi => ?_
  obtain ⟨e1, e2⟩ := hr.kp.own p (fun e => e) (Or.inr hx)
  have hp1 := hr.kp.ext.pub hp
  have hx1 : (w1.lk p).x = some t := (hr.kp.x p (fun e => e)).2 hx
  obtain ⟨h61, hs1⟩ := hi.lkx p t hx1
  have hl : LkOk t (w1.lk p) { w1.lk p with x := none, ver := (w1.lk p).ver + 1 } :=
    ⟨fun u hu => (by cases hu), fun _ _ => Iff.rfl, fun u hu => (by
        show none = some u ↔ _
        rw [hx1]; simp; exact fun e => hu e.symm), fun _ _ => rfl, Nat.le_succ _, fun h _ => absurd h (Nat.succ_ne_self _)⟩
  have hok := ok_setLk (cfg := cfg) hi hl (Or.inl hp1) (fun τ q e => absurd ((hr.kp.noStale p τ q).1 e) (hns τ q))
  refine ⟨(w1.lk p).ver + 1, _, by simp only [Act.run]; rw [if_pos hx1]; rfl, _, rfl, hok, ?_⟩
  have := h (w1.setLk p { w1.lk p with x := none, ver := (w1.lk p).ver + 1 }) ((hr.kpE _).trans (kp_setLk rfl)) hok.inv
    (by unfold World.Own; rw [World.setLk_same]; simp [h61]) (by rw [World.setLk_same]) e1 e2
  rw [World.setLk_same] at this
  exact this

end rules

/-! ## What an unchanged version tells -/

/-- Page `p` contained `n` when its version was `v` and nobody held its X lock. -/
structure Seen (w : World K V) (p : Ptr) (n : Node K V) (v : Nat) : Prop where
  pub : w.Pub p
  x : (w.lk p).x = none
  ver : (w.lk p).ver = v
  heap : w.heap p = some n

/-- The page has not changed as long as the version is the same. -/
theorem Seen.last {n : Node K V} {v : Nat} (h : Seen w p n v) (r : Rely t w w') (hx : (w'.lk p).x = none) (hv : (w'.lk p).ver = v) :
    Seen w' p n v :=
  ⟨r.kp.ext.pub h.pub, hx, hv, ((r.ver p h.pub).2.1 h.x hx (hv.trans h.ver.symm)).trans h.heap⟩

/-- It had not changed in between either. -/
theorem Seen.mid {n m : Node K V} {v : Nat} {w1 w2 : World K V} (h : Seen w p n v) (r1 : Rely t w w1) (r2 : Rely t w1 w2)
    (hx : (w2.lk p).x = none) (hv : (w2.lk p).ver = v) (hm : w1.heap p = some m) : m = n := by
  have hp1 := r1.kp.ext.pub h.pub
  obtain ⟨a1, b1, -⟩ := r1.ver p h.pub
  obtain ⟨a2, -, c2⟩ := r2.ver p hp1
  have hv1 : (w1.lk p).ver = v := by have := h.ver; omega
  have hx1 : (w1.lk p).x = none := by
    by_contra e
    have := c2 (hv.trans hv1.symm) e
    rw [hx] at this
    exact e this.symm
  have := (b1 h.x hx1 (hv1.trans h.ver.symm)).trans h.heap
  rw [hm] at this
  cases this
  rfl

theorem Rely.trans' {w1 w2 : World K V} (h : Rely t w w1) (h' : Rely t w1 w2) : Rely t w w2 := Rely.trans h h'

/-! ## Pages read without a check -/

/-- Every page the tree has ever had is well formed, apart from its mark. -/
theorem CInv.okAny (hI : CInv cfg w) (hp : w.Pub p) {n : Node K V} (hn : w.heap p = some n) :
    NodeOk cfg (decide (w.lvl p ≠ 0)) (w.lo p) { n with removed := false } := by
  have key : ∀ m : Node K V, m.removed = false → NodeOk cfg (decide (w.lvl p ≠ 0)) (w.lo p) m →
      NodeOk cfg (decide (w.lvl p ≠ 0)) (w.lo p) { m with removed := false } := by
    intro m hm h
    cases m
    simp only at hm
    subst hm
    exact h
  rcases World.pub_cases hp with e | ⟨τ, q, u, e⟩ | ⟨τ, q, e⟩ | e
  · have h := (hI.page e hn).ok
    exact key n h.notRemoved h
  · obtain ⟨-, -, -, -, -, m, f, g⟩ := hI.stale p τ q u e
    rw [hn] at f; cases f
    exact key n g.ok.notRemoved g.ok
  · obtain ⟨-, -, -, -, m, f, -, -, g, -⟩ := hI.merged p τ q e
    rw [hn] at f; cases f
    exact g
  · obtain ⟨-, m, f, -, -, g⟩ := hI.gone p e
    rw [hn] at f; cases f
    exact g

/-- Looking for a child in a page that may have changed meanwhile is harmless. -/
theorem CInv.child_any (hI : CInv cfg w) (hp : w.Pub p) {n : Node K V} (hn : w.heap p = some n) (hl : w.lvl p ≠ 0) (k : K) :
    ∃ rc pos c, n.searchRecord k = .ok (rc, pos) ∧ n.getChild pos = .ok c := by
  have h := hI.okAny hp hn
  rw [decide_eq_true hl] at h
  have hi := h.inner
  obtain ⟨T, r, D, rc, hrecs, hsr, -, -⟩ := searchRecord_inner k h.kind hi.sorted hi.ne
    (by intro r hr; obtain ⟨a, ha, -⟩ := hi.keyed r hr; simp [ha]) hi.live
  have hrecs' : n.recs = T ++ r :: D := hrecs
  obtain ⟨c, hc⟩ := hi.ptrs r (show r ∈ n.recs by simp [hrecs'])
  refine ⟨rc, _, c, hsr, ?_⟩
  cases r
  simp at hc
  subst hc
  simp [Node.getChild, hrecs']

theorem CInv.search_any (hI : CInv cfg w) (hp : w.Pub p) {n : Node K V} (hn : w.heap p = some n) (hl : w.lvl p = 0) (k : K) :
    ∃ rc pos, n.searchRecord k = .ok (rc, pos) := by
  have h := hI.okAny hp hn
  rw [hl] at h
  rcases NodeOk.search_leaf (show NodeOk cfg false _ _ from h) k with ⟨T, D, -, hs, -⟩ | ⟨T, r, D, -, -, -, -, hs⟩
  · exact ⟨_, _, hs⟩
  · exact ⟨_, _, hs⟩

theorem CInv.read_any (hI : CInv cfg w) (hp : w.Pub p) {n : Node K V} (hn : w.heap p = some n) (hl : w.lvl p = 0) (k : K) :
    ∃ o, n.read k = .ok o := by
  have h := hI.okAny hp hn
  rw [hl] at h
  obtain ⟨A, C, B, -, e⟩ := leafRead_ok (show NodeOk cfg false _ _ from h) k
  exact ⟨C, e⟩

/-- A call that changes nothing takes effect at an instant since its invocation. -/
theorem ok_past (hI : CInv cfg w) {op : Op K V} {out : Out K V} {t0 τ : Nat} (hw : w.ps.ph t = .waiting op t0) (h1 : t0 ≤ τ) (h2 : τ ≤ w.now)
    (hs : Step (w.maps τ) op out (w.maps τ)) :
    OkB cfg t w (w.done t out) :=
  ok_ps (t := t) (ps' := ⟨w.ps.now, w.ps.maps, Spec.upd w.ps.ph t (.done out)⟩) hI
    (fun _ hp => Past.pastSame hp hw h1 h2 hs) (le_refl _) (fun _ _ => rfl) rfl (fun _ hu => Spec.upd_ne _ _ hu)

end BT
