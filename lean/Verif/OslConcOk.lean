import Verif.ConcTail
import Verif.OslNavOk

/-!
# OSL's entry points are correct as long as no noted situation occurs
-/

set_option linter.unusedSectionVars false

namespace BT
open Spec
variable {K V : Type} [LinearOrder K] {cfg : Cfg K} {L : Nat} {w w' : World K V} {t : Tid} {p : Ptr}

/-- A page on which `cleanUpIfNeeded` has nothing left to do. -/
def Trim (cfg : Cfg K) (n : Node K V) (len : Nat) : Prop :=
  (Blink.needSplit cfg n len = true → Big cfg n) ∧ (Blink.needSplit cfg n len = false → n.fitsOne cfg len = true)

theorem Blink.leafInsertCore_ok {lo : Bd K} {k : K} {n : Node K V} (h : NodeOk cfg false lo n) (hd : Trim cfg n (cfg.klen k + cfg.payLen))
    (hlo : lo.leKey k) (hhi : (hiB n.high).gtKey k) (v : V) :
    ∃ rc n', Blink.leafInsertCore cfg n k v = .ok (rc, n') ∧ NodeOk cfg false lo n' ∧
      ((rc = .needSplit ∧ n' = n ∧ Big cfg n ∧ ∃ A B, Around k (pairs n.recs) A none B) ∨
       (rc = .completed ∧ SameFrame n n' ∧ ∃ A B, Around k (pairs n.recs) A none B ∧
          Around k (pairs n'.recs) A (some v) B) ∨
       (rc = .keyAlreadyInserted ∧ n' = n ∧ ∃ A C B, Around k (pairs n.recs) A C B ∧ C ≠ none)) := by
  obtain ⟨c4, c5⟩ := hd
  by_cases hsp : ∃ pos, n.searchRecord k = .ok (.keyNotInserted, pos) ∧
      Blink.needSplit cfg n (cfg.klen k + cfg.payLen) = true
  · obtain ⟨pos, s1, s2⟩ := hsp
    refine ⟨.needSplit, n, ?_, h, Or.inl ⟨rfl, rfl, c4 s2, absent_of_search h rfl s1⟩⟩
    simp [Blink.leafInsertCore, s1, s2]
  · have hroom : ∀ pos, n.searchRecord k = .ok (.keyNotInserted, pos) →
        Blink.needSplit cfg n (cfg.klen k + cfg.payLen) = false := by
      intro pos hp
      cases hh : Blink.needSplit cfg n (cfg.klen k + cfg.payLen)
      · rfl
      · exact (hsp ⟨pos, hp, hh⟩).elim
    obtain ⟨n', rc', A, C, B, e1, e2, e3, e4, e5⟩ := leafInsert_ok' h (fun pos hp => c5 (hroom pos hp)) hlo hhi v
    have e0 : Blink.leafInsertCore cfg n k v
        = .ok (if rc' = .success then .completed else .keyAlreadyInserted, n') := by
      simp only [Blink.leafInsertCore]
      simp only [Node.leafInsert] at e1
      cases hs : n.searchRecord k with
      | ub => rw [hs] at e1; simp at e1
      | fuel => rw [hs] at e1; simp at e1
      | ok x =>
        obtain ⟨rc, pos⟩ := x
        rw [hs] at e1
        simp only [Res.ok_bind] at e1 ⊢
        by_cases h1 : rc = .keyNotInserted
        · subst h1
          rw [if_pos rfl] at e1 ⊢
          rw [hroom pos hs]
          cases hi : n.insertRecord cfg k (.val v) pos <;> rw [hi] at e1 <;> simp at e1
          obtain ⟨rfl, rfl⟩ := e1
          rfl
        · rw [if_neg h1] at e1 ⊢
          by_cases h2 : rc = .keyAlreadyDeleted ∧ cfg.layout = .var
          · rw [if_pos h2] at e1 ⊢
            cases hi : n.reuseRecord cfg pos v <;> rw [hi] at e1 <;> simp at e1
            obtain ⟨rfl, rfl⟩ := e1
            rfl
          · rw [if_neg h2] at e1 ⊢
            simp at e1
            obtain ⟨rfl, rfl⟩ := e1
            rfl
    refine ⟨_, n', e0, e2, Or.inr ?_⟩
    rcases e5 with ⟨rfl, rfl, e5⟩ | ⟨x1, rfl, rfl⟩
    · exact Or.inl ⟨rfl, e3, A, B, e4, e5⟩
    · exact Or.inr ⟨rfl, rfl, A, C, B, e4, x1⟩

theorem Trim.of_cleanUp {b : Bool} {lo : Bd K} {n n1 : Node K V} (hr : Roomy cfg L) (h : NodeOk cfg b lo n) {len : Nat}
    (hlen : len ≤ L + cfg.maxPayLen) (hc : Blink.cleanUpIfNeeded cfg n len = .ok n1) : Trim cfg n1 len := by
  obtain ⟨n', c1, -, -, c4, c5⟩ := cleanUpIfNeeded_ok hr h hlen
  rw [hc] at c1; cases c1
  exact ⟨c4, c5⟩

namespace COsl
open CBlink (Leaf)

/-! ## What a validated page says -/

theorem Found.snap {t0 v : Nat} {k : K} {n : Node K V} (h : Found w t0 k p n v) (hI : CInv cfg w) : ∃ τ, Snap cfg w t0 p n τ :=
  hI.snap h.ge h.now h.seen.heap h.removed

theorem Found.ok {t0 v : Nat} {k : K} {n : Node K V} (h : Found w t0 k p n v) (hI : CInv cfg w) (hl : w.lvl p = 0) :
    NodeOk cfg false (w.lo p) n := by
  obtain ⟨τ, sn⟩ := h.snap hI
  have := sn.pg.ok
  rwa [hl] at this

/-- A call that leaves the map as it is can answer with what it has seen. -/
theorem Found.answer {t0 v : Nat} {k : K} {n : Node K V} (h : Found w t0 k p n v) (hI : CInv cfg w) (hl : w.lvl p = 0) {op : Op K V}
    {out : Out K V} (hw : w.ps.ph t = .waiting op t0) {A B : List (K × V)} {C : Option V} (ha : Around k (pairs n.recs) A C B)
    (hs : ∀ m : Map K V, m k = C → Step m op out m) : OkB cfg t w (w.done t out) := by
  obtain ⟨τ, sn⟩ := h.snap hI
  exact ok_past hI hw sn.lo sn.hi (hs _ (ha.agree (sn.pg.agree hl) h.low (compHigh_iff.1 h.high)))

/-- With its lock taken, a validated page is part of the tree. -/
theorem Found.live {t0 v : Nat} {k : K} {n : Node K V} {w1 w2 : World K V} (h : Found w1 t0 k p n v) (hns : w1.NoStale t)
    (k2 : Kp t (· = p) w1 w2) (i2 : CInv cfg w2) (ho : w2.Own t p) (hh : w2.heap p = w1.heap p) : w2.st p = .live :=
  i2.live_of_own ho (k2.ext.pub h.ge.pub) (k2.noStaleT hns) (hh.trans h.seen.heap) h.removed

theorem Found.holdX {t0 v : Nat} {k : K} {n : Node K V} {w1 w2 : World K V} (h : Found w1 t0 k p n v) (hns : w1.NoStale t) (hg : w1.Wr t)
    (k2 : Kp t (· = p) w1 w2) (i2 : CInv cfg w2) (hx : (w2.lk p).x = some t) (hh : w2.heap p = w1.heap p) : HoldX w2 t p n :=
  ⟨hx, h.live hns k2 i2 (Or.inr hx) hh, hh.trans h.seen.heap, k2.wr.2 hg⟩

theorem Found.leaf {t0 v : Nat} {k : K} {n : Node K V} {w1 w2 : World K V} (h : Found w1 t0 k p n v) (hl : w1.lvl p = 0) (hns : w1.NoStale t)
    (hg : w1.Wr t)
    (k2 : Kp t (· = p) w1 w2) (i2 : CInv cfg w2) (hx : (w2.lk p).six = some t) (hh : w2.heap p = w1.heap p) : Leaf w2 t p k n := by
  obtain ⟨f1, f2, -⟩ := k2.ext.fixed p h.ge.pub
  exact ⟨⟨hx, h.live hns k2 i2 (Or.inl hx) hh, hh.trans h.seen.heap, k2.wr.2 hg⟩, f1.trans hl, by rw [f2]; exact h.low, compHigh_iff.1 h.high⟩

/-! ## Reads -/

theorem nodeRead_wp (k : K) (t0 : Nat) : ∀ (f : Nat) (p : Ptr) (w : World K V), AtP w t0 k p → w.lvl p = 0 → w.NoStale t → w.Clean t →
    w.ps.ph t = .waiting (.read k) t0 → WP cfg t (nodeRead k f p) (fun o w' => Ended t w (.payload o) w') w
  | 0, _, _, _, _, _, _, _ => WP.stuck
  | f + 1, p, w, h, hl, hns, hcl, hw => by
    unfold nodeRead
    refine WP.bind ((checkO_ok k t0 (f + 1) p w h (Or.inr hl)).mono fun o w1 => ?_)
    match o with
    | none =>
      rintro ⟨-, -, -, e⟩
      exact absurd hl e
    | some (q, v) =>
      rintro ⟨i1, r1, l1, g1, n, f1⟩
      refine WP.peek f1.ge.pub fun w2 n' r2 i2 hn2 => ?_
      have q2 := r2.kp.ext.pub f1.ge.pub
      have lq2 : w2.lvl q = 0 := by rw [(r2.kp.ext.fixed q f1.ge.pub).1, l1]; exact hl
      obtain ⟨o, e1⟩ := i2.read_any q2 hn2 lq2 k
      refine WP.lift e1 ?_
      refine WP.sameG q2 (fun w3 r3 i3 x3 v3 => ?_) (fun w3 r3 i3 => ?_)
      · have e := f1.seen.mid r2 r3 x3 v3 hn2
        subst e
        have r23 := r2.trans' r3
        have f3 := f1.last r23 x3 v3
        have r := r1.trans' r23
        have l3 : w3.lvl q = 0 := by rw [(r3.kp.ext.fixed q q2).1]; exact lq2
        obtain ⟨A, C, B, a1, a2⟩ := leafRead_ok (f3.ok i3 l3) k
        rw [e1] at a2; cases a2
        refine ⟨w3.done t _, rfl, f3.answer i3 l3 (r.kp.ph.trans hw) (out := .payload o) a1 (fun m hm => by rw [← hm]; exact Step.read k), ?_⟩
        rw [if_pos rfl]
        exact WP.ret (Ended.now (r.kp.noStaleT hns) (hcl.le r.kp.pendLe) r.kp.wr.1)
      · simp only [Bool.false_eq_true, if_false]
        have r23 := r2.trans' r3
        have r := r1.trans' r23
        exact (nodeRead_wp k t0 f q w3 (f1.atp.ext r23.kp.ext) (by rw [(r3.kp.ext.fixed q q2).1]; exact lq2) (r.kp.noStaleT hns)
          (hcl.le r.kp.pendLe) (r.kp.ph.trans hw)).mono fun _ _ h => Ended.from h r.kp.wr.1

theorem read_wp (hb : cfg.blink = true) {fuel : Nat} {k : K} (hns : w.NoStale t) (hcl : w.Clean t) (hw : w.ps.ph t = .waiting (.read k) w.now) :
    WP cfg t (read fuel k) (fun o w' => Ended t w (.payload o) w') w := by
  unfold read
  refine WP.getRoot fun w1 r1 i1 => ?_
  refine WP.bind ((searchLeaf_ok hb k w.now fuel w1.mem.root w1 (AtP.root i1 r1.kp.ext.now k)).mono ?_)
  rintro leaf w2 ⟨i2, r2, hl, a2⟩
  have r := r1.trans' r2
  exact (nodeRead_wp k w.now fuel leaf w2 a2 hl (r.kp.noStaleT hns) (hcl.le r.kp.pendLe) (r.kp.ph.trans hw)).mono
    fun _ _ h => Ended.from h r.kp.wr.1

/-! ## Updates -/

theorem nodeUpdate_wp (k : K) (v : V) (t0 : Nat) : ∀ (f : Nat) (p : Ptr) (w : World K V), AtP w t0 k p → w.lvl p = 0 → w.NoStale t → w.Wr t → w.Clean t → w.Bare t →
    w.ps.ph t = .waiting (.update k v) t0 → WP cfg t (nodeUpdate k v f p) (fun rc w' => Ended t w (.code rc) w') w
  | 0, _, _, _, _, _, _, _, _, _ => WP.stuck
  | f + 1, p, w, h, hl, hns, hg, hcl, hba, hw => by
    unfold nodeUpdate
    refine WP.bind ((checkO_ok k t0 (f + 1) p w h (Or.inr hl)).mono fun o w1 => ?_)
    match o with
    | none =>
      rintro ⟨-, -, -, e⟩
      exact absurd hl e
    | some (q, ver) =>
      rintro ⟨i1, r1, l1, g1, n, f1⟩
      refine WP.peek f1.ge.pub fun w2 n' r2 i2 hn2 => ?_
      have q2 := r2.kp.ext.pub f1.ge.pub
      have lq2 : w2.lvl q = 0 := by rw [(r2.kp.ext.fixed q f1.ge.pub).1, l1]; exact hl
      obtain ⟨rc, pos, e1⟩ := i2.search_any q2 hn2 lq2 k
      refine WP.lift e1 ?_
      have again : ∀ w3, Rely t w2 w3 → CInv cfg w3 →
          WP cfg t (nodeUpdate k v f q) (fun rc w' => Ended t w (.code rc) w') w3 := by
        intro w3 r3 i3
        have r23 := r2.trans' r3
        have r := r1.trans' r23
        exact (nodeUpdate_wp k v t0 f q w3 (f1.atp.ext r23.kp.ext) (by rw [(r3.kp.ext.fixed q q2).1]; exact lq2) (r.kp.noStaleT hns)
          (r.kp.wr.2 hg) (hcl.le r.kp.pendLe) (hba.kp r.kp) (r.kp.ph.trans hw)).mono fun _ _ h => Ended.from h r.kp.wr.1
      by_cases hrc : rc = .keyAlreadyInserted
      · simp only [if_pos hrc]
        refine WP.tryLockX q2 (fun s => (hba.kp (r1.trans' r2).kp) s q) (fun w3 w4 r3 i3 x3 v3 o3 k4 i4 x4 v4 hh4 st4 => ?_) (fun w3 r3 i3 => again w3 r3 i3)
        have e := f1.seen.mid r2 r3 x3 v3 hn2
        subst e
        have r23 := r2.trans' r3
        have f3 := f1.last r23 x3 v3
        have r := r1.trans' r23
        have l3 : w3.lvl q = 0 := by rw [(r3.kp.ext.fixed q q2).1]; exact lq2
        have ns3 := r.kp.noStaleT hns
        have h4 := f3.holdX ns3 (r.kp.wr.2 hg) k4 i4 x4 hh4
        obtain ⟨m, rc', A, C, B, u1, u2, u3, s2, u4⟩ := leafUpdate_ok (f3.ok i3 l3) k v
        have hup : ∃ m', n'.setPayload pos v = .ok m' ∧ m = m' ∧ rc' = .success := by
          simp only [Node.leafUpdate, e1, Res.ok_bind, hrc, if_true] at u1
          cases hp : n'.setPayload pos v with
          | ub => rw [hp] at u1; simp at u1
          | fuel => rw [hp] at u1; simp at u1
          | ok m' => rw [hp] at u1; simp at u1; exact ⟨m', rfl, u1.2.symm, u1.1.symm⟩
        obtain ⟨m', u5, rfl, rfl⟩ := hup
        rcases u4 with ⟨hC, -, s3⟩ | ⟨-, hbad, -⟩
        · rw [if_pos rfl]
          refine h4.load fun w5 r5 i5 h5 => WP.lift u5 (h5.store fun w6 r6 i6 h6 => ?_)
          have k6 : Kp t (· = q) w3 w6 := (k4.trans (r5.kpE _)).trans (r6.kpE _)
          obtain ⟨g1, g2, -⟩ := k6.ext.fixed q f3.ge.pub
          have hhi := compHigh_iff.1 f3.high
          have hmk : w6.maps w6.now k = C := s2.agree ((i6.page h6.st h6.heap).agree (g1.trans l3)) (by rw [g2]; exact f3.low) hhi
          obtain ⟨w7, m7, o7, k7, h7⟩ := ok_effect i6 h6 (g1.trans l3) (n' := m) u3 (by rw [g2]; exact u2) (by rw [g2]; exact f3.low)
            hhi ⟨_, k6.ph.trans (r.kp.ph.trans hw)⟩ (Step.updateOld k v (by rw [hmk]; exact hC)) s2 s3
          refine ⟨w7, m7, o7, h7.unlock fun w8 k8 i8 _ _ => WP.ret ?_⟩
          exact ((k6.setPh _).trans (k7.trans k8)).fin ns3 (hcl.le r.kp.pendLe) r.kp.wr.1
        · cases hbad
      · simp only [if_neg hrc]
        refine WP.sameG q2 (fun w3 r3 i3 x3 v3 => ?_) (fun w3 r3 i3 => again w3 r3 i3)
        have e := f1.seen.mid r2 r3 x3 v3 hn2
        subst e
        have r23 := r2.trans' r3
        have f3 := f1.last r23 x3 v3
        have r := r1.trans' r23
        have l3 : w3.lvl q = 0 := by rw [(r3.kp.ext.fixed q q2).1]; exact lq2
        obtain ⟨m, rc', A, C, B, u1, u2, u3, s2, u4⟩ := leafUpdate_ok (f3.ok i3 l3) k v
        simp only [Node.leafUpdate, e1, Res.ok_bind, hrc, if_false] at u1
        rcases u4 with ⟨-, rfl, -⟩ | ⟨rfl, -, -⟩
        · simp at u1
        · refine ⟨w3.done t _, rfl, f3.answer i3 l3 (r.kp.ph.trans hw) (out := .code .keyNotExist) s2 (fun m hm => Step.updateNew k v hm), ?_⟩
          rw [if_pos rfl]
          exact WP.ret (Ended.now (r.kp.noStaleT hns) (hcl.le r.kp.pendLe) r.kp.wr.1)

theorem update_wp (hb : cfg.blink = true) {fuel : Nat} {k : K} {v : V} (hns : w.NoStale t) (hg : w.Wr t) (hcl : w.Clean t)
    (hba : w.Bare t) (hw : w.ps.ph t = .waiting (.update k v) w.now) :
    WP cfg t (update fuel k v) (fun rc w' => Ended t w (.code rc) w') w := by
  unfold update
  refine WP.getRoot fun w1 r1 i1 => ?_
  refine WP.bind ((searchLeaf_ok hb k w.now fuel w1.mem.root w1 (AtP.root i1 r1.kp.ext.now k)).mono ?_)
  rintro leaf w2 ⟨i2, r2, hl, a2⟩
  have r := r1.trans' r2
  exact (nodeUpdate_wp k v w.now fuel leaf w2 a2 hl (r.kp.noStaleT hns) (r.kp.wr.2 hg) (hcl.le r.kp.pendLe) (hba.kp r.kp) (r.kp.ph.trans hw)).mono
    fun _ _ h => Ended.from h r.kp.wr.1

/-! ## Writes -/

theorem insertInto_wp (hr : Roomy cfg L) {n : Node K V} {k : K} {v : V} {o : Op K V} (hI : CInv cfg w) (h : Leaf w t p k n)
    (hroom : Room cfg L n) (hlive : ∀ x ∈ n.recs, x.del = false) (habs : ∀ v, (k, v) ∉ pairs n.recs) (hw : w.Wait t o)
    (ho : ∀ m : Map K V, m k = none → Step m o (.code .success) (Spec.set m k (some v))) :
    WP cfg t (insertInto cfg k v p) (fun _ w' => CInv cfg w' ∧ Kp t (· = p) (w.done t (.code .success)) w' ∧ ¬ w'.Own t p ∧ CBlink.Kept w' p n) w := by
  unfold insertInto
  obtain ⟨n', A, B, e1, e2, e3, s2, s3⟩ := Osl.insertInto_ok (h.ok hI) hlive (hroom.fitsOne_leaf hr k) (Bd.leKey_iff'.2 h.low)
    (Bd.gtKey_iff'.2 h.high) v (by rintro ⟨a, b⟩ hx rfl; exact habs b hx)
  unfold Osl.insertInto at e1
  refine h.hold.load fun w1 r1 i1 h1 => ?_
  cases hs : n.searchRecord k with
  | ub => rw [hs] at e1; cases e1
  | fuel => rw [hs] at e1; cases e1
  | ok x =>
    obtain ⟨rc, pos⟩ := x
    rw [hs] at e1
    simp only [Res.ok_bind] at e1
    refine WP.lift rfl ?_
    refine h1.upgrade fun w2 k2 i2 h2 => WP.lift e1 (h2.store fun w3 r3 i3 h3 => ?_)
    have k3 : Kp t (· = p) w w3 := ((r1.kpE _).trans k2).trans (r3.kpE _)
    obtain ⟨g1, g2, -⟩ := k3.ext.fixed p h.hold.pub
    have hmk : w3.maps w3.now k = none := s2.agree ((i3.page h3.st h3.heap).agree (g1.trans h.lvl)) (by rw [g2]; exact h.low) h.high
    obtain ⟨w4, m4, o4, k4, h4⟩ := ok_effect i3 h3 (g1.trans h.lvl) (n' := n') e3 (by rw [g2]; exact e2) (by rw [g2]; exact h.low)
      h.high (k3.wait hw) (ho _ hmk) s2 s3
    exact ⟨w4, m4, o4, h4.unlock fun w5 k5 i5 no5 hk => WP.ret ⟨i5, ((k3.setPh _).trans k4).trans k5, no5, fun so => ⟨n', hk so, e3.low, e3.high⟩⟩⟩

/-- `searchLeafW` from the root. -/
theorem find_wp (hb : cfg.blink = true) {α : Type} {Q : α → World K V → Prop} {fuel : Nat} {k : K} {c : Ptr × List Ptr → Prog K V α}
    (hns : w.NoStale t) (hg : w.Wr t)
    (h : ∀ w1 leaf stack, CInv cfg w1 → Rely t w w1 → AtP w1 w.now k leaf → w1.lvl leaf = 0 → StackOk w1 (.key k) 1 stack → Up w1 stack leaf →
      WP cfg t (c (leaf, stack)) Q w1) :
    WP cfg t (do
      let root ← Prog.getRoot
      let x ← searchLeafW k fuel [] root
      c x) Q w := by
  refine WP.getRoot fun w1 r1 i1 => ?_
  refine WP.bind ((searchLeafW_ok hb k w.now fuel [] w1.mem.root w1 i1 (AtP.root i1 r1.kp.ext.now k) (StackOk.start i1 k (by simp))
    (r1.kp.noStaleT hns) (r1.kp.wr.2 hg) (fun _ => ⟨by simp, fun _ => rfl⟩)).mono ?_)
  rintro ⟨leaf, stack⟩ w2 ⟨i2, r2, hl, a2, s2, u2⟩
  exact h w2 leaf stack i2 (r1.trans' r2) a2 hl s2 u2

theorem write_wp (hr : Roomy cfg L) (hb : cfg.blink = true) {fuel : Nat} {k : K} {v : V} (hns : w.NoStale t) (hg : w.Wr t) (hcl : w.Clean t)
    (hba : w.Bare t) (hw : w.Wait t (.write k v)) :
    WP cfg t (write cfg fuel k v) (fun rc w' => Ended t w (.code rc) w') w := by
  unfold write
  refine find_wp hb hns hg fun w1 leaf stack i1 r1 a1 l1 hs hup => ?_
  have ns1 := r1.kp.noStaleT hns
  have hw1 := r1.kp.wait hw
  refine WP.bind ((checkW_ok hb k fuel leaf w1 i1 a1.ge.pub ns1 (a1.low_rep i1) (hba.kp r1.kp).off).mono fun o w2 => ?_)
  match o with
  | none =>
    rintro ⟨-, -, -, e⟩
    exact absurd l1 e
  | some q =>
    rintro ⟨i2, k2, no2, np2, h62, l2, lv2, g2, lo2, ⟨n, hn, hhi⟩, -⟩
    have hl : Leaf w2 t q k n := ⟨⟨h62, l2, hn, k2.wr.2 (r1.kp.wr.2 hg)⟩, lv2.trans l1, lo2, hhi⟩
    have ns2 := k2.noStaleT ns1
    have cl2 := hcl.le (r1.kp.pendLe.trans k2.pendLe)
    have s2 := k2.wr.1.trans r1.kp.wr.1
    have hw2 := k2.wait hw1
    have hs2 := hs.ext k2.ext
    refine WP.bind ((CBlink.leafWrite_wp hr i2 hl hw2).mono ?_)
    rintro rc w3 ⟨i3, ⟨rfl, k3, n', hl3, sp, big, -, A, B, ha⟩ | ⟨rfl, k3, -⟩⟩
    · rw [if_pos rfl]
      refine WP.bind ((CBlink.splitAnd_wp hr hb (nav_ok hb) (o := .write k v) (out := .code .success) i3 (k3.noStaleT ns2) hl3 big ?_ (hs2.ext k3.ext)
        (k3.wait hw2) (cl2.le k3.pendLe) (((hba.kp r1.kp).only k2).kp k3 (fun _ e => e)) ?_).mono ?_)
      · intro x hx
        rw [sp.pairs, ha.mem_iff] at hx
        cases hx
      · intro q m w4 i4 hq hroom hlive habs hw4
        exact insertInto_wp hr i4 hq hroom hlive habs hw4 (fun m _ => Step.write k v)
      · rintro - w4 ⟨-, a, b, c, d⟩
        exact WP.ret ⟨a, b, c, d.trans (k3.wr.1.trans s2)⟩
    · rw [if_neg (by simp)]
      exact WP.ret (k3.fin ns2 cl2 s2)

/-! ## Insertions -/

theorem tryCleanUp_wp (hr : Roomy cfg L) {t0 v : Nat} {k : K} {n : Node K V} (hI : CInv cfg w) (f : Found w t0 k p n v) (hl : w.lvl p = 0)
    (hns : w.NoStale t) (hg : w.Wr t) (hba : w.Bare t) :
    WP cfg t (tryCleanUp cfg p v (cfg.klen k + cfg.payLen)) (fun o w' => CInv cfg w' ∧ Mv t w w' ∧ w'.Bare t ∧ ∀ v', o = some v' →
      ∃ w0 n', Found w0 t0 k p n' v' ∧ Rely t w0 w' ∧ ∀ w2, Rely t w' w2 → (w2.lk p).x = none → (w2.lk p).ver = v' →
        Trim cfg n' (cfg.klen k + cfg.payLen)) w := by
  unfold tryCleanUp
  obtain ⟨n1, c1, c2, c3, c4, c5⟩ := cleanUpIfNeeded_ok hr (f.ok hI hl) (leafLen_le hr k)
  refine WP.peek f.ge.pub fun w1 nA r1 i1 hnA => ?_
  have p1 := r1.kp.ext.pub f.ge.pub
  by_cases hc : Blink.wantsCleanUp cfg nA (cfg.klen k + cfg.payLen) = true
  · rw [if_pos hc]
    refine WP.tryLockX p1 (fun s => (hba.kp r1.kp) s p) (fun w2 w3 r2 i2 x2 v2 o2 k3 i3 x3 v3 hh3 st3 => ?_)
      (fun w2 r2 i2 => WP.ret ⟨i2, (r1.trans' r2).kp.mv, hba.kp (r1.trans' r2).kp, fun v' e => by cases e⟩)
    have e := f.seen.mid r1 r2 x2 v2 hnA
    subst e
    have f2 := f.last (r1.trans' r2) x2 v2
    have ns2 := (r1.trans' r2).kp.noStaleT hns
    have h3 := f2.holdX ns2 ((r1.trans' r2).kp.wr.2 hg) k3 i3 x3 hh3
    have cu : nA.cleanUp cfg = .ok n1 := by
      rcases CBlink.wants_ok c1 with ⟨-, h⟩ | ⟨h, -⟩
      · exact h
      · rw [hc] at h; cases h
    rw [if_pos rfl]
    refine h3.load fun w4 r4 i4 h4 => WP.lift cu (h4.store fun w5 r5 i5 h5 => ?_)
    have k5 : Kp t (· = p) w w5 := ((((r1.trans' r2).kpE _).trans k3).trans (r4.kpE _)).trans (r5.kpE _)
    obtain ⟨g1, g2, -⟩ := k5.ext.fixed p f.ge.pub
    obtain ⟨o6, k6⟩ := ok_same i5 h5 c3 (by rw [g1, g2, hl]; exact c2)
    refine ⟨{ w5 with mem := w5.mem.setHeap p n1 }, rfl, o6, ?_⟩
    have h6 : HoldX { w5 with mem := w5.mem.setHeap p n1 } t p n1 := ⟨h5.x, h5.st, setHeap_same _ _ _, h5.wr⟩
    refine WP.unlockXVer h6.pub h6.x (by intro _ _; rw [h6.st]; simp) fun w7 k7 i7 o7 x7 hh7 st7 => ?_
    have k07 := (k5.trans k6).trans k7
    have st7' : w7.st p = .live := st7.trans h6.st
    refine WP.ret ⟨i7, k07.mv, fun s7 q ho => ?_, fun v' e => ?_⟩
    · have e := hba.only k07 s7 q ho
      subst e
      exact o7 ho
    cases e
    refine ⟨w7, n1, ⟨⟨World.pub_live st7', x7, rfl, hh7.trans h6.heap⟩, World.ge_live st7' _, le_trans f.now k07.ext.now, ?_, ?_, ?_⟩,
      Rely.refl t w7, fun _ _ _ _ => ⟨c4, c5⟩⟩
    · rw [c3.frame.removed]; exact f.removed
    · rw [(k07.ext.fixed p f.ge.pub).2.1]; exact f.low
    · have := f.high
      rw [compHigh_iff] at this ⊢
      rw [c3.frame.high]; exact this
  · rw [if_neg hc]
    refine WP.ret ⟨i1, r1.kp.mv, hba.kp r1.kp, fun v' e => ?_⟩
    cases e
    refine ⟨w, n, f, r1, fun w2 r2 x2 v2 => ?_⟩
    have e := f.seen.mid r1 r2 x2 v2 hnA
    subst e
    rcases CBlink.wants_ok c1 with ⟨h, -⟩ | ⟨-, h⟩
    · exact absurd h hc
    · subst h
      exact ⟨c4, c5⟩

/-- Outcome of node `Insert`. -/
def insertPost (cfg : Cfg K) (t : Tid) (w : World K V) (k : K) (x : NodeRC × Ptr) (w' : World K V) : Prop :=
  (x.1 = .needSplit ∧ CInv cfg w' ∧ Mv t w w' ∧ ∃ n, Leaf w' t x.2 k n ∧ Big cfg n ∧ (∀ v, (k, v) ∉ pairs n.recs) ∧ w'.Only t x.2) ∨
  (x.1 = .completed ∧ Ended t w (.code .success) w') ∨ (x.1 = .keyAlreadyInserted ∧ Ended t w (.code .keyExist) w')

theorem insertPost.from {k : K} {x : NodeRC × Ptr} {w1 w2 : World K V} (h : insertPost cfg t w1 k x w2) (r : Mv t w w1) :
    insertPost cfg t w k x w2 := by
  rcases h with ⟨a, b, c, d⟩ | h | h
  · exact Or.inl ⟨a, b, r.trans c, d⟩
  · exact Or.inr (Or.inl ⟨h.1, h.2.from r.1.wr.1⟩)
  · exact Or.inr (Or.inr ⟨h.1, h.2.from r.1.wr.1⟩)

theorem nodeInsert_wp (hr : Roomy cfg L) (hb : cfg.blink = true) (k : K) (v : V) (t0 : Nat) : ∀ (f : Nat) (p : Ptr) (w : World K V), AtP w t0 k p → w.lvl p = 0 →
    w.NoStale t → w.Wr t → w.Clean t → w.Bare t → w.ps.ph t = .waiting (.insert k v) t0 → WP cfg t (nodeInsert cfg k v f p) (insertPost cfg t w k) w
  | 0, _, _, _, _, _, _, _, _, _ => WP.stuck
  | f + 1, p, w, h, hl, hns, hg, hcl, hba, hw => by
    unfold nodeInsert
    refine WP.bind ((checkO_ok k t0 (f + 1) p w h (Or.inr hl)).mono fun o w1 => ?_)
    match o with
    | none =>
      rintro ⟨-, -, -, e⟩
      exact absurd hl e
    | some (q, ver) =>
      rintro ⟨i1, r1, l1, g1, n0, f1⟩
      have again : ∀ w3, Mv t w1 w3 → CInv cfg w3 → w3.Bare t → WP cfg t (nodeInsert cfg k v f q) (insertPost cfg t w k) w3 := by
        intro w3 r3 i3 b3
        have r := r1.kp.mv.trans r3
        exact (nodeInsert_wp hr hb k v t0 f q w3 (f1.atp.ext r3.1.ext) (by rw [(r3.1.ext.fixed q f1.ge.pub).1, l1]; exact hl) (r.1.ns hns)
          (r.1.wr.2 hg) (r.clean hcl) b3 (r.1.ph.trans hw)).mono fun x w' hx => hx.from r
      refine WP.bind ((tryCleanUp_wp hr i1 f1 (l1.trans hl) (r1.kp.noStaleT hns) (r1.kp.wr.2 hg) (hba.kp r1.kp)).mono fun o w2 => ?_)
      match o with
      | none =>
        rintro ⟨i2, t2, b2, -⟩
        exact again w2 t2 i2 b2
      | some ver' =>
        rintro ⟨i2, t2, b2, hv⟩
        obtain ⟨wc, n, fc, rc2, hrd⟩ := hv ver' rfl
        have q2 : w2.Pub q := t2.1.ext.pub f1.ge.pub
        refine WP.peek q2 fun w3 n' r3 i3 hn3 => ?_
        have q3 := r3.kp.ext.pub q2
        have b3 := b2.kp r3.kp
        have t13 := t2.trans r3.kp.mv
        have lq3 : w3.lvl q = 0 := by rw [(t13.1.ext.fixed q f1.ge.pub).1, l1]; exact hl
        obtain ⟨rc, pos, e1⟩ := i3.search_any q3 hn3 lq3 k
        refine WP.lift e1 ?_
        have rc3 := rc2.trans' r3
        -- the page is validated in `w4`
        have val : ∀ w4, Rely t w3 w4 → CInv cfg w4 → (w4.lk q).x = none → (w4.lk q).ver = ver' →
            n' = n ∧ Found w4 t0 k q n ver' ∧ w4.lvl q = 0 ∧ w4.NoStale t ∧ w4.ps.ph t = .waiting (.insert k v) t0 ∧
            Mv t w w4 ∧ Trim cfg n (cfg.klen k + cfg.payLen) := by
          intro w4 r4 i4 x4 v4
          have tt := (r1.kp.mv.trans t13).trans r4.kp.mv
          exact ⟨fc.seen.mid rc3 r4 x4 v4 hn3, fc.last (rc3.trans' r4) x4 v4, by rw [(r4.kp.ext.fixed q q3).1]; exact lq3,
            tt.1.ns hns, tt.1.ph.trans hw, tt, hrd w4 (r3.trans' r4) x4 v4⟩
        by_cases hrc : rc = .keyAlreadyInserted
        · simp only [if_pos hrc]
          refine WP.sameG q3 (fun w4 r4 i4 x4 v4 => ?_) (fun w4 r4 i4 => again w4 (t13.trans r4.kp.mv) i4 (b3.kp r4.kp))
          obtain ⟨e, f4, l4, ns4, hw4, t4, -⟩ := val w4 r4 i4 x4 v4
          subst e
          obtain ⟨m, rc', A, C, B, u1, u2, u3, s2, u4⟩ := leafUpdate_ok (f4.ok i4 l4) k v
          have hC : C ≠ none := by
            rcases u4 with ⟨hC, -, -⟩ | ⟨-, rfl, -⟩
            · exact hC
            · exfalso
              simp only [Node.leafUpdate, e1, Res.ok_bind, hrc, if_true] at u1
              cases hp : n'.setPayload pos v <;> rw [hp] at u1 <;> simp at u1
          refine ⟨w4.done t _, rfl, f4.answer i4 l4 hw4 (out := .code .keyExist) s2 (fun m hm => Step.insertOld k v (by rw [hm]; exact hC)), ?_⟩
          rw [if_pos rfl]
          exact WP.ret (Or.inr (Or.inr ⟨rfl, Ended.now ns4 (t4.clean hcl) t4.1.wr.1⟩))
        · simp only [if_neg hrc]
          refine WP.tryLockSIX q3 (fun s => b3 s q) (fun e => by rw [hb] at e; cases e) (fun w4 w5 r4 i4 x4 v4 o4 k5 i5 h65 hh5 st5 => ?_) (fun w4 r4 i4 => again w4 (t13.trans r4.kp.mv) i4 (b3.kp r4.kp))
          obtain ⟨e, f4, l4, ns4, hw4, t4, rdy⟩ := val w4 r4 i4 x4 v4
          subst e
          have hlf := f4.leaf l4 ns4 (t4.1.wr.2 hg) k5 i5 h65 hh5
          rw [if_pos rfl]
          obtain ⟨rc', n2, a1, a2, a3⟩ := Blink.leafInsertCore_ok (f4.ok i4 l4) rdy (Bd.leKey_iff'.2 f4.low)
            (Bd.gtKey_iff'.2 (compHigh_iff.1 f4.high)) v
          have a1' : Blink.insertAt cfg n' k v rc pos = .ok (rc', n2) := by
            have : Blink.leafInsertCore cfg n' k v = n'.searchRecord k >>= fun x => Blink.insertAt cfg n' k v x.1 x.2 := rfl
            rw [e1] at this
            exact this.symm.trans a1
          refine hlf.hold.load fun w6 r6 i6 h6 => WP.lift a1' ?_
          have k6 : Kp t (· = q) w4 w6 := k5.trans (r6.kpE _)
          obtain ⟨g1', g2', -⟩ := k6.ext.fixed q f4.ge.pub
          have hhi := compHigh_iff.1 f4.high
          rcases a3 with ⟨rfl, rfl, big, A, B, ha⟩ | ⟨rfl, s1, A, B, s2, s3⟩ | ⟨rfl, rfl, A, C, B, ha, hC⟩
          · simp only [CBlink.commit]
            refine WP.bind (WP.ret (WP.ret (Or.inl ⟨rfl, i6, t4.trans k6.mv, n2, ⟨h6, g1'.trans l4, by rw [g2']; exact f4.low, hhi⟩, big, ?_, (b3.kp r4.kp).only k6⟩)))
            intro x hx
            rw [ha.mem_iff] at hx
            cases hx
          · simp only [CBlink.commit]
            refine WP.bind (h6.upgrade fun w7 k7 i7 h7 => h7.store fun w8 r8 i8 h8 => ?_)
            have k8 : Kp t (· = q) w4 w8 := (k6.trans k7).trans (r8.kpE _)
            obtain ⟨g1, g2, -⟩ := k8.ext.fixed q f4.ge.pub
            have hmk : w8.maps w8.now k = none := s2.agree ((i8.page h8.st h8.heap).agree (g1.trans l4)) (by rw [g2]; exact f4.low) hhi
            obtain ⟨w9, m9, o9, k9, h9⟩ := ok_effect i8 h8 (g1.trans l4) (n' := n2) s1 (by rw [g2]; exact a2) (by rw [g2]; exact f4.low)
              hhi ⟨_, k8.ph.trans hw4⟩ (Step.insertNew k v hmk) s2 s3
            refine ⟨w9, m9, o9, h9.unlock fun w10 k10 i10 _ _ => WP.ret (WP.ret (Or.inr (Or.inl ⟨rfl, ?_⟩)))⟩
            exact ((k8.setPh _).trans (k9.trans k10)).fin ns4 (t4.clean hcl) t4.1.wr.1
          · exfalso
            unfold Blink.insertAt at a1'
            split at a1'
            · split at a1'
              · cases a1'
              · cases hh : n2.insertRecord cfg k (.val v) pos <;> rw [hh] at a1' <;> simp at a1'
            · next h1 =>
              split at a1'
              · cases hh : n2.reuseRecord cfg pos v <;> rw [hh] at a1' <;> simp at a1'
              · next h2 =>
                -- the search answers only these three codes
                rcases (f4.ok i4 l4).search_leaf k with ⟨T, D, -, hs, -⟩ | ⟨T, x, D, hrecs, hk, b1, b2, hs⟩
                · rw [e1] at hs; cases hs; exact h1 rfl
                · rw [e1] at hs
                  cases hd : x.del with
                  | false => rw [hd] at hs; cases hs; exact hrc rfl
                  | true =>
                    rw [hd] at hs; cases hs
                    cases hlay : cfg.layout with
                    | var => exact h2 ⟨rfl, hlay⟩
                    | fix =>
                      have := ((sizeOk_fix hlay n2).1 a2.size).2.2.2 x (by rw [hrecs]; simp)
                      rw [hd] at this
                      cases this

theorem insert_wp (hr : Roomy cfg L) (hb : cfg.blink = true) {fuel : Nat} {k : K} {v : V} (hns : w.NoStale t) (hg : w.Wr t) (hcl : w.Clean t)
    (hba : w.Bare t) (hw : w.ps.ph t = .waiting (.insert k v) w.now) :
    WP cfg t (insert cfg fuel k v) (fun rc w' => Ended t w (.code rc) w') w := by
  unfold insert
  refine find_wp hb hns hg fun w1 leaf stack i1 r1 a1 l1 hs hup => ?_
  have ns1 := r1.kp.noStaleT hns
  refine WP.bind ((nodeInsert_wp hr hb k v w.now fuel leaf w1 a1 l1 ns1 (r1.kp.wr.2 hg) (hcl.le r1.kp.pendLe) (hba.kp r1.kp) (r1.kp.ph.trans hw)).mono ?_)
  rintro ⟨rc, q⟩ w2 (⟨rfl, i2, t2, n, hl2, big, habs, on2⟩ | ⟨rfl, h⟩ | ⟨rfl, h⟩)
  · simp only [reduceCtorEq, if_false, if_true]
    refine WP.bind ((CBlink.splitAnd_wp hr hb (nav_ok hb) (o := .insert k v) (out := .code .success) i2 (t2.1.ns ns1) hl2 big habs (hs.ext t2.1.ext)
      ⟨_, t2.1.ph.trans (r1.kp.ph.trans hw)⟩ (t2.clean (hcl.le r1.kp.pendLe)) on2 ?_).mono ?_)
    · intro q m w3 i3 hq hroom hlive habs hw3
      exact insertInto_wp hr i3 hq hroom hlive habs hw3 (fun m hm => Step.insertNew k v hm)
    · rintro - w3 ⟨-, a, b, c, d⟩
      exact WP.ret ⟨a, b, c, d.trans (t2.1.wr.1.trans r1.kp.wr.1)⟩
  · simp only [reduceCtorEq, if_false]
    exact WP.ret (h.from r1.kp.wr.1)
  · simp only [if_true]
    exact WP.ret (h.from r1.kp.wr.1)

/-! ## Deletions -/

/-- Outcome of node `Delete`. -/
def deletePost (cfg : Cfg K) (t : Tid) (w : World K V) (k : K) (x : NodeRC × Ptr) (w' : World K V) : Prop :=
  (x.1 = .needMerge ∧ CInv cfg w' ∧ Ext w w' ∧ Ended t w (.code .success) w' ∧ (∃ n, Leaf w' t x.2 k n) ∧ w'.Only t x.2 ∧
    Calm (· = x.2) w w' ∧ (w.solo = true → w'.mem.root = w.mem.root)) ∨
  (x.1 = .completed ∧ Ended t w (.code .success) w') ∨ (x.1 = .keyNotInserted ∧ Ended t w (.code .keyNotExist) w')

theorem nodeDelete_wp (hr : Roomy cfg L) (k : K) (t0 : Nat) : ∀ (f : Nat) (p : Ptr) (w : World K V), AtP w t0 k p → w.lvl p = 0 →
    w.NoStale t → w.Wr t → w.Clean t → w.Bare t → w.ps.ph t = .waiting (.delete k) t0 → WP cfg t (nodeDelete cfg k f p) (deletePost cfg t w k) w
  | 0, _, _, _, _, _, _, _, _, _ => WP.stuck
  | f + 1, p, w, h, hl, hns, hg, hcl, hba, hw => by
    unfold nodeDelete
    refine WP.bind ((checkO_ok k t0 (f + 1) p w h (Or.inr hl)).mono fun o w1 => ?_)
    match o with
    | none =>
      rintro ⟨-, -, -, e⟩
      exact absurd hl e
    | some (q, ver) =>
      rintro ⟨i1, r1, l1, g1, n, f1⟩
      refine WP.peek f1.ge.pub fun w2 n' r2 i2 hn2 => ?_
      have q2 := r2.kp.ext.pub f1.ge.pub
      have lq2 : w2.lvl q = 0 := by rw [(r2.kp.ext.fixed q f1.ge.pub).1, l1]; exact hl
      obtain ⟨rc, pos, e1⟩ := i2.search_any q2 hn2 lq2 k
      refine WP.lift e1 ?_
      have again : ∀ w3, Rely t w2 w3 → CInv cfg w3 → WP cfg t (nodeDelete cfg k f q) (deletePost cfg t w k) w3 := by
        intro w3 r3 i3
        have r23 := r2.trans' r3
        have r := r1.trans' r23
        refine (nodeDelete_wp hr k t0 f q w3 (f1.atp.ext r23.kp.ext) (by rw [(r3.kp.ext.fixed q q2).1]; exact lq2) (r.kp.noStaleT hns)
          (r.kp.wr.2 hg) (hcl.le r.kp.pendLe) (hba.kp r.kp) (r.kp.ph.trans hw)).mono ?_
        rintro x w' (⟨a, b, c, d, e, e1, e2, e3⟩ | h | h)
        · exact Or.inl ⟨a, b, r.kp.ext.trans c, d.from r.kp.wr.1, e, e1, ((r.kp.calmE hg).mono (fun _ e => e.elim)).trans e2 r.kp.th,
            fun so => (e3 (r.kp.wr.1.trans so)).trans (r.kp.rt so hg)⟩
        · exact Or.inr (Or.inl ⟨h.1, h.2.from r.kp.wr.1⟩)
        · exact Or.inr (Or.inr ⟨h.1, h.2.from r.kp.wr.1⟩)
      by_cases hrc : rc = .keyAlreadyInserted
      · simp only [if_pos hrc]
        refine WP.tryLockX q2 (fun s => (hba.kp (r1.trans' r2).kp) s q) (fun w3 w4 r3 i3 x3 v3 o3 k4 i4 x4 v4 hh4 st4 => ?_) (fun w3 r3 i3 => again w3 r3 i3)
        have e := f1.seen.mid r2 r3 x3 v3 hn2
        subst e
        have r23 := r2.trans' r3
        have f3 := f1.last r23 x3 v3
        have r := r1.trans' r23
        have l3 : w3.lvl q = 0 := by rw [(r3.kp.ext.fixed q q2).1]; exact lq2
        have ns3 := r.kp.noStaleT hns
        have h4 := f3.holdX ns3 (r.kp.wr.2 hg) k4 i4 x4 hh4
        obtain ⟨rc', m, u1, u2, u3, A, C, B, s2, u4⟩ := Blink.leafDelete_ok hr (f3.ok i3 l3) k
        have u5 : Blink.deleteAt cfg n' pos = .ok (rc', m) := by
          have : Blink.leafDelete cfg n' k = n'.searchRecord k >>= fun x =>
            if x.1 = .keyAlreadyInserted then Blink.deleteAt cfg n' x.2 else .ok (.keyNotInserted, n') := rfl
          rw [e1] at this
          simp only [Res.ok_bind, hrc, if_true] at this
          exact this.symm.trans u1
        rw [if_pos rfl]
        refine h4.load fun w5 r5 i5 h5 => WP.lift u5 (h5.store fun w6 r6 i6 h6 => ?_)
        have k6 : Kp t (· = q) w3 w6 := (k4.trans (r5.kpE _)).trans (r6.kpE _)
        obtain ⟨g1, g2, -⟩ := k6.ext.fixed q f3.ge.pub
        have hhi := compHigh_iff.1 f3.high
        have hmk : w6.maps w6.now k = C := s2.agree ((i6.page h6.st h6.heap).agree (g1.trans l3)) (by rw [g2]; exact f3.low) hhi
        rcases u4 with ⟨hrc', hC, s3⟩ | ⟨rfl, -, -⟩
        · obtain ⟨w7, m7, o7, k7, h7⟩ := ok_effect i6 h6 (g1.trans l3) (n' := m) u3 (by rw [g2]; exact u2) (by rw [g2]; exact f3.low)
            hhi ⟨_, k6.ph.trans (r.kp.ph.trans hw)⟩ (Step.deleteOld k (by rw [hmk]; exact hC)) s2 s3
          refine ⟨w7, m7, o7, ?_⟩
          have k37 := (k6.setPh _).trans k7
          have cl3 := hcl.le r.kp.pendLe
          rcases hrc' with rfl | rfl
          · rw [if_pos rfl]
            refine h7.downgrade fun w8 k8 i8 h8 => WP.ret (Or.inl ⟨rfl, i8, ?_, (k37.trans k8).fin ns3 cl3 r.kp.wr.1, ⟨m, h8, ?_, ?_, ?_⟩,
              World.Bare.only (w := w3.done t (.code .success)) (show w3.Bare t from hba.kp r.kp) (k37.trans k8), ?_, ?_⟩)
            · have e7 : Ext w6 w7 := by
                obtain ⟨a, b, c, d, e, f⟩ := k7.ext
                exact ⟨a, b, c, d, e, f⟩
              exact ((r.kp.ext.trans k6.ext).trans e7).trans k8.ext
            · have e7 : Ext w6 w7 := by
                obtain ⟨a, b, c, d, e, f⟩ := k7.ext
                exact ⟨a, b, c, d, e, f⟩
              rw [(((k6.ext.trans e7).trans k8.ext).fixed q f3.ge.pub).1]; exact l3
            · have e7 : Ext w6 w7 := by
                obtain ⟨a, b, c, d, e, f⟩ := k7.ext
                exact ⟨a, b, c, d, e, f⟩
              rw [(((k6.ext.trans e7).trans k8.ext).fixed q f3.ge.pub).2.1]; exact f3.low
            · rw [u3.high]; exact hhi
            · have k := k37.trans k8
              exact fun so q' he hq => (k.calm (r.kp.wr.1.trans so) (r.kp.wr.2 hg) q' he (r.kp.ext.pub hq)).trans (r.kp.calm so hg q' (fun e => e) hq)
            · have k := k37.trans k8
              exact fun so => (k.rt (r.kp.wr.1.trans so) (r.kp.wr.2 hg)).trans (r.kp.rt so hg)
          · rw [if_neg (by simp)]
            exact h7.unlock fun w8 k8 i8 _ _ => WP.ret (Or.inr (Or.inl ⟨rfl, (k37.trans k8).fin ns3 cl3 r.kp.wr.1⟩))
        · exfalso
          unfold Blink.deleteAt at u5
          cases h1 : n'.removeRecord cfg pos with
          | ub => rw [h1] at u5; cases u5
          | fuel => rw [h1] at u5; cases u5
          | ok m1 =>
            rw [h1] at u5
            simp only [Res.ok_bind] at u5
            cases h2 : Blink.needMerge cfg m1 with
            | ub => rw [h2] at u5; cases u5
            | fuel => rw [h2] at u5; cases u5
            | ok y =>
              obtain ⟨need, m2⟩ := y
              rw [h2] at u5
              cases need <;> cases u5
      · simp only [if_neg hrc]
        refine WP.sameG q2 (fun w3 r3 i3 x3 v3 => ?_) (fun w3 r3 i3 => again w3 r3 i3)
        have e := f1.seen.mid r2 r3 x3 v3 hn2
        subst e
        have r23 := r2.trans' r3
        have f3 := f1.last r23 x3 v3
        have r := r1.trans' r23
        have l3 : w3.lvl q = 0 := by rw [(r3.kp.ext.fixed q q2).1]; exact lq2
        obtain ⟨rc', m, u1, u2, u3, A, C, B, s2, u4⟩ := Blink.leafDelete_ok hr (f3.ok i3 l3) k
        simp only [Blink.leafDelete, e1, Res.ok_bind, hrc, if_false] at u1
        have hC : C = none := by
          rcases u4 with ⟨hh, -, -⟩ | ⟨-, hC, -⟩
          · rcases hh with rfl | rfl <;> simp at u1
          · exact hC
        subst hC
        refine ⟨w3.done t _, rfl, f3.answer i3 l3 (r.kp.ph.trans hw) (out := .code .keyNotExist) s2 (fun m hm => Step.deleteNew k hm), ?_⟩
        rw [if_pos rfl]
        exact WP.ret (Or.inr (Or.inr ⟨rfl, Ended.now (r.kp.noStaleT hns) (hcl.le r.kp.pendLe) r.kp.wr.1⟩))

theorem delete_wp (hr : Roomy cfg L) (hb : cfg.blink = true) {fuel : Nat} {k : K} (hns : w.NoStale t) (hg : w.Wr t) (hcl : w.Clean t)
    (hba : w.Bare t) (hw : w.ps.ph t = .waiting (.delete k) w.now) :
    WP cfg t (delete cfg fuel k) (fun rc w' => Ended t w (.code rc) w') w := by
  unfold delete
  refine find_wp hb hns hg fun w1 leaf stack i1 r1 a1 l1 hs hup => ?_
  refine WP.bind ((nodeDelete_wp hr k w.now fuel leaf w1 a1 l1 (r1.kp.noStaleT hns) (r1.kp.wr.2 hg) (hcl.le r1.kp.pendLe)
    (hba.kp r1.kp) (r1.kp.ph.trans hw)).mono ?_)
  rintro ⟨rc, q⟩ w2 (⟨rfl, i2, e2, h, ⟨n', hl2⟩, on2, cm2, rt2⟩ | ⟨rfl, h⟩ | ⟨rfl, h⟩)
  · simp only [reduceCtorEq, if_false, if_true]
    refine WP.bind ((CBlink.merge_wp hr hb (nav_ok hb) fuel stack q n' (.key k) w2 i2 h.2.1 hl2.hold (le_of_lt hl2.high)
      (by rw [hl2.lvl]; exact hs.ext e2) h.2.2.1 on2
      (hup.over i1 i2 e2 h.2.2.2 hl2.hold.wr h.2.1 l1 hl2.lvl hs a1.ge.pub cm2 rt2)).mono ?_)
    rintro - w3 ⟨-, t3, p3⟩
    exact WP.ret ((h.from r1.kp.wr.1).th t3 p3)
  · simp only [reduceCtorEq, if_false]
    exact WP.ret (h.from r1.kp.wr.1)
  · simp only [if_true]
    exact WP.ret (h.from r1.kp.wr.1)

theorem exec_ok (hr : Roomy cfg L) (hb : cfg.blink = true) (t : Tid) (fuel : Nat) (op : Op K V) (w : World K V) (_ : CInv cfg w)
    (hns : w.NoStale t) (hg : Writes op → w.Wr t) (hcl : w.Clean t) (hba : w.Bare t) (hw : w.ps.ph t = .waiting op w.now) :
    WP cfg t (exec cfg fuel op) (fun out w' => Ended t w out w') w := by
  cases op with
  | read k => exact WP.bind ((read_wp hb hns hcl hw).mono fun o w h => WP.ret h)
  | write k v => exact WP.bind ((write_wp hr hb hns (hg trivial) hcl hba ⟨_, hw⟩).mono fun o w h => WP.ret h)
  | insert k v => exact WP.bind ((insert_wp hr hb hns (hg trivial) hcl hba hw).mono fun o w h => WP.ret h)
  | update k v => exact WP.bind ((update_wp hb hns (hg trivial) hcl hba hw).mono fun o w h => WP.ret h)
  | delete k => exact WP.bind ((delete_wp hr hb hns (hg trivial) hcl hba hw).mono fun o w h => WP.ret h)
  | scan _ _ => exact WP.stuck

/-- These entry points return no records. -/
theorem exec_noRecs (cfg : Cfg K) (fuel : Nat) (op : Op K V) : (exec cfg fuel op).NoRecs := by
  cases op <;> first | trivial | exact Prog.NoRecs.bind fun a l h => by cases h

/-- Executions of OSL in which none of the noted situations occurs. -/
theorem linearizable (hr : Roomy cfg L) (hb : cfg.blink = true) {m0 : Map K V} {c0 c : Conf K V} (h0 : (blg V cfg).Sim m0 c0)
    (ht : ∀ t, c0.thr t = none) (hh : c0.hist = []) (hc : Conf.Reach (exec cfg) c0 c)
    (hn : c.mem.raced = false) : ¬ c.Bad ∧ LinearizableFrom m0 c.hist := by
  obtain ⟨a, b⟩ := Lg.adequate (L := blg V cfg) rfl h0 (fun t fuel op w a b d => (exec_ok hr hb t fuel op w a b.1
    (fun _ => World.Wr.of b.2.1) b.2.2.2 (World.Bare.of b.2.1) d).mono fun _ _ h => ⟨h.1, h.2.1, h.2.2.2.trans b.2.1, (fun e => by rw [hb] at e; cases e), h.2.2.1⟩) hc hn
  exact ⟨a, b.noRecs (Conf.noRecs (exec_noRecs cfg) ht hh hc)⟩

end COsl
end BT
