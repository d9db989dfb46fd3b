import Verif.ConcTail
import Verif.PslNavOk

/-!
# PSL's entry points are correct as long as no noted situation occurs
-/

set_option linter.unusedSectionVars false

namespace BT
open Spec
namespace CPsl
variable {K V : Type} [LinearOrder K] {cfg : Cfg K} {L : Nat} {w w' : World K V} {t : Tid} {p : Ptr}
open CBlink (Leaf)

/-- `searchLeafW` from the root. -/
theorem find_wp (hb : cfg.blink = true) {α : Type} {Q : α → World K V → Prop} {fuel : Nat} {k : K} {c : Ptr × List Ptr → Prog K V α} (hns : w.NoStale t) (hg : w.Wr t)
    (hcl : w.Clean t) (hba : w.Bare t)
    (h : ∀ w1 leaf stack n, CInv cfg w1 → Th t w w1 → w1.NoStale t → w1.Clean t → Leaf w1 t leaf k n → StackOk w1 (.key k) 1 stack →
      Up w1 stack leaf → w1.Only t leaf →
      WP cfg t (c (leaf, stack)) Q w1) :
    WP cfg t (do
      let root ← Prog.getRoot
      let x ← searchLeafW k fuel [] root
      c x) Q w := by
  refine WP.getRoot fun w1 r1 i1 => ?_
  refine WP.bind ((searchLeafW_ok hb k w1.now fuel [] w1.mem.root w1 i1 (AtP.root i1 (le_refl _) k) (r1.kp.noStaleT hns)
    (StackOk.start i1 k (by simp)) (r1.kp.wr.2 hg) (hba.kp r1.kp) (fun _ => ⟨by simp, fun _ => rfl⟩)).mono ?_)
  rintro ⟨leaf, stack⟩ w2 ⟨i2, k2, f⟩
  obtain ⟨n, hn, hhi⟩ := f.high
  exact h w2 leaf stack n i2 (r1.kp.th.trans k2.th) (k2.noStaleT (r1.kp.noStaleT hns))
    (hcl.le (r1.kp.pendLe.trans k2.pendLe)) ⟨⟨f.six, f.st, hn, k2.wr.2 (r1.kp.wr.2 hg)⟩, f.lvl, f.low, hhi⟩ f.stack f.up f.only

theorem read_wp (hb : cfg.blink = true) {fuel : Nat} {k : K} (hns : w.NoStale t) (hcl : w.Clean t) (hw : w.ps.ph t = .waiting (.read k) w.now) :
    WP cfg t (read fuel k) (fun o w' => Ended t w (.payload o) w') w := by
  unfold read
  refine WP.getRoot fun w1 r1 i1 => ?_
  refine WP.bind ((searchLeafR_ok hb k w.now fuel w1.mem.root w1 (AtP.root i1 r1.kp.ext.now k)).mono ?_)
  rintro leaf w2 ⟨i2, k2, hl, n, f⟩
  refine WP.loadSG f.s f.ge.pub fun w3 m r3 i3 hm hm2 s3 => ?_
  have f3 := f.rely r3
  rw [f3.heap] at hm
  cases hm
  obtain ⟨τ, sn⟩ := i3.snap f3.ge f3.now f3.heap f3.removed
  have k3 : Kp t noE w w3 := (r1.kp.trans k2).trans r3.kp
  have lv3 : w3.lvl leaf = 0 := ((r3.kp.ext.fixed leaf f.ge.pub).1).trans hl
  have hok := sn.pg.ok
  rw [lv3] at hok
  obtain ⟨A, C, B, a1, a2⟩ := leafRead_ok (hok : NodeOk cfg false _ n) k
  have hC : w3.maps τ k = C := a1.agree (sn.pg.agree lv3) f3.low (compHigh_iff.1 f3.high)
  obtain ⟨w4, m4, o4, e4⟩ := ok_read (t := t) (τ := τ) i3 (k3.ph.trans hw) sn.lo sn.hi
  refine ⟨w4, m4, o4, WP.lift a2 ?_⟩
  have hs4 : t ∈ (w4.lk leaf).s := by unfold World.lk; rw [m4]; exact s3
  have hp4 : w4.Pub leaf := by rw [e4]; exact f3.ge.pub
  refine WP.unlockS hp4 hs4 fun w5 k5 i5 => WP.ret ?_
  rw [e4, hC] at k5
  exact k5.fin (k3.noStaleT hns) (hcl.le k3.pendLe) k3.wr.1

theorem write_wp (hr : Roomy cfg L) (hb : cfg.blink = true) {fuel : Nat} {k : K} {v : V} (hns : w.NoStale t) (hg : w.Wr t) (hcl : w.Clean t) (hba : w.Bare t) (hw : w.Wait t (.write k v)) :
    WP cfg t (write cfg fuel k v) (fun rc w' => Ended t w (.code rc) w') w := by
  unfold write
  refine find_wp hb hns hg hcl hba fun w1 leaf stack n i1 t1 ns1 cl1 hl hs hup hon => ?_
  refine WP.bind ((CBlink.leafWrite_wp hr i1 hl (t1.wait hw)).mono ?_)
  rintro rc w2 ⟨i2, ⟨rfl, k2, n', hl2, sp, big, -, A, B, ha⟩ | ⟨rfl, k2, -⟩⟩
  · rw [if_pos rfl]
    refine WP.bind ((CBlink.splitAnd_wp hr hb (nav_ok hb) (o := .write k v) (out := .code .success) i2 (k2.noStaleT ns1) hl2 big ?_ (hs.ext k2.ext)
      (k2.wait (t1.wait hw)) (cl1.le k2.pendLe) (hon.kp k2 (fun _ e => e)) ?_).mono ?_)
    · intro x hx
      rw [sp.pairs, ha.mem_iff] at hx
      cases hx
    · intro q m w3 i3 hq hroom _ habs hw3
      refine (CBlink.leafWrite_wp hr i3 hq hw3).mono ?_
      rintro rc w4 ⟨i4, ⟨-, -, -, -, -, -, hno, -⟩ | ⟨-, k4, no4, kept4⟩⟩
      · exact absurd hroom (hno L hr)
      · exact ⟨i4, k4, no4, kept4⟩
    · rintro - w3 ⟨-, a, b, c, d⟩
      exact WP.ret ⟨a, b, c, d.trans (k2.wr.1.trans t1.wr.1)⟩
  · rw [if_neg (by simp)]
    exact WP.ret (k2.fin ns1 cl1 t1.wr.1)

theorem insert_wp (hr : Roomy cfg L) (hb : cfg.blink = true) {fuel : Nat} {k : K} {v : V} (hns : w.NoStale t) (hg : w.Wr t) (hcl : w.Clean t) (hba : w.Bare t) (hw : w.Wait t (.insert k v)) :
    WP cfg t (insert cfg fuel k v) (fun rc w' => Ended t w (.code rc) w') w := by
  unfold insert
  refine find_wp hb hns hg hcl hba fun w1 leaf stack n i1 t1 ns1 cl1 hl hs hup hon => ?_
  refine WP.bind ((CBlink.leafInsert_wp hr i1 hl (t1.wait hw)).mono ?_)
  rintro rc w2 ⟨i2, ⟨rfl, k2, n', hl2, sp, big, -, A, B, ha⟩ | ⟨rfl, k2, -⟩ | ⟨rfl, k2, -⟩⟩
  · rw [if_neg (by simp), if_pos rfl]
    refine WP.bind ((CBlink.splitAnd_wp hr hb (nav_ok hb) (o := .insert k v) (out := .code .success) i2 (k2.noStaleT ns1) hl2 big ?_
      (hs.ext k2.ext) (k2.wait (t1.wait hw)) (cl1.le k2.pendLe) (hon.kp k2 (fun _ e => e)) ?_).mono ?_)
    · intro x hx
      rw [sp.pairs, ha.mem_iff] at hx
      cases hx
    · intro q m w3 i3 hq hroom _ habs hw3
      refine (CBlink.leafInsert_wp hr i3 hq hw3).mono ?_
      rintro rc w4 ⟨i4, ⟨-, -, -, -, -, -, hno, -⟩ | ⟨-, k4, no4, kept4⟩ | ⟨-, -, -, A', C', B', ha', hC⟩⟩
      · exact absurd hroom (hno L hr)
      · exact ⟨i4, k4, no4, kept4⟩
      · obtain ⟨c, rfl⟩ := Option.ne_none_iff_exists'.1 hC
        exact absurd ((ha'.mem_iff c).2 rfl) (habs c)
    · rintro - w3 ⟨-, a, b, c, d⟩
      exact WP.ret ⟨a, b, c, d.trans (k2.wr.1.trans t1.wr.1)⟩
  · rw [if_neg (by simp), if_neg (by simp)]
    exact WP.ret (k2.fin ns1 cl1 t1.wr.1)
  · rw [if_pos rfl]
    exact WP.ret (k2.fin ns1 cl1 t1.wr.1)

theorem update_wp (hb : cfg.blink = true) {fuel : Nat} {k : K} {v : V} (hns : w.NoStale t) (hg : w.Wr t) (hcl : w.Clean t) (hba : w.Bare t) (hw : w.Wait t (.update k v)) :
    WP cfg t (update fuel k v) (fun rc w' => Ended t w (.code rc) w') w := by
  unfold update
  refine find_wp hb hns hg hcl hba fun w1 leaf stack n i1 t1 ns1 cl1 hl hs hup hon => ?_
  obtain ⟨n', rc, A, C, B, e1, e2, e3, s2, e4⟩ := leafUpdate_ok (hl.ok i1) k v
  rcases e4 with ⟨hC, rfl, s3⟩ | ⟨rfl, rfl, rfl⟩
  · refine hl.hold.load fun w2 r2 i2 h2 => WP.lift e1 ?_
    simp only [if_true]
    refine h2.upgrade fun w3 k3 i3 h3 => h3.store fun w4 r4 i4 h4 => ?_
    have k4 : Kp t (· = leaf) w1 w4 := ((r2.kpE _).trans k3).trans (r4.kpE _)
    obtain ⟨g1, g2, -⟩ := k4.ext.fixed leaf hl.hold.pub
    have hmk : w4.maps w4.now k = C := s2.agree ((i4.page h4.st h4.heap).agree (g1.trans hl.lvl)) (by rw [g2]; exact hl.low) hl.high
    obtain ⟨w5, m5, o5, k5, h5⟩ := ok_effect i4 h4 (g1.trans hl.lvl) (n' := n') e3 (by rw [g2]; exact e2) (by rw [g2]; exact hl.low)
      hl.high (k4.wait (t1.wait hw)) (Step.updateOld k v (by rw [hmk]; exact hC)) s2 s3
    refine ⟨w5, m5, o5, h5.unlock fun w6 k6 i6 _ _ => WP.ret ?_⟩
    exact ((k4.setPh _).trans (k5.trans k6)).fin ns1 cl1 t1.wr.1
  · refine hl.hold.loadG fun w2 r2 i2 h2 => ?_
    obtain ⟨g1, g2, -⟩ := r2.kp.ext.fixed leaf hl.hold.pub
    have hmk : w2.maps w2.now k = none := s2.agree ((i2.page h2.st h2.heap).agree (g1.trans hl.lvl)) (by rw [g2]; exact hl.low) hl.high
    obtain ⟨w3, m3, o3, k3, s3'⟩ := ok_effect' i2 (r2.kp.wait (t1.wait hw)) (Step.updateNew k v hmk)
    refine ⟨w3, m3, o3, WP.lift e1 ?_⟩
    have h3 : Hold w3 t leaf n' := by
      refine ⟨?_, ?_, ?_, k3.wr.2 h2.wr⟩
      · unfold World.lk; rw [m3]; exact h2.six
      · rw [s3']; exact h2.st
      · unfold World.heap; rw [m3]; exact h2.heap
    simp only [reduceCtorEq, if_false]
    refine h3.unlock fun w4 k4 i4 _ _ => WP.ret (((r2.kpE _).setPh _ |>.trans (k3.toE.trans k4)).fin ns1 cl1 t1.wr.1)

theorem delete_wp (hr : Roomy cfg L) (hb : cfg.blink = true) {fuel : Nat} {k : K} (hns : w.NoStale t) (hg : w.Wr t) (hcl : w.Clean t) (hba : w.Bare t) (hw : w.Wait t (.delete k)) :
    WP cfg t (delete cfg fuel k) (fun rc w' => Ended t w (.code rc) w') w := by
  unfold delete
  refine find_wp hb hns hg hcl hba fun w1 leaf stack n i1 t1 ns1 cl1 hl hs hup hon => ?_
  refine WP.bind ((CBlink.leafDelete_wp hr i1 hl (t1.wait hw)).mono ?_)
  rintro rc w2 ⟨i2, ⟨rfl, k2, n', hl2⟩ | ⟨rfl, k2, -⟩ | ⟨rfl, k2, -⟩⟩
  · rw [if_neg (by simp), if_pos rfl]
    have e2 : Ext w1 w2 := by
      obtain ⟨a, b, c, d, e, f⟩ := k2.ext
      exact ⟨a, b, c, d, e, f⟩
    refine WP.bind ((CBlink.merge_wp hr hb (nav_ok hb) fuel stack leaf n' (.key k) w2 i2 (k2.noStaleT ns1) hl2.hold (le_of_lt hl2.high)
      (by rw [hl2.lvl]; exact hs.ext e2) (World.Clean.le (w := w1.done t (.code .success)) cl1 k2.pendLe)
      (World.Only.kp (w := w1.done t (.code .success)) hon k2 (fun _ e => e))
      (hup.over i1 i2 e2 k2.wr.1 hl2.hold.wr (k2.noStaleT ns1) hl.lvl hl2.lvl hs hl.hold.pub (fun s => k2.calm s hl.hold.wr) (fun s => k2.rt s hl.hold.wr))).mono ?_)
    rintro - w3 ⟨-, t3, p3⟩
    exact WP.ret ((k2.fin ns1 cl1 t1.wr.1).th t3 p3)
  · rw [if_neg (by simp), if_neg (by simp)]
    exact WP.ret (k2.fin ns1 cl1 t1.wr.1)
  · rw [if_pos rfl]
    exact WP.ret (k2.fin ns1 cl1 t1.wr.1)

theorem exec_ok (hr : Roomy cfg L) (hb : cfg.blink = true) (t : Tid) (fuel : Nat) (op : Op K V) (w : World K V) (_ : CInv cfg w)
    (hns : w.NoStale t) (hg : Writes op → w.Wr t) (hcl : w.Clean t) (hba : w.Bare t) (hw : w.ps.ph t = .waiting op w.now) :
    WP cfg t (exec cfg fuel op) (fun out w' => Ended t w out w') w := by
  cases op with
  | read k => exact WP.bind ((read_wp hb hns hcl hw).mono fun o w h => WP.ret h)
  | write k v => exact WP.bind ((write_wp hr hb hns (hg trivial) hcl hba ⟨_, hw⟩).mono fun o w h => WP.ret h)
  | insert k v => exact WP.bind ((insert_wp hr hb hns (hg trivial) hcl hba ⟨_, hw⟩).mono fun o w h => WP.ret h)
  | update k v => exact WP.bind ((update_wp hb hns (hg trivial) hcl hba ⟨_, hw⟩).mono fun o w h => WP.ret h)
  | delete k => exact WP.bind ((delete_wp hr hb hns (hg trivial) hcl hba ⟨_, hw⟩).mono fun o w h => WP.ret h)
  | scan _ _ => exact WP.stuck

/-- These entry points return no records. -/
theorem exec_noRecs (cfg : Cfg K) (fuel : Nat) (op : Op K V) : (exec cfg fuel op).NoRecs := by
  cases op <;> first | trivial | exact Prog.NoRecs.bind fun a l h => by cases h

/-- Executions of PSL in which none of the noted situations occurs. -/
theorem linearizable (hr : Roomy cfg L) (hb : cfg.blink = true) {m0 : Map K V} {c0 c : Conf K V} (h0 : (blg V cfg).Sim m0 c0)
    (ht : ∀ t, c0.thr t = none) (hh : c0.hist = []) (hc : Conf.Reach (exec cfg) c0 c)
    (hn : c.mem.raced = false) : ¬ c.Bad ∧ LinearizableFrom m0 c.hist := by
  obtain ⟨a, b⟩ := Lg.adequate (L := blg V cfg) rfl h0 (fun t fuel op w a b d => (exec_ok hr hb t fuel op w a b.1
    (fun _ => World.Wr.of b.2.1) b.2.2.2 (World.Bare.of b.2.1) d).mono fun _ _ h => ⟨h.1, h.2.1, h.2.2.2.trans b.2.1, (fun e => by rw [hb] at e; cases e), h.2.2.1⟩) hc hn
  exact ⟨a, b.noRecs (Conf.noRecs (exec_noRecs cfg) ht hh hc)⟩

end CPsl
end BT
