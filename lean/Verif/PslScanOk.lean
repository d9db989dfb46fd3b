import Verif.PslConcOk
import Verif.ConcScan
import Verif.LeafScan
import Verif.ConcOpt

/-!
# Scans of PSL

A scan stays `waiting` while its parts are collected in a `Walk`; all of them take effect when the scan reads its last page.
-/

set_option linter.unusedSectionVars false

namespace BT
open Spec
variable {K V : Type} [LinearOrder K] {cfg : Cfg K} {L : Nat} {w w' : World K V} {t : Tid} {p : Ptr}

section rules
variable {α β : Type} {Q : α → World K V → Prop}

/-- A ghost step behind an action. -/
theorem WP.ghost {a : Act K V β} {k : β → Prog K V α}
    (h : WP cfg t (Prog.do_ a >>= pure) (fun b w2 => ∃ w3 : World K V, w3.mem = w2.mem ∧ OkB cfg t w2 w3 ∧ WP cfg t (k b) Q w3) w) :
    WP cfg t (Prog.do_ a >>= k) Q w := by
  refine WP.act (fun w1 hr hi => ?_) (fun w1 hr hi => (h w1 hr hi).1.2.1) (fun w1 hr hi => (h w1 hr hi).1.2.2.1)
    (fun e w1 hr hi => (h w1 hr hi).1.2.2.2 e)
  obtain ⟨⟨h1, -⟩, h2⟩ := h w1 hr hi
  refine ⟨h1, fun b m e => ?_⟩
  rcases h2 b m e with h3 | ⟨w2, h3, h4, w3, h5, h6, h7⟩
  · exact Or.inl h3
  · exact Or.inr ⟨w3, h5.trans h3, OkB.trans h4 h6, h7⟩

/-- `lockS` while other pages are locked. -/
theorem WP.lockS' {k : Unit → Prog K V α} (hp : w.Pub p)
    (h : ∀ w1 w', Rely t w w1 → CInv cfg w1 → Kp t noE w1 w' → CInv cfg w' → w'.heap = w1.heap →
      (∀ r, t ∈ (w1.lk r).s → t ∈ (w'.lk r).s) → t ∈ (w'.lk p).s → WP cfg t (k ()) Q w') :
    WP cfg t (Prog.lockS p >>= k) Q w := by
  refine WP.act fun w1 hr hi => ?_
  have hp1 := hr.kp.ext.pub hp
  obtain ⟨n, hn⟩ := hi.some_of_pub hp1
  simp only [Act.run]
  rw [show w1.mem.heap p = some n from hn]
  simp only
  split
  · next hx =>
    refine ⟨by simp, fun b m e => Or.inr ?_⟩
    cases e
    have hl : LkOk t (w1.lk p) { w1.lk p with s := t :: (w1.lk p).s } :=
      ⟨fun u hu => (by rw [hx] at hu; cases hu), fun _ _ => Iff.rfl, fun _ _ => Iff.rfl,
        fun u hu => List.count_cons_of_ne (Ne.symm hu), le_refl _, fun _ _ => rfl⟩
    have hok := ok_setLk (cfg := cfg) hi hl (Or.inl hp1) (fun τ q e => by
      obtain ⟨-, b, -⟩ := hi.stale p τ q t e
      exact b)
    refine ⟨_, rfl, hok, h w1 _ hr hi (kp_setS rfl rfl hp1) hok.inv rfl (fun r hs => ?_) (by rw [World.setLk_same]; simp)⟩
    by_cases e : r = p
    · subst e
      rw [World.setLk_same]; simp
    · rw [World.setLk_ne _ _ e]; exact hs
  · exact ⟨by simp, fun b m e => by cases e⟩

/-- `unlockS` while other pages are locked. -/
theorem WP.unlockS' {k : Unit → Prog K V α} (hp : w.Pub p) (hs : t ∈ (w.lk p).s)
    (h : ∀ w', Kp t noE w w' → CInv cfg w' → (∀ r, r ≠ p → t ∈ (w.lk r).s → t ∈ (w'.lk r).s ∧ w'.heap r = w.heap r) →
      WP cfg t (k ()) Q w') :
    WP cfg t (Prog.unlockS p >>= k) Q w := by
  refine WP.run fun w1 hr hi => ?_
  have hp1 := hr.kp.ext.pub hp
  have hs1 := hr.mem_s hs
  have hl : LkOk t (w1.lk p) { w1.lk p with s := (w1.lk p).s.erase t } :=
    ⟨fun u hu => (by
        obtain ⟨-, b⟩ := hi.lkx p u hu
        rw [b] at hs1; cases hs1), fun _ _ => Iff.rfl, fun _ _ => Iff.rfl,
      fun u hu => List.count_erase_of_ne hu, le_refl _, fun _ _ => rfl⟩
  have hok := ok_setLk (cfg := cfg) hi hl (Or.inl hp1) (fun τ q e => by
    obtain ⟨-, b, -⟩ := hi.stale p τ q t e
    exact b)
  refine ⟨(), _, by simp only [Act.run]; rw [if_pos hs1]; rfl, _, rfl, hok, h _ (hr.kp.trans (kp_setS rfl rfl hp1)) hok.inv fun r hne hr' => ?_⟩
  rw [World.setLk_ne _ _ hne]
  exact ⟨hr.mem_s hr', hr.sheap r hr'⟩
end rules

/-- The parts of a scan take effect at the instants of a walk. -/
theorem ok_walk (hI : CInv cfg w) {op : Op K V} {out : Out K V} {t0 i : Nat} (hw : w.ps.ph t = .waiting op t0) (hi : i ≤ w.now)
    (hs : Walk w.maps t0 (.waiting op) i (.done out)) : OkB cfg t w (w.done t out) :=
  ok_ps (t := t) (ps' := ⟨w.ps.now, w.ps.maps, Spec.upd w.ps.ph t (.done out)⟩) hI
    (fun _ hp => Past.pastScan rfl hp hw hi hs) (le_refl _) (fun _ _ => rfl) rfl (fun _ hu => Spec.upd_ne _ _ hu)

/-- The leftmost leaf is never merged. -/
theorem CInv.bot_unmarked (hI : CInv cfg w) (hp : w.Pub p) (hlo : w.lo p = .bot) (hl : w.lvl p = 0) {n : Node K V} (hn : w.heap p = some n) :
    n.removed = false := by
  rcases World.pub_cases hp with e | ⟨τ, q, u, e⟩ | ⟨τ, q, e⟩ | e
  · exact (hI.page e hn).ok.notRemoved
  · obtain ⟨-, -, -, -, -, m, f, g⟩ := hI.stale p τ q u e
    rw [hn] at f; cases f
    exact g.ok.notRemoved
  · obtain ⟨-, -, -, h, -⟩ := hI.merged p τ q e
    rw [hlo] at h
    exact absurd h (not_lt.2 (Bd.bot_le _))
  · exact absurd hl (hI.gone p e).1

/-- Right of a page that is locked for reading and not marked there is no marked page, as long as there is one writer. -/
theorem CInv.solo_next (hI : CInv cfg w) (hs : w.solo = true) (hp : w.Pub p) {n m : Node K V} (hn : w.heap p = some n)
    (hr : n.removed = false) {q : Ptr} (hq : n.next = some q) (hm : w.heap q = some m) : m.removed = false := by
  have hb : cfg.blink = true := by
    have := hI.strict
    rw [(hI.solo hs).1] at this
    simpa using this.symm
  have hl : w.st q = .live := by
    rcases World.pub_cases hp with e | ⟨τ, q', u, e⟩ | ⟨τ, q', e⟩ | e
    · rcases (hI.page e hn).nextB (Or.inl hb) with ⟨-, e⟩ | ⟨h, q', -, e, a, -⟩
      · rw [hq] at e; cases e
      · rw [hq] at e; cases e; exact a
    · exact ((hI.solo hs).2.2 p τ q' u e).2 n q hn hq
    · obtain ⟨-, -, -, -, m', f, g, -⟩ := hI.merged p τ q' e
      rw [hn] at f; cases f
      rw [hr] at g; cases g
    · obtain ⟨-, m', f, g, -⟩ := hI.gone p e
      rw [hn] at f; cases f
      rw [hr] at g; cases g
  exact (hI.page hl hm).ok.notRemoved

namespace CPsl

/-- A scan that has read everything below the page `p`, which is locked for reading. -/
structure Scans (cfg : Cfg K) (t : Tid) (w : World K V) (t0 : Nat) (b0 b e : ScanKey K) (acc : List (K × V)) (p : Ptr) (pos σ : Nat) : Prop where
  s : t ∈ (w.lk p).s
  ge : w.Ge σ p
  now : σ ≤ w.now
  lvl : w.lvl p = 0
  ph : w.ps.ph t = .waiting (.scan b0 e) t0
  walk : Walk w.maps t0 (.waiting (.scan b0 e)) σ (.scanning b e acc)
  solo : w.solo = true → ∀ n, w.heap p = some n → n.removed = false
  pos : ∀ n, w.heap p = some n → NodeOk cfg false (w.lo p) n → ∃ T D, pos = T.length ∧ n.recs = T ++ D ∧
    (∀ x ∈ pairs T, ¬ AboveLo b x.1) ∧ (∀ x ∈ pairs D, AboveLo b x.1) ∧ (∀ k, .key k < w.lo p → ¬ AboveLo b k) ∧
    (∀ k, hiB n.high ≤ .key k → AboveLo b k)

theorem Scans.rely {t0 : Nat} {b0 b e : ScanKey K} {acc : List (K × V)} {pos σ : Nat} (h : Scans cfg t w t0 b0 b e acc p pos σ)
    (r : Rely t w w') : Scans cfg t w' t0 b0 b e acc p pos σ := by
  have f := r.kp.ext.fixed p h.ge.pub
  have hh := r.sheap p h.s
  refine ⟨r.mem_s h.s, r.kp.ext.ge h.ge h.now, le_trans h.now r.kp.ext.now, f.1.trans h.lvl, r.kp.ph.trans h.ph,
    h.walk.congr fun l hl => r.kp.ext.maps l (le_trans hl h.now), fun s n hn => ?_, fun n hn hok => ?_⟩
  · rw [hh] at hn
    exact h.solo (r.kp.wr.1.symm.trans s) n hn
  · rw [hh] at hn
    rw [f.2.1] at hok ⊢
    exact h.pos n hn hok

theorem iterate_wp (hb : cfg.blink = true) {t0 : Nat} {b0 e : ScanKey K} : ∀ (f : Nat) (p : Ptr) (pos σ : Nat) (b : ScanKey K)
    (acc : List (K × V)) (w : World K V), Scans cfg t w t0 b0 b e acc p pos σ → w.NoStale t → w.Clean t →
    WP cfg t (iterate e f p pos) (fun l w' => Ended t w (.recs (acc ++ l)) w') w
  | 0, _, _, _, _, _, _, _, _, _ => WP.stuck
  | f + 1, p, pos, σ, b, acc, w, h, hns, hcl => by
    unfold iterate
    refine WP.loadS h.s h.ge.pub fun w1 n r1 i1 hn1 hn _ => ?_
    have h1 := h.rely r1
    refine WP.note (fun s => h1.solo s n hn1) fun hrem w2 r2 i2 => ?_
    have h2 := h1.rely r2
    have hn2 : w2.heap p = some n := (r2.sheap p h1.s).trans hn1
    obtain ⟨τ, sn⟩ := i2.snap h2.ge h2.now hn2 hrem
    have hok := sn.pg.ok
    rw [h2.lvl] at hok
    obtain ⟨T, D, rfl, a2, a3, a4, a5, a6⟩ := h2.pos n hn2 hok
    have hnb := sn.pg.nextB (Or.inl hb)
    obtain ⟨isEnd, m', l, e1, e2, e3, e4⟩ := scan_page (acc := acc) (e := e) hok (sn.pg.agree h2.lvl) (by
      rcases hnb with x | ⟨x, y, z, u, -⟩
      · exact Or.inl x
      · exact Or.inr ⟨x, y, z, u⟩) a2 a3 a4 a5 a6
    refine WP.lift e1 ?_
    simp only
    refine WP.lift e2 ?_
    have k2 : Kp t noE w w2 := r1.kp.trans r2.kp
    cases isEnd with
    | true =>
      rw [if_pos rfl]
      refine WP.ghost (WP.unlockS h2.ge.pub h2.s fun w3 k3 i3 => WP.ret ?_)
      refine ⟨w3.done t (.recs (acc ++ l)), rfl, ok_walk i3 (k3.ph.trans h2.ph) (le_trans sn.hi k3.ext.now)
        ((Walk.step h2.walk sn.lo (e3 rfl)).congr fun i hi => k3.ext.maps i (le_trans hi sn.hi)), WP.ret ?_⟩
      exact Ended.now (k3.noStaleT (k2.noStaleT hns)) (hcl.le (k2.pendLe.trans k3.pendLe)) (k3.wr.1.trans k2.wr.1)
    | false =>
      rw [if_neg (by simp)]
      obtain ⟨c, q, c1, c2, c3⟩ := e4 rfl
      rw [c2]
      simp only
      obtain ⟨gq, lq, loq⟩ : w2.Ge τ q ∧ w2.lvl q = w2.lvl p ∧ w2.lo q = .key c := by
        rcases hnb with ⟨x, -⟩ | ⟨x, y, z, u, v, v2, v3⟩
        · rw [c1] at x; cases x
        · rw [c1] at z; cases z
          rw [c2] at u; cases u
          exact ⟨v.1, v2, v3⟩
      have hqp : q ≠ p := by
        rintro rfl
        have := sn.pg.lt
        rw [loq, c1] at this
        exact absurd this (lt_irrefl _)
      have wk : Walk w2.maps t0 (.waiting (.scan b0 e)) τ (.scanning (some (c, true)) e (acc ++ l)) := Walk.step h2.walk sn.lo c3
      refine WP.lockS' gq.pub fun w3 w4 r3 i3 k4 i4 hh4 hs4 s4 => ?_
      have k24 : Kp t noE w2 w4 := r3.kp.trans k4
      have hn3 : w3.heap p = some n := (r3.sheap p h2.s).trans hn2
      have hrq : w4.solo = true → ∀ m, w4.heap q = some m → m.removed = false := by
        intro s m hm
        rw [hh4] at hm
        exact i3.solo_next (k4.wr.1.symm.trans s) (r3.kp.ext.pub h2.ge.pub) hn3 hrem c2 hm
      refine WP.unlockS' (k24.ext.pub h2.ge.pub) (hs4 p (r3.mem_s h2.s)) fun w5 k5 i5 keep => ?_
      obtain ⟨s5, hh5⟩ := keep q hqp s4
      have k25 : Kp t noE w2 w5 := k24.trans k5
      have k05 : Kp t noE w w5 := k2.trans k25
      have fq := k25.ext.fixed q gq.pub
      refine WP.bind ((iterate_wp hb f q 0 τ (some (c, true)) (acc ++ l) w5 ⟨s5, k25.ext.ge gq sn.hi, le_trans sn.hi k25.ext.now,
        fq.1.trans (lq.trans h2.lvl), k25.ph.trans h2.ph, wk.congr fun i hi => k25.ext.maps i (le_trans hi sn.hi), ?_, ?_⟩
        (k05.noStaleT hns) (hcl.le k05.pendLe)).mono ?_)
      · intro s m hm
        rw [hh5] at hm
        exact hrq (k5.wr.1.symm.trans s) m hm
      · intro m hm hokm
        have lo5 : w5.lo q = .key c := fq.2.1.trans loq
        refine ⟨[], m.recs, rfl, rfl, by simp, ?_, ?_, ?_⟩
        · intro x hx
          have := (hokm.pairs_range x hx).1
          rw [lo5] at this
          exact this
        · intro k hk
          rw [lo5] at hk
          exact not_le.2 (Bd.key_lt_key.1 hk)
        · intro k hk
          have := Bd.lt_iff.1 hokm.lt
          rw [lo5] at this
          exact le_of_lt (Bd.key_lt_key.1 (lt_of_lt_of_le this hk))
      · intro l' w6 h6
        refine WP.ret ?_
        rw [← List.append_assoc]
        exact h6.from k05.wr.1

/-- A leaf found by a scan, locked for reading. -/
structure FirstAt (t : Tid) (w : World K V) (t0 : Nat) (b : ScanKey K) (q : Ptr) (n : Node K V) : Prop where
  s : t ∈ (w.lk q).s
  ge : w.Ge t0 q
  now : t0 ≤ w.now
  lvl : w.lvl q = 0
  heap : w.heap q = some n
  removed : n.removed = false
  first : FirstLeaf b n (w.lo q)

/-- Thread is at a page of the left border of the tree, or at a removed root. -/
structure AtL (w : World K V) (t0 : Nat) (p : Ptr) : Prop where
  ge : w.Ge t0 p
  now : t0 ≤ w.now
  low : w.st p = .gone ∨ w.lo p = .bot

theorem AtL.ext {t0 : Nat} (h : AtL w t0 p) (e : Ext w w') : AtL w' t0 p := by
  refine ⟨e.ge h.ge h.now, le_trans h.now e.now, ?_⟩
  rcases h.low with a | a
  · exact Or.inl (e.st_gone a)
  · exact Or.inr (by rw [(e.fixed p h.ge.pub).2.1]; exact a)

theorem AtL.root (h : CInv cfg w) {t0 : Nat} (ht : t0 ≤ w.now) : AtL w t0 w.mem.root := by
  rcases h.root with ⟨-, a, b, -⟩ | ⟨u, -, a, -⟩
  · exact ⟨World.ge_live a _, ht, Or.inr b⟩
  · exact ⟨World.ge_gone a _, ht, Or.inl a⟩

/-- The leftmost child of a page. -/
theorem Snap.first {t0 τ : Nat} {n : Node K V} (h : Snap cfg w t0 p n τ) {i : Nat} (hi : w.lvl p = i + 1) :
    ∃ c, n.getChild 0 = .ok c ∧ w.Ge t0 c ∧ w.lvl c = i ∧ w.lo c = w.lo p := by
  have hok := h.pg.ok
  rw [decide_eq_true (by omega)] at hok
  have hin := NodeOk.inner hok
  cases hr : n.recs with
  | nil => exact absurd hr hin.ne
  | cons r rs =>
    obtain ⟨c, hc⟩ := hin.ptrs r (by rw [hr]; simp)
    have hm : (w.lo p, c) ∈ kidsOf (w.lo p) (slots n.recs n.high) := by
      rw [hr]
      cases rs with
      | nil => simp [slots, kidsOf, Rec.toPtr, hc]
      | cons r2 rs => simp [slots, kidsOf, Rec.toPtr, hc]
    obtain ⟨a, b, d⟩ := h.pg.kids i hi _ _ hm
    refine ⟨c, ?_, World.ge_le a.1 h.lo, b, d⟩
    unfold Node.getChild
    rw [hr]
    cases r; simp only at hc; subst hc; rfl

theorem leftmost_ok (t0 : Nat) : ∀ (f : Nat) (p : Ptr) (w : World K V), CInv cfg w → AtL w t0 p →
    WP cfg t (leftmost f p) (fun q w' => CInv cfg w' ∧ Kp t noE w w' ∧ ∃ n, FirstAt t w' t0 none q n) w
  | 0, _, _, _, _ => WP.stuck
  | f + 1, p, w, hI, h => by
    unfold leftmost
    refine WP.isInner h.ge.pub fun w1 r1 i1 => ?_
    have h1 := h.ext r1.kp.ext
    have l1 := (r1.kp.ext.fixed p h.ge.pub).1
    by_cases hl : w.lvl p = 0
    · simp only [hl]
      rw [if_neg (by simp)]
      refine WP.lockS h1.ge.pub fun w2 k2 i2 s2 => WP.ret ?_
      have h2 := h1.ext k2.ext
      obtain ⟨n, hn⟩ := i2.some_of_pub h2.ge.pub
      have lv2 : w2.lvl p = 0 := ((k2.ext.fixed p h1.ge.pub).1.trans l1).trans hl
      have lo2 : w2.lo p = .bot := by
        rcases h2.low with e | e
        · exact absurd lv2 (i2.gone p e).1
        · exact e
      exact ⟨i2, r1.kp.trans k2, n, s2, h2.ge, h2.now, lv2, hn, i2.bot_unmarked h2.ge.pub lo2 lv2 hn, lo2⟩
    · obtain ⟨i, hi⟩ := Nat.exists_eq_succ_of_ne_zero hl
      rw [if_pos (decide_eq_true hl)]
      refine WP.lockS h1.ge.pub fun w2 k2 i2 s2 => ?_
      have h2 := h1.ext k2.ext
      refine WP.loadS s2 h2.ge.pub fun w3 n r3 i3 hn3 _ s3 => ?_
      have h3 := h2.ext r3.kp.ext
      have k3 : Kp t noE w w3 := (r1.kp.trans k2).trans r3.kp
      cases hrem : n.removed with
      | true =>
        rw [if_pos rfl]
        refine WP.unlockS h3.ge.pub s3 fun w4 k4 i4 => WP.getRoot fun w5 r5 i5 => ?_
        have k5 := (k3.trans k4).trans r5.kp
        refine (leftmost_ok t0 f _ w5 i5 (AtL.root i5 (le_trans h.now k5.ext.now))).mono ?_
        rintro q w6 ⟨i6, k6, e⟩
        exact ⟨i6, k5.trans k6, e⟩
      | false =>
        rw [if_neg (by simp)]
        obtain ⟨τ, sn⟩ := i3.snap h3.ge h3.now hn3 hrem
        obtain ⟨c, c1, c2, c3, c4⟩ := Snap.first sn (i := i) ((k3.ext.fixed p h.ge.pub).1.trans hi)
        refine WP.lift c1 (WP.unlockS h3.ge.pub s3 fun w4 k4 i4 => ?_)
        have lo3 : w3.lo p = .bot := by
          rcases h3.low with e | e
          · obtain ⟨-, m, a, b, -⟩ := i3.gone p e
            rw [hn3] at a; cases a
            rw [hrem] at b; cases b
          · exact e
        have hc : AtL w3 t0 c := ⟨c2, h3.now, Or.inr (c4.trans lo3)⟩
        refine (leftmost_ok t0 f c w4 i4 (hc.ext k4.ext)).mono ?_
        rintro q w6 ⟨i6, k6, e⟩
        exact ⟨i6, (k3.trans k4).trans k6, e⟩

theorem scan_wp (hb : cfg.blink = true) {fuel : Nat} {b e : ScanKey K} (hns : w.NoStale t) (hcl : w.Clean t)
    (hw : w.ps.ph t = .waiting (.scan b e) w.now) :
    WP cfg t (scan fuel b e) (fun l w' => Ended t w (.recs l) w') w := by
  unfold scan
  refine WP.getRoot fun w1 r1 i1 => ?_
  have fin : ∀ w2 leaf n, CInv cfg w2 → Kp t noE w1 w2 → FirstAt t w2 w.now b leaf n →
      WP cfg t (do
        let n ← Prog.load leaf
        let pos ← Prog.lift (CScan.beginPos b n)
        iterate e fuel leaf pos) (fun l w' => Ended t w (.recs l) w') w2 := by
    intro w2 leaf n i2 k2 f
    refine WP.loadS f.s f.ge.pub fun w3 m r3 i3 hm hm2 s3 => ?_
    rw [f.heap] at hm2; cases hm2
    have k3 : Kp t noE w w3 := (r1.kp.trans k2).trans r3.kp
    have fx := r3.kp.ext.fixed leaf f.ge.pub
    have ge3 := r3.kp.ext.ge f.ge f.now
    obtain ⟨τ, sn⟩ := i3.snap ge3 k3.ext.now hm f.removed
    have hok := sn.pg.ok
    rw [fx.1.trans f.lvl] at hok
    have hf := f.first
    rw [← fx.2.1] at hf
    obtain ⟨T, D, t1, t2, t3, t4, t5, t6⟩ := firstPos_ok (hok : NodeOk cfg false _ n) hf
    refine WP.lift t1 ?_
    refine (iterate_wp hb (b0 := b) (t0 := w.now) fuel leaf T.length w.now b [] w3 ⟨s3, ge3, k3.ext.now, fx.1.trans f.lvl, k3.ph.trans hw,
      Walk.step Walk.refl (le_refl _) (ScanStep.start b e), ?_, ?_⟩ (k3.noStaleT hns) (hcl.le k3.pendLe)).mono ?_
    · intro _ m hm'
      rw [hm] at hm'; cases hm'
      exact f.removed
    · intro m hm' _
      rw [hm] at hm'; cases hm'
      exact ⟨T, D, rfl, t2, t3, t4, t5, t6⟩
    · intro l w4 h4
      rw [List.nil_append] at h4
      exact h4.from k3.wr.1
  cases b with
  | none =>
    simp only
    refine WP.bind ((leftmost_ok w.now fuel w1.mem.root w1 i1 (AtL.root i1 r1.kp.ext.now)).mono ?_)
    rintro leaf w2 ⟨i2, k2, n, f⟩
    exact fin w2 leaf n i2 k2 f
  | some kc =>
    obtain ⟨k, cl⟩ := kc
    simp only
    refine WP.bind ((searchLeafR_ok hb k w.now fuel w1.mem.root w1 (AtP.root i1 r1.kp.ext.now k)).mono ?_)
    rintro leaf w2 ⟨i2, k2, hl, n, f⟩
    exact fin w2 leaf n i2 k2 ⟨f.s, f.ge, f.now, hl, f.heap, f.removed, f.low, compHigh_iff.1 f.high⟩

theorem execS_ok (hr : Roomy cfg L) (hb : cfg.blink = true) (t : Tid) (fuel : Nat) (op : Op K V) (w : World K V) (hI : CInv cfg w)
    (hns : w.NoStale t) (hg : Writes op → w.Wr t) (hcl : w.Clean t) (hba : w.Bare t) (hw : w.ps.ph t = .waiting op w.now) :
    WP cfg t (execS cfg fuel op) (fun out w' => Ended t w out w') w := by
  cases op with
  | scan b e => exact WP.bind ((scan_wp hb hns hcl hw).mono fun o w h => WP.ret h)
  | read k => exact exec_ok hr hb t fuel _ w hI hns hg hcl hba hw
  | write k v => exact exec_ok hr hb t fuel _ w hI hns hg hcl hba hw
  | insert k v => exact exec_ok hr hb t fuel _ w hI hns hg hcl hba hw
  | update k v => exact exec_ok hr hb t fuel _ w hI hns hg hcl hba hw
  | delete k => exact exec_ok hr hb t fuel _ w hI hns hg hcl hba hw

/-- Executions of PSL with scans in which none of the noted situations occurs. -/
theorem partwise (hr : Roomy cfg L) (hb : cfg.blink = true) {m0 : Map K V} {c0 c : Conf K V} (h0 : (blg V cfg).Sim m0 c0)
    (hc : Conf.Reach (execS cfg) c0 c) (hn : c.mem.raced = false) : ¬ c.Bad ∧ PartwiseLinearizableFrom m0 c.hist :=
  Lg.adequate (L := blg V cfg) rfl h0 (fun t fuel op w a b d => (execS_ok hr hb t fuel op w a b.1
    (fun _ => World.Wr.of b.2.1) b.2.2.2 (World.Bare.of b.2.1) d).mono fun _ _ h => ⟨h.1, h.2.1, h.2.2.2.trans b.2.1, (fun e => by rw [hb] at e; cases e), h.2.2.1⟩) hc hn

end CPsl
end BT
