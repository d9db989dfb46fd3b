import Verif.ConcOps

/-!
# Splits of the B-link trees under concurrency
-/

set_option linter.unusedSectionVars false

namespace BT
open Spec
variable {K V : Type} [LinearOrder K] {cfg : Cfg K} {L : Nat} {w w' : World K V} {t : Tid} {p : Ptr}

/-- What the caller of a structure modification relies on: the call in progress is as before, and no merge is left half done. -/
structure Th (t : Tid) (w w' : World K V) : Prop where
  ext : Ext w w'
  ph : w'.ps.ph t = w.ps.ph t
  ns : w.NoStale t → w'.NoStale t
  wr : w'.solo = w.solo ∧ (w.Wr t → w'.Wr t)

theorem Th.refl (t : Tid) (w : World K V) : Th t w w := ⟨Ext.refl w, rfl, id, rfl, id⟩
theorem Th.trans {w1 w2 : World K V} (h : Th t w w1) (h' : Th t w1 w2) : Th t w w2 :=
  ⟨h.ext.trans h'.ext, h'.ph.trans h.ph, fun e => h'.ns (h.ns e), h'.wr.1.trans h.wr.1, fun e => h'.wr.2 (h.wr.2 e)⟩
/-- As `Th`, for code in the middle of the removal of a root. -/
structure Th0 (t : Tid) (w w' : World K V) : Prop where
  ext : Ext w w'
  ph : w'.ps.ph t = w.ps.ph t
  ns : (∀ p τ q, w.st p ≠ .stale τ q t) → ∀ p τ q, w'.st p ≠ .stale τ q t
  wr : w'.solo = w.solo ∧ (w.Wr t → w'.Wr t)

theorem Th0.trans {w1 w2 : World K V} (h : Th0 t w w1) (h' : Th0 t w1 w2) : Th0 t w w2 :=
  ⟨h.ext.trans h'.ext, h'.ph.trans h.ph, fun e => h'.ns (h.ns e), h'.wr.1.trans h.wr.1, fun e => h'.wr.2 (h.wr.2 e)⟩
theorem Kp.th0 {E : Ptr → Prop} (h : Kp t E w w') : Th0 t w w' := ⟨h.ext, h.ph, fun e p τ q x => e p τ q ((h.noStale p τ q).1 x), h.wr⟩
theorem Th0.th (h : Th0 t w w') (hs : w'.shr ≠ some t) : Th t w w' := ⟨h.ext, h.ph, fun e => ⟨h.ns e.1, hs⟩, h.wr⟩
theorem Kp.th {E : Ptr → Prop} (h : Kp t E w w') : Th t w w' := ⟨h.ext, h.ph, h.noStaleT, h.wr⟩

/-- Thread `t` has linked page `r` to the level above, and every page that it had not linked before it has linked now as well
or still has to link. -/
def PendSub (t : Tid) (r : Ptr) (w w' : World K V) : Prop := ∀ q, w'.pend q = some t → q ≠ r ∧ w.pend q = some t

/-! ## The level structure -/

theorem CInv.descend (hI : CInv cfg w) : ∀ (d : Nat) (q : Ptr), w.st q = .live → ∀ i, w.lvl q = i + d →
    ∃ c, w.st c = .live ∧ w.lvl c = i ∧ w.lo c = w.lo q
  | 0, q, hq, i, hi => ⟨q, hq, hi, rfl⟩
  | d + 1, q, hq, i, hi => by
    obtain ⟨n, hn, pg⟩ := hI.live q hq
    have hok := pg.ok
    rw [decide_eq_true (by omega)] at hok
    cases hrecs : n.recs with
    | nil => exact absurd hrecs hok.inner.ne
    | cons r rs =>
      obtain ⟨a, b, c⟩ := pg.kids (i + d) (by omega) (w.lo q) r.toPtr (by rw [hrecs, slots_cons]; simp [kidsOf])
      obtain ⟨x, x1, x2, x3⟩ := CInv.descend hI d r.toPtr a i b
      exact ⟨x, x1, x2, x3.trans c⟩

theorem StackOk.mono {σ σ' : Bd K} (hσ : σ ≤ σ') {i : Nat} {s : List Ptr} (h : StackOk w σ i s) : StackOk w σ' i s := by
  induction s generalizing i with
  | nil => trivial
  | cons q s ih =>
    obtain ⟨h1, h2, h3, h4⟩ := h
    exact ⟨h1, h2.imp id (fun e => ⟨e.1, le_trans e.2 hσ⟩), h3, ih h4⟩

/-- Pages above a live page that are not right of a key of the page are not right of the page. -/
theorem StackOk.bound (hI : CInv cfg w) {n : Node K V} (hp : w.st p = .live) (hn : w.heap p = some n) {σ : Bd K}
    (h2 : σ < hiB n.high) {i : Nat} {s : List Ptr} (hi : w.lvl p < i) (h : StackOk w σ i s) :
    StackOk w (w.lo p) i s := by
  induction s generalizing i with
  | nil => trivial
  | cons q s ih =>
    obtain ⟨h1, h2', h3, h4⟩ := h
    refine ⟨h1, ?_, h3, ih (by omega) h4⟩
    rcases h2' with e | ⟨e1, e2⟩
    · exact Or.inl e
    · obtain ⟨r1, r2, r3⟩ := hI.rep q h1
      rcases r1 with r1 | r1
      · right
        refine ⟨e1, ?_⟩
        by_contra hlt
        rw [not_le] at hlt
        obtain ⟨c, c1, c2, c3⟩ := hI.descend (i - w.lvl p) (w.rep q) r1 (w.lvl p) (by omega)
        obtain ⟨m, hm, pm⟩ := hI.live c c1
        have hlm := hI.lo_lt c1 hm
        have hcp : c = p := hI.disj c p m n c1 hp c2 hm hn (by rw [c3]; order) (by order)
        subst hcp
        rw [c3] at hlt
        exact lt_irrefl _ hlt
      · exact Or.inl r1

/-! ## Splitting a page -/

namespace CBlink

theorem halfSplit_wp (hr : Roomy cfg L) {l : Ptr} {n : Node K V} (hI : CInv cfg w) (h : Hold w t l n)
    (hbig : Big cfg n) :
    WP cfg t (halfSplit cfg l) (fun x w' => CInv cfg w' ∧ Th t w w' ∧ x.1 ≠ l ∧ ∃ ln rn sep, x.2 = some sep ∧
      SplitPost cfg L (decide (w.lvl l ≠ 0)) (w.lo l) n x.1 ln rn sep ∧ Hold w' t l ln ∧ Hold w' t x.1 rn ∧
      w'.pend x.1 = some t ∧ w'.lo x.1 = .key sep ∧ w'.lvl x.1 = w.lvl l ∧ (∀ q, w.pend q = some t → w'.pend q = some t) ∧
      (∀ q, w'.pend q = some t → q = x.1 ∨ w.pend q = some t) ∧ (∀ q, w'.Own t q → q = l ∨ q = x.1 ∨ w.Own t q)) w := by
  unfold halfSplit
  refine WP.isInner h.pub fun w1 r1 i1 => ?_
  have h1 := h.rely r1
  refine WP.alloc fun w2 r k2 i2 _ s2 m2 _ => ?_
  have h2 := h1.kp k2 (fun e => e)
  refine h2.load fun w3 r3 i3 h3 => ?_
  obtain ⟨ln, rn, sep, e1, sp⟩ := split_ok hr (hI.page h.st h.heap).ok hbig r
  refine WP.lift e1 ?_
  have s3 := (r3.kp.priv r (fun e => e) s2).1
  refine WP.lockX s3 fun w4 k4 i4 x4 m4 s4 => ?_
  have hlr : l ≠ r := by
    rintro rfl
    rw [h3.st] at s3; cases s3
  have h4 := h3.kp k4 hlr
  refine WP.store x4 (fun e => by rw [sp.right.notRemoved] at e; cases e) fun w5 r5 i5 x5 m5 s5 => ?_
  have s5' := s5.trans s4
  have o6 := ok_priv (cfg := cfg) i5 s5' rn
  refine ⟨_, rfl, o6, ?_⟩
  set w6 : World K V := { w5 with mem := w5.mem.setHeap r rn } with hw6
  have h5 := h4.rely r5
  have h6 : Hold w6 t l n := ⟨h5.six, h5.st, (setHeap_ne _ _ hlr).trans h5.heap, h5.wr⟩
  have m6 : w6.heap r = some rn := setHeap_same _ _ _
  have k6 : Kp t (· = r) w5 w6 := kp_store' (OkB.ext o6) rfl rfl rfl rfl rfl (fun q hq => setHeap_ne _ _ hq)
  refine WP.downgradeSIX (Or.inr s5') (show (w6.lk r).x = some t from x5) fun w7 k7 i7 _ l7 m7 s7 => ?_
  have h7 := h6.kp k7 hlr
  have s7' : w7.st r = .priv t := s7.trans s5'
  refine h7.upgrade fun w8 k8 i8 h8 => ?_
  obtain ⟨s8, m8, l8⟩ := k8.priv r (Ne.symm hlr) s7'
  refine h8.store fun w9 r9 i9 h9 => ?_
  obtain ⟨s9, m9, l9⟩ := r9.kp.priv r (fun e => e) s8
  have hk : Kp t (fun q => q = r ∨ q = l) w w9 := by
    have a1 : Kp t (fun q => q = r ∨ q = l) w w5 :=
      ((((r1.kpE _).trans k2.toE).trans (r3.kpE _)).trans (k4.mono (fun _ e => Or.inl e))).trans (r5.kpE _)
    exact (((a1.trans (k6.mono (fun _ e => Or.inl e))).trans (k7.mono (fun _ e => Or.inl e))).trans
      (k8.mono (fun _ e => Or.inr e))).trans (r9.kpE _)
  obtain ⟨f1, f2, -⟩ := hk.ext.fixed l h.pub
  have sp' : SplitPost cfg L (decide (w9.lvl l ≠ 0)) (w9.lo l) n r ln rn sep := by rw [f1, f2]; exact sp
  have o10 := ok_split i9 h9.x h9.st h9.heap s9 (m9.trans (m8.trans (m7.trans m6))) sp' h9.wr
  refine ⟨_, rfl, o10, ?_⟩
  set w10 := w9.split t l r ln sep with hw10
  have st10 : w10.st = Spec.upd w9.st r .live := rfl
  have h10 : HoldX w10 t l ln := ⟨h9.x, by rw [st10, Spec.upd_ne _ _ hlr]; exact h9.st, setHeap_same _ _ _, h9.wr⟩
  refine h10.downgrade fun w11 k11 i11 h11 => WP.ret ?_
  have q11 : Hold w11 t r rn := by
    refine Hold.kp (w := w10) ⟨?_, ?_, ?_, h10.wr⟩ k11 (Ne.symm hlr)
    · show (w9.lk r).six = some t
      exact (congrArg Lk.six (l9.trans l8)).trans l7
    · rw [st10, Spec.upd_same]
    · exact (setHeap_ne _ _ (Ne.symm hlr)).trans (m9.trans (m8.trans (m7.trans m6)))
  have ns10 : w9.NoStale t → w10.NoStale t := by
    refine fun e => ⟨fun q τ c => ?_, e.2⟩
    rw [st10]
    by_cases hq : q = r
    · subst hq; rw [Spec.upd_same]; simp
    · rw [Spec.upd_ne _ _ hq]; exact e.1 q τ c
  have pub10 : w10.Pub r := World.pub_live (by rw [st10, Spec.upd_same])
  obtain ⟨g1, g2, -⟩ := k11.ext.fixed r pub10
  refine ⟨i11, hk.th.trans (Th.trans ⟨OkB.ext o10, rfl, ns10, rfl, id⟩ k11.th), Ne.symm hlr, ln, rn, sep, sp.rlow, sp, h11, q11, ?_, ?_, ?_, ?_, ?_, ?_⟩
  · rw [k11.pend]; exact Spec.upd_same _ _ _
  · rw [g2]; exact Spec.upd_same _ _ _
  · rw [g1]; exact (Spec.upd_same _ _ _).trans f1
  · intro q hq
    rw [k11.pend]
    show Spec.upd w9.pend r (some t) q = some t
    by_cases e : q = r
    · subst e; rw [Spec.upd_same]
    · rw [Spec.upd_ne _ _ e]; exact (hk.pend q).2 hq
  · intro q hq
    rw [k11.pend] at hq
    by_cases e : q = r
    · exact Or.inl e
    · refine Or.inr ((hk.pend q).1 ?_)
      have hq : Spec.upd w9.pend r (some t) q = some t := hq
      rwa [Spec.upd_ne _ _ e] at hq
  · intro q hq
    by_cases e : q = l
    · exact Or.inl e
    · by_cases e' : q = r
      · exact Or.inr (Or.inl e')
      · have h10 : w9.Own t q := k11.ownLe q e hq
        exact Or.inr (Or.inr (hk.ownLe q (by rintro (x | x) <;> contradiction) h10))

/-- `GetValidSplitNode`: the page with the key stays locked. -/
theorem validSplitNode_wp {l r : Ptr} {ln rn : Node K V} {k : K} (hl : Hold w t l ln) (hr : Hold w t r rn) (hlr : r ≠ l)
    (hnx : ln.next = some r) (hlor : w.lo r = hiB ln.high) :
    WP cfg t (validSplitNode l k) (fun q w' => CInv cfg w' ∧ Th t w w' ∧ (∀ c, w'.pend c = some t ↔ w.pend c = some t) ∧
      ((q = l ∧ Hold w' t l ln ∧ .key k < hiB ln.high) ∨ (q = r ∧ Hold w' t r rn ∧ w.lo r ≤ .key k)) ∧
      ∀ c, w'.Own t c → w.Own t c ∧ (c = l ∨ c = r → c = q)) w := by
  unfold validSplitNode
  refine hl.load fun w1 r1 i1 h1 => ?_
  have q1 := hr.rely r1
  simp only [hnx]
  by_cases hc : ln.compHighKey k = true
  · rw [if_pos hc]
    refine q1.unlock fun w2 k2 i2 o2 _ => WP.ret ⟨i2, r1.kp.th.trans k2.th, fun c => (k2.pend c).trans (r1.kp.pend c),
      Or.inl ⟨rfl, h1.kp k2 (Ne.symm hlr), compHigh_iff.1 hc⟩, fun c hc => ?_⟩
    have hcr : c ≠ r := by rintro rfl; exact o2 hc
    exact ⟨r1.kp.ownLe c (fun e => e) (k2.ownLe c hcr hc), fun e => e.resolve_right hcr⟩
  · rw [if_neg hc]
    refine h1.unlock fun w2 k2 i2 o2 _ => WP.ret ⟨i2, r1.kp.th.trans k2.th, fun c => (k2.pend c).trans (r1.kp.pend c),
      Or.inr ⟨rfl, q1.kp k2 hlr, ?_⟩, fun c hc => ?_⟩
    · rw [compHigh_iff, not_lt] at hc
      rw [hlor]; exact hc
    · have hcl : c ≠ l := by rintro rfl; exact o2 hc
      exact ⟨r1.kp.ownLe c (fun e => e) (k2.ownLe c hcl hc), fun e => e.resolve_left hcl⟩

theorem separatorKey_wp {target l : Ptr} {sep : K} (hp : w.Pub target) (hg : w.Wr t)
    (hs : w.solo = true → ∃ m, w.heap target = some m ∧ (if target = l then m.high else m.low) = some sep) :
    WP cfg t (separatorKey target l (some sep)) (fun k w' => CInv cfg w' ∧ Kp t noE w w' ∧ k = sep) w := by
  unfold separatorKey
  refine WP.peek hp fun w1 n r1 i1 n1 => ?_
  refine WP.note (fun s1 => ?_) fun hb w2 r2 i2 => ?_
  · have s0 : w.solo = true := r1.kp.wr.1.symm.trans s1
    obtain ⟨m, e1, e2⟩ := hs s0
    obtain rfl : n = m := Option.some.inj (n1.symm.trans (((r1.alone s0 hg).1 target hp).trans e1))
    exact decide_eq_false (fun e => e e2)
  have hk : (if target = l then n.high else n.low) = some sep := by
    by_contra e
    rw [decide_eq_true e] at hb; cases hb
  rw [hk]
  exact WP.ret ⟨i2, r1.kp.trans r2.kp, rfl⟩

theorem tryRootSplit_wp (hr : Roomy cfg L) (hb : cfg.blink = true) {l r : Ptr} {sep : K} (hl : w.Pub l) (hrp : w.Pub r) (hlvl : w.lvl l = w.lvl r)
    (hpd : w.pend r = some t) (hlo : w.lo r = .key sep) (hg : w.Wr t) :
    WP cfg t (tryRootSplit cfg l r sep) (fun b w' => CInv cfg w' ∧ (b = true → Th t w w' ∧ PendSub t r w w') ∧ (b = false → Kp t noE w w')) w := by
  unfold tryRootSplit
  refine WP.getRoot fun w1 r1 i1 => ?_
  by_cases hroot : w1.mem.root ≠ l
  · rw [if_pos hroot]
    exact WP.ret ⟨i1, by simp, fun _ => r1.kp⟩
  · rw [if_neg hroot]
    obtain ⟨n, e1, e2, e3, e4, e5, -⟩ := newRoot_ok (V := V) hr sep l r
    refine WP.lift e1 ?_
    refine WP.alloc fun w2 q k2 i2 rk2 s2 m2 _ => ?_
    refine WP.setRoot (fun w3 r3 _ s3 => ?_) (fun w3 r3 _ x hx => ?_) fun w3 r3 i3 hroot3 => ?_
    · have s2 : w2.solo = true := r3.kp.wr.1.symm.trans s3
      have s1 : w1.solo = true := k2.wr.1.symm.trans s2
      have g1 := r1.kp.wr.2 hg
      rw [(r3.alone s2 (k2.wr.2 g1)).2, (rk2.2.2 s1 g1).2]
      exact not_ne_iff.1 hroot
    · cases (r3.kp.priv q (fun e => e) s2).2.1.symm.trans hx |>.symm.trans m2
      exact e2.notRemoved
    have kp : Kp t noE w w3 := (r1.kp.trans k2).trans r3.kp
    obtain ⟨s3, m3, -⟩ := r3.kp.priv q (fun e => e) s2
    have o4 := ok_grow i3 hroot3 (kp.ext.pub hl) (by rw [(kp.ext.fixed l hl).1, (kp.ext.fixed r hrp).1]; exact hlvl)
      ((kp.pend r).2 hpd) (by rw [(kp.ext.fixed r hrp).2.1]; exact hlo) s3 (m3.trans m2) e2 e3 e4 e5
      (fun e => by rw [i3.strict, hb] at e; cases e)
    refine ⟨_, rfl, o4, WP.ret ⟨o4.inv, fun _ => ⟨kp.th.trans ⟨OkB.ext o4, rfl, ?_, rfl, id⟩, ?_⟩, by simp⟩⟩
    · refine fun e => ⟨fun c τ x => ?_, e.2⟩
      show Spec.upd w3.st q .live c ≠ _
      by_cases hq : c = q
      · subst hq; rw [Spec.upd_same]; simp
      · rw [Spec.upd_ne _ _ hq]; exact e.1 c τ x
    · intro c hc
      have hc : Spec.upd w3.pend r none c = some t := hc
      by_cases e : c = r
      · subst e; rw [Spec.upd_same] at hc; cases hc
      · rw [Spec.upd_ne _ _ e] at hc
        exact ⟨e, (kp.pend c).1 hc⟩

end CBlink

/-! ## Linking a new page to the level above -/

theorem kids_place {T D : List (Rec K V)} {r0 : Rec K V} {sep : K} {q : Ptr} {lo : Bd K} {hi : Option K} {b : Bd K} {c : Ptr} :
    (b, c) ∈ kidsOf lo (slots (T ++ r0 :: ⟨some sep, .ptr q, false⟩ :: D) hi) ↔
      (b, c) ∈ kidsOf lo (slots (T ++ r0 :: D) hi) ∨ (b, c) = (.key sep, q) := by
  rw [slots_append, slots_append, kidsOf_append, kidsOf_append, slots_cons, slots_cons, slots_cons]
  simp only [kidsOf, hdKey, List.mem_append, List.mem_cons, Rec.toPtr, hiB]
  tauto

theorem kids_drop {T D : List (Rec K V)} {r0 d : Rec K V} {lo : Bd K} {hi : Option K} {b : Bd K} {c : Ptr} :
    (b, c) ∈ kidsOf lo (slots (T ++ r0 :: d :: D) hi) ↔
      (b, c) ∈ kidsOf lo (slots (T ++ r0 :: D) hi) ∨ (b, c) = (hiB d.key, d.toPtr) := by
  rw [slots_append, slots_append, kidsOf_append, kidsOf_append, slots_cons, slots_cons, slots_cons]
  simp only [kidsOf, hdKey, List.mem_append, List.mem_cons]
  tauto

/-- A slot of an inner page with its lower border. -/
theorem kids_mem {T D : List (Rec K V)} {r0 : Rec K V} {lo : Bd K} {hi : Option K} (hT : T ≠ []) :
    (hiB r0.key, r0.toPtr) ∈ kidsOf lo (slots (T ++ r0 :: D) hi) := by
  rw [slots_append, kidsOf_append, slots_cons, kidEnd_slots _ _ hT]
  simp [kidsOf, hdKey]


/-- A page that its parent does not know about has a larger lower border than the parent. -/
theorem CInv.pend_lo (hI : CInv cfg w) {r : Ptr} {n : Node K V} {sep : K} (hp : w.st p = .live) (hn : w.heap p = some n)
    (hlvl : w.lvl p = w.lvl r + 1) (hpd : w.pend r = some t) (hlo : w.lo r = .key sep) (h1 : w.lo p ≤ .key sep) :
    w.lo p < .key sep ∧ ∀ c, (.key sep, c) ∉ kidsOf (w.lo p) (slots n.recs n.high) := by
  have pg := hI.page hp hn
  obtain ⟨hr, -, hnk⟩ := hI.pend r t hpd
  have key : ∀ c, (.key sep, c) ∉ kidsOf (w.lo p) (slots n.recs n.high) := by
    intro c hc
    obtain ⟨a, b, d⟩ := pg.kids (w.lvl r) hlvl _ _ hc
    have : c = r := hI.same_lo a hr b (d.trans hlo.symm)
    subst this
    exact hnk p n _ hp hn (by omega) hc
  refine ⟨lt_of_le_of_ne h1 fun e => ?_, key⟩
  have hok := pg.ok
  rw [decide_eq_true (by omega)] at hok
  cases hrecs : n.recs with
  | nil => exact hok.inner.ne hrecs
  | cons x xs =>
    refine key x.toPtr ?_
    rw [← e, hrecs, slots_cons]
    simp [kidsOf]

/-- The parent learns about page `r`. -/
theorem ok_link (hI : CInv cfg w) {r : Ptr} {n n' : Node K V} {sep : K} (h : HoldX w t p n) (hlvl : w.lvl p = w.lvl r + 1)
    (hpd : w.pend r = some t) (hlo : w.lo r = .key sep) (hf : SameFrame n n') (hok : NodeOk cfg true (w.lo p) n')
    (hk : ∀ b c, (b, c) ∈ kidsOf (w.lo p) (slots n'.recs n.high) ↔
      (b, c) ∈ kidsOf (w.lo p) (slots n.recs n.high) ∨ (b, c) = (.key sep, r)) :
    ∃ w2 : World K V, w2.mem = w.mem.setHeap p n' ∧ OkB cfg t w w2 ∧ Th t w w2 ∧
      (∀ q, q ≠ r → w.pend q = some t → w2.pend q = some t) ∧ PendSub t r w w2 ∧ HoldX w2 t p n' := by
  have pg := hI.page h.st h.heap
  obtain ⟨hr, -, -⟩ := hI.pend r t hpd
  have o := ok_page (ps' := w.ps) (n' := n') hI h.x h.st h.heap hf.high (Spec.upd w.pend r none) (fun _ hp => hp) (le_refl _) (fun _ _ => rfl)
    (fun _ _ => rfl) (fun _ _ _ _ _ _ _ _ _ => rfl) (by
      refine ⟨by rw [decide_eq_true (by omega)]; exact hok, by rw [hf.high, hf.next]; exact pg.next, fun i hi b c hc => ?_, fun h0 => by omega⟩
      rw [hf.high, hk] at hc
      rcases hc with hc | hc
      · exact pg.kids i hi b c hc
      · cases hc
        exact ⟨hr, by omega, hlo⟩) (by
      intro q u hu
      by_cases e : q = r
      · subst e
        rw [Spec.upd_same, hpd]
        constructor
        · intro e; cases e
        · intro e; exact absurd (Option.some.inj e).symm hu
      · rw [Spec.upd_ne _ _ e]) (by
      intro q u hq
      have hqr : q ≠ r := by rintro rfl; rw [Spec.upd_same] at hq; cases hq
      rw [Spec.upd_ne _ _ hqr] at hq
      obtain ⟨a, b, c⟩ := hI.pend q u hq
      refine ⟨a, b, fun x m bb hx hm h0 => ?_⟩
      by_cases e : x = p
      · subst e
        rw [setHeap_same] at hm; cases hm
        rw [hf.high, hk]
        rintro (hh | hh)
        · exact c x n bb hx h.heap h0 hh
        · cases hh; exact hqr rfl
      · exact c x m bb hx ((setHeap_ne _ _ e).symm.trans hm) h0) h.wr
    (fun _ b c hc => Or.inl (by rw [hf.high, hk]; exact Or.inl hc)) (by
      intro c hc
      by_cases e : c = r
      · subst e
        exact Or.inr ⟨by omega, .key sep, by rw [hf.high, hk]; exact Or.inr rfl⟩
      · rw [Spec.upd_ne _ _ e]; exact Or.inl hc)
  refine ⟨_, rfl, o, ⟨OkB.ext o, rfl, fun e => e, rfl, id⟩, fun q hq he => ?_, fun q he => ?_, h.x, h.st, setHeap_same _ _ _, h.wr⟩
  · show Spec.upd w.pend r none q = _
    rw [Spec.upd_ne _ _ hq]; exact he
  · have he : Spec.upd w.pend r none q = some t := he
    by_cases e : q = r
    · subst e; rw [Spec.upd_same] at he; cases he
    · rw [Spec.upd_ne _ _ e] at he; exact ⟨e, he⟩

namespace CBlink

theorem insertChild_wp (hr : Roomy cfg L) (hI : CInv cfg w) {n : Node K V} {r : Ptr} {sep : K} (h : Hold w t p n)
    (hlvl : w.lvl p = w.lvl r + 1) (hpd : w.pend r = some t) (hlo : w.lo r = .key sep) (h1 : w.lo p ≤ .key sep)
    (h2 : .key sep < hiB n.high) :
    WP cfg t (insertChild cfg p r sep) (fun rc w' => CInv cfg w' ∧
      ((rc = .needSplit ∧ Kp t (· = p) w w' ∧ ∃ n', Hold w' t p n' ∧ SamePage n n' ∧ Big cfg n' ∧ ∀ L, Roomy cfg L → ¬ Room cfg L n) ∨
       (rc = .completed ∧ Th t w w' ∧ (∀ q, q ≠ r → w.pend q = some t → w'.pend q = some t) ∧ PendSub t r w w' ∧ Kept w' p n ∧
        ∀ q, w'.Own t q → w.Own t q ∧ q ≠ p))) w := by
  have pg := hI.page h.st h.heap
  have hok := pg.ok
  have hrp : w.Pub r := World.pub_live (hI.pend r t hpd).1
  rw [decide_eq_true (by omega : w.lvl p ≠ 0)] at hok
  obtain ⟨n1, c1, c2, c3, c4, c5⟩ := cleanUpIfNeeded_ok hr hok (childLen_le hr sep)
  obtain ⟨hlt, hnk⟩ := hI.pend_lo h.st h.heap hlvl hpd hlo h1
  have hrecs1 : n1.recs = n.recs := c3.recs hok.kind
  obtain ⟨T, r0, D, rc, c, e1, e2, e3, -, e4, e5, e6, e7⟩ := c2.search_inner sep (Bd.gtKey_iff'.2 (by rw [c3.frame.high]; exact h2))
  have hrc : rc = .keyNotInserted ∧ (T ≠ [] → ∃ a, r0.key = some a ∧ a < sep) := by
    rcases e7 with ⟨-, hT, hk⟩ | e7
    · have := kids_mem (lo := w.lo p) (hi := n.high) (r0 := r0) (D := D) hT
      rw [← e1, hrecs1, hk] at this
      exact absurd this (hnk _)
    · exact e7
  obtain ⟨rfl, hT⟩ := hrc
  unfold insertChild
  refine WP.bind ((cleanUpIfNeeded_wp h c1 c3 (by rw [decide_eq_true (by omega)]; exact c2)).mono ?_)
  rintro - w1 ⟨i1, k1, h1'⟩
  refine h1'.load fun w2 r2 i2 h2' => ?_
  have k2 : Kp t (· = p) w w2 := k1.trans (r2.kpE _)
  cases hs : Blink.needSplit cfg n1 (cfg.klen sep + cfg.ptrLen) with
  | true =>
    refine WP.lift (b := (.needSplit, n1)) (by simp [Blink.insertChildCore, e2, hs]) ?_
    simp only [commit]
    exact WP.ret ⟨i2, Or.inl ⟨rfl, k2, n1, h2', c3, c4 hs, noRoom (fun _ hr => childLen_le hr sep) c1 hs⟩⟩
  | false =>
    obtain ⟨n', p1, p2, p3, p4⟩ := placeChild_ok (q := r) c2 e1 (c5 hs) hT (Bd.lt_iff.2 hlt) e5
    refine WP.lift (b := (.completed, n')) (by simp [Blink.insertChildCore, e2, hs, p1]) ?_
    simp only [commit]
    refine h2'.upgrade fun w3 k3 i3 h3 => ?_
    refine h3.store fun w4 r4 i4 h4 => ?_
    have k4 : Kp t (· = p) w w4 := (k2.trans k3).trans (r4.kpE _)
    obtain ⟨f1, f2, -⟩ := k4.ext.fixed p h.pub
    obtain ⟨g1, g2, -⟩ := k4.ext.fixed r hrp
    obtain ⟨w5, m5, o5, t5, pd5, ps5, h5⟩ := ok_link i4 h4 (r := r) (sep := sep) (n' := n') (by rw [f1, g1]; exact hlvl) ((k4.pend r).2 hpd)
      (g2.trans hlo) p3 (by rw [f2]; exact p2) (by
        intro b c
        rw [p4, e1]
        exact kids_place)
    refine ⟨w5, m5, o5, h5.unlock fun w6 k6 i6 o6 s6 => WP.ret ⟨i6, Or.inr ⟨rfl, (k4.th.trans t5).trans k6.th, ?_, ?_, ?_, ?_⟩⟩⟩
    · intro q hq hp
      exact (k6.pend q).2 (pd5 q hq ((k4.pend q).2 hp))
    · intro q hq
      obtain ⟨a, b⟩ := ps5 q ((k6.pend q).1 hq)
      exact ⟨a, (k4.pend q).1 b⟩
    · exact fun s => ⟨n', s6 s, p3.low.trans c3.frame.low, p3.high.trans c3.frame.high⟩
    · intro q hq
      have hqp : q ≠ p := by rintro rfl; exact o6 hq
      have h5 := k6.ownLe q hqp hq
      have h4 : w4.Own t q := by unfold World.Own World.lk at h5 ⊢; rw [m5] at h5; exact h5
      exact ⟨k4.ownLe q hqp h4, hqp⟩

/-- `CompleteSplit`. -/
theorem completeSplit_wp (hr : Roomy cfg L) (hb : cfg.blink = true) {nav : Nav K V} (hnav : NavOk cfg nav) :
    ∀ (f : Nat) (stack : List Ptr) (l r : Ptr) (key : K) (w : World K V), CInv cfg w → w.NoStale t → w.Wr t → w.pend r = some t → w.Pub l →
      w.lvl l = w.lvl r → w.lo r = .key key → StackOk w (.key key) (w.lvl r + 1) stack → w.Bare t →
      WP cfg t (completeSplit nav cfg f stack none l r key) (fun _ w' => CInv cfg w' ∧ Th t w w' ∧ PendSub t r w w') w
  | 0, _, _, _, _, _, _, _, _, _, _, _, _, _, _ => WP.stuck
  | f + 1, stack, l, r, key, w, hI, hns, hg, hpd, hl, hlvl, hlo, hs, hba => by
    have hrp : w.Pub r := World.pub_live (hI.pend r t hpd).1
    -- a new search for the parent
    have retry : ∀ (s : List Ptr) (w1 : World K V), CInv cfg w1 → Kp t noE w w1 → (∀ b ∈ s, w1.Pub b ∧ w1.Gone b) →
        WP cfg t (do
          let done ← tryRootSplit cfg l r key
          if done then return ()
          else do
            let root ← Prog.getRoot
            let stack ← nav.searchParent key r (f + 1) s root
            completeSplit nav cfg f stack none l r key) (fun _ w' => CInv cfg w' ∧ Th t w w' ∧ PendSub t r w w') w1 := by
      intro s w1 i1 k1 hgo
      have fl := k1.ext.fixed l hl
      have fr := k1.ext.fixed r hrp
      refine WP.bind ((tryRootSplit_wp hr hb (k1.ext.pub hl) (k1.ext.pub hrp) (by rw [fl.1, fr.1]; exact hlvl) ((k1.pend r).2 hpd)
        (fr.2.1.trans hlo) (k1.wr.2 hg)).mono ?_)
      rintro b w2 ⟨i2, a1, a2⟩
      cases b with
      | true => exact WP.ret ⟨i2, k1.th.trans (a1 rfl).1, fun q hq => ⟨((a1 rfl).2 q hq).1, (k1.pend q).1 ((a1 rfl).2 q hq).2⟩⟩
      | false =>
        have k2 : Kp t noE w w2 := k1.trans (a2 rfl)
        simp only [Bool.false_eq_true, if_false]
        refine WP.getRoot fun w3 r3 i3 => ?_
        have k3 : Kp t noE w w3 := k2.trans r3.kp
        have e13 := (a2 rfl).ext.trans r3.kp.ext
        have f3 := k3.ext.fixed r hrp
        refine WP.bind ((hnav.searchParent t key r (f + 1) s w3 i3 (Or.inl ((k3.pend r).2 hpd)) (f3.2.1.trans hlo)
          (StackOk.start i3 key (fun b hb => ⟨e13.pub (hgo b hb).1, e13.gone_of (hgo b hb).1 (hgo b hb).2⟩))).mono ?_)
        rintro s' w4 ⟨i4, k4, s4⟩
        have k5 := k3.trans k4
        have f5 := k5.ext.fixed r hrp
        refine (completeSplit_wp hr hb hnav f s' l r key w4 i4 (k5.noStaleT hns) (k5.wr.2 hg) ((k5.pend r).2 hpd) (k5.ext.pub hl)
          (by rw [(k5.ext.fixed l hl).1, f5.1]; exact hlvl) (f5.2.1.trans hlo) s4 (hba.kp k5)).mono ?_
        rintro - w6 ⟨i6, t6, p6⟩
        exact ⟨i6, k5.th.trans t6, fun q hq => ⟨(p6 q hq).1, (k5.pend q).1 (p6 q hq).2⟩⟩
    unfold completeSplit
    cases stack with
    | nil => exact retry [] w hI (Kp.refl _ _ _) (by simp)
    | cons top rest =>
      obtain ⟨s1, s2, s3, s4⟩ := hs
      refine WP.bind ((hnav.checkW t key (f + 1) top w hI s1 hns (s2.imp id (fun e => e.2)) hba.off).mono ?_)
      intro o w1 h1
      cases o with
      | none =>
        obtain ⟨i1, k1, g1, -⟩ := h1
        refine retry (top :: rest) w1 i1 k1 ?_
        have hs1 : StackOk w1 (.key key) (w.lvl r + 1) (top :: rest) := StackOk.ext ⟨s1, s2, s3, s4⟩ k1.ext
        intro b hb'
        refine ⟨(hs1.mem hb').1, ?_⟩
        rcases List.mem_cons.1 hb' with rfl | hb'
        · exact g1
        · exact hs1.2.2.1 g1 b hb'
      | some node =>
        obtain ⟨i1, k1, -, -, six1, st1, lv1, g1, lo1, ⟨n, hn, hi1⟩, -⟩ := h1
        have hlv : w.lvl top = w.lvl r + 1 := by
          rcases s2 with e | e
          · exact absurd e g1
          · exact e.1
        have hold : Hold w1 t node n := ⟨six1, st1, hn, k1.wr.2 hg⟩
        have fr := k1.ext.fixed r hrp
        have fl := k1.ext.fixed l hl
        have hlv1 : w1.lvl node = w1.lvl r + 1 := by rw [lv1, fr.1]; exact hlv
        have s4' : StackOk w1 (.key key) (w.lvl r + 1 + 1) rest := s4.ext k1.ext
        refine WP.bind ((insertChild_wp hr i1 hold hlv1 ((k1.pend r).2 hpd) (fr.2.1.trans hlo) lo1 hi1).mono ?_)
        rintro rc w2 ⟨i2, h2 | ⟨rfl, t2, -, ps2, -, -⟩⟩
        · obtain ⟨rfl, k2, n', h2, sp2, big, -⟩ := h2
          simp only [reduceCtorEq, if_false, if_true]
          refine WP.bind ((halfSplit_wp hr i2 h2 big).mono ?_)
          rintro ⟨r', sepO⟩ w3 ⟨i3, t3, hne, ln, rn, sep, e3, sp, hl3, hr3, pd3, lo3, lv3, keep3, sub3, own3⟩
          simp only at e3 hr3 pd3 lo3 lv3 hne
          subst e3
          have t13 : Th t w1 w3 := k2.th.trans t3
          have hnx : ln.next = some r' := sp.lnext (by simp [Node.hasNext, hb])
          have fn2 := k2.ext.fixed node hold.pub
          have fn := t13.ext.fixed node hold.pub
          have frr := t13.ext.fixed r (k1.ext.pub hrp)
          refine WP.bind ((validSplitNode_wp (k := key) hl3 hr3 hne hnx (by rw [lo3, sp.lhigh]; rfl)).mono ?_)
          rintro target w4 ⟨i4, t4, pd4, h4, own4⟩
          have t14 : Th t w1 w4 := t13.trans t4
          have hpd4 : w4.pend r = some t := (pd4 r).2 (keep3 r ((k2.pend r).2 ((k1.pend r).2 hpd)))
          have fr4 := t14.ext.fixed r (k1.ext.pub hrp)
          have fn4 := t14.ext.fixed node hold.pub
          have fr'4 := t4.ext.fixed r' hr3.pub
          have hlo4 : w4.lo r = .key key := fr4.2.1.trans (fr.2.1.trans hlo)
          have hnehigh : n'.high = n.high := sp2.frame.high
          -- the page that receives the link
          have htgt : ∃ m, Hold w4 t target m ∧ w4.lvl target = w4.lvl r + 1 ∧ w4.lo target ≤ .key key ∧ .key key < hiB m.high ∧
              Room cfg L m ∧ (target = node ∨ target = r') ∧ (if target = node then m.high else m.low) = some sep := by
            rcases h4 with ⟨rfl, a, b⟩ | ⟨rfl, a, b⟩
            · exact ⟨ln, a, by rw [fn4.1, fr4.1]; exact hlv1, by rw [fn4.2.1]; exact lo1, b, sp.roomL, Or.inl rfl, by rw [if_pos rfl]; exact sp.lhigh⟩
            · refine ⟨rn, a, ?_, by rw [fr'4.2.1]; exact b, by rw [sp.rhigh, hnehigh]; exact hi1, sp.roomR, Or.inr rfl, by rw [if_neg hne]; exact sp.rlow⟩
              rw [fr'4.1, lv3, fn2.1, fr4.1]; exact hlv1
          obtain ⟨m, hm1, hm2, hm3, hm4, hm5, hm6, hm7⟩ := htgt
          have hrr' : r' ≠ r := by
            rintro rfl
            rw [fr'4.1, lv3, fn2.1] at fr4
            omega
          refine WP.bind ((insertChild_wp hr i4 hm1 hm2 hpd4 hlo4 hm3 hm4).mono ?_)
          rintro rc w5 ⟨i5, h5 | ⟨rfl, t5, pd5, ps5, kept5, own5⟩⟩
          · obtain ⟨-, -, n5, -, -, -, hno⟩ := h5
            exact absurd hm5 (hno L hr)
          · have t15 : Th t w1 w5 := t14.trans t5
            refine WP.bind ((separatorKey_wp (sep := sep) (l := node) (t5.ext.pub hm1.pub) (t5.wr.2 hm1.wr) (fun s => by
              obtain ⟨m', a, b, c⟩ := kept5 s
              refine ⟨m', a, ?_⟩
              rw [b, c]; exact hm7)).mono ?_)
            rintro key' w6 ⟨i6, k6, rfl⟩
            have t35 : Th t w3 w6 := (t4.trans t5).trans k6.th
            have t16 : Th t w1 w6 := t15.trans k6.th
            have fr'6 := t35.ext.fixed r' hr3.pub
            have fn6 := t16.ext.fixed node hold.pub
            have hpd6 : w6.pend r' = some t := (k6.pend r').2 (pd5 r' hrr' ((pd4 r').2 pd3))
            have hl6 : w6.lvl r' = w1.lvl node := by rw [fr'6.1, lv3, fn2.1]
            have ba6 : w6.Bare t := by
              intro s6 q hq
              obtain ⟨x1, x2⟩ := own5 q (k6.ownLe q (fun e => e) hq)
              obtain ⟨x3, x4⟩ := own4 q x1
              rcases own3 q x3 with e | e | e
              · exact x2 (x4 (Or.inl e))
              · exact x2 (x4 (Or.inr e))
              · by_cases en : q = node
                · exact x2 (x4 (Or.inl en))
                · exact hba ((k1.th.trans t16).wr.1.symm.trans s6) q (k1.ownLe q en (k2.ownLe q en e))
            refine (completeSplit_wp hr hb hnav f rest node r' key' w6 i6 (t16.ns (k1.noStaleT hns)) (t16.wr.2 (k1.wr.2 hg)) hpd6 (t16.ext.pub hold.pub)
              (by rw [fn6.1, hl6]) (fr'6.2.1.trans lo3) ?_ ba6).mono ?_
            · rw [hl6, hlv1, fr.1]
              have hbd : StackOk w1 (w1.lo node) (w.lvl r + 1 + 1) rest :=
                StackOk.bound i1 hold.st hold.heap hi1 (by rw [hlv1, fr.1]; omega) s4'
              refine (hbd.mono ?_).ext t16.ext
              have := Bd.lt_iff.1 sp.sepLo
              rw [fn2.2.1] at this
              exact le_of_lt this
            · rintro - w7 ⟨i7, t7, p7⟩
              refine ⟨i7, k1.th.trans (t16.trans t7), fun q hq => ?_⟩
              obtain ⟨a1, a2⟩ := p7 q hq
              obtain ⟨b1, b2⟩ := ps5 q ((k6.pend q).1 a2)
              rcases sub3 q ((pd4 q).1 b2) with e | e
              · exact absurd e a1
              · exact ⟨b1, (k1.pend q).1 ((k2.pend q).1 e)⟩
        · simp only [if_true]
          exact WP.ret ⟨i2, k1.th.trans t2, fun q hq => ⟨(ps2 q hq).1, (k1.pend q).1 (ps2 q hq).2⟩⟩

end CBlink
end BT
