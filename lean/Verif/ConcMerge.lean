import Verif.ConcSplit
import Verif.BlinkMerge

/-!
# Merges of the B-link trees under concurrency
-/

set_option linter.unusedSectionVars false

namespace BT
open Spec
variable {K V : Type} [LinearOrder K] {cfg : Cfg K} {L : Nat} {w w' : World K V} {t : Tid} {p : Ptr}

/-! ## Removing a page from the level above -/

theorem kids_iff {rs : List (Rec K V)} {h : Option K} {b : Bd K} {c : Ptr} : ∀ {r : Rec K V} {lo : Bd K},
    (b, c) ∈ kidsOf lo (slots (r :: rs) h) ↔ (b = lo ∧ c = r.toPtr) ∨ ∃ x ∈ rs, b = hiB x.key ∧ c = x.toPtr := by
  induction rs with
  | nil => intro r lo; simp [slots, kidsOf]
  | cons x rs ih =>
    intro r lo
    rw [slots_cons]
    simp only [kidsOf, List.mem_cons, hdKey, Prod.mk.injEq]
    rw [ih]
    constructor
    · rintro (h | h | ⟨y, hy, h⟩)
      · exact Or.inl h
      · exact Or.inr ⟨x, Or.inl rfl, h⟩
      · exact Or.inr ⟨y, Or.inr hy, h⟩
    · rintro (h | ⟨y, rfl | hy, h⟩)
      · exact Or.inl h
      · exact Or.inr (Or.inl h)
      · exact Or.inr (Or.inr ⟨y, hy, h⟩)

/-- Lower borders of children are in the range of the page. -/
theorem kidsOf_range {lo : Bd K} {n : Node K V} (h : NodeOk cfg true lo n) {b : Bd K} {c : Ptr}
    (hk : (b, c) ∈ kidsOf lo (slots n.recs n.high)) : lo ≤ b ∧ b < hiB n.high := by
  cases hrecs : n.recs with
  | nil => rw [hrecs] at hk; cases hk
  | cons r rs =>
    rw [hrecs, kids_iff] at hk
    rcases hk with ⟨rfl, -⟩ | ⟨x, hx, rfl, -⟩
    · exact ⟨le_refl _, Bd.lt_iff.1 h.lt⟩
    · obtain ⟨a, ha, h1, h2⟩ := h.inner.keyed x (by rw [hrecs]; exact hx)
      rw [ha]
      exact ⟨le_of_lt (Bd.lt_iff.1 h1), Bd.gtKey_iff'.1 h2⟩

/-- A removed child was the only one with its lower border. -/
theorem kidsOf_gone {lo : Bd K} {n : Node K V} (h : NodeOk cfg true lo n) {T D : List (Rec K V)} {r0 d : Rec K V}
    (hrecs : n.recs = T ++ r0 :: d :: D) {k : K} (hd : d.key = some k) (c : Ptr) :
    (.key k, c) ∉ kidsOf lo (slots (T ++ r0 :: D) n.high) := by
  obtain ⟨x, xs, hx⟩ : ∃ x xs, T ++ [r0] = x :: xs := by
    cases T with
    | nil => exact ⟨r0, [], rfl⟩
    | cons a T => exact ⟨a, T ++ [r0], rfl⟩
  have e1 : n.recs = x :: (xs ++ d :: D) := by
    rw [hrecs, ← List.cons_append, ← hx]; simp
  have e2 : T ++ r0 :: D = x :: (xs ++ D) := by
    rw [← List.cons_append, ← hx]; simp
  have hs := h.inner.sorted
  rw [e1] at hs
  simp only [List.tail_cons] at hs
  unfold KSorted at hs
  rw [List.pairwise_append, List.pairwise_cons] at hs
  rw [e2, kids_iff]
  rintro (⟨hb, -⟩ | ⟨y, hy, hb, -⟩)
  · obtain ⟨a, ha, h1, -⟩ := h.inner.keyed d (by rw [e1]; simp)
    rw [hd] at ha; cases ha
    have := Bd.lt_iff.1 h1
    rw [hb] at this
    exact lt_irrefl _ this
  · have hyk : y.key = some k := by
      cases hk : y.key with
      | none => rw [hk] at hb; cases hb
      | some a => rw [hk] at hb; cases hb; rfl
    rcases List.mem_append.1 hy with hy | hy
    · exact lt_irrefl _ (hs.2.2 y hy d (by simp) k hyk k hd)
    · exact lt_irrefl _ (hs.2.1.1 y hy k hd k hyk)

theorem Blink.deleteChild_ok (hr : Roomy cfg L) {n : Node K V} {lo : Bd K} (h : NodeOk cfg true lo n) {k : K} (hhi : .key k < hiB n.high) :
    ∃ rc n', Blink.deleteChild cfg n k = .ok (rc, n') ∧ (((rc = .abortMerge ∨ rc = .needRetry) ∧ n' = n ∧
        (rc = .needRetry → ∀ c, (.key k, c) ∉ kidsOf lo (slots n.recs n.high))) ∨
      ((rc = .needMerge ∨ rc = .completed) ∧ NodeOk cfg true lo n' ∧ SameFrame n n' ∧
        ∃ T r0 d D, n.recs = T ++ r0 :: d :: D ∧ d.key = some k ∧ n'.recs = T ++ r0 :: D)) := by
  unfold Blink.deleteChild
  by_cases h1 : n.rc ≤ 1
  · rw [if_pos h1]; exact ⟨_, _, rfl, Or.inl ⟨Or.inl rfl, rfl, by simp⟩⟩
  · rw [if_neg h1]
    obtain ⟨x, y, rest, hrecs⟩ : ∃ x y rest, n.recs = x :: y :: rest := by
      have : n.rc = n.recs.length := rfl
      rw [this] at h1
      cases hh : n.recs with
      | nil => rw [hh] at h1; simp at h1
      | cons x l =>
        cases l with
        | nil => rw [hh] at h1; simp at h1
        | cons y l => exact ⟨x, y, l, rfl⟩
    obtain ⟨k1, hk1, -⟩ := h.inner.keyed y (by rw [hrecs]; simp)
    have hget : n.recs[1]? = some y := by rw [hrecs]; rfl
    simp only [hget, hk1]
    by_cases h2 : k < k1
    · rw [if_pos h2]; exact ⟨_, _, rfl, Or.inl ⟨Or.inl rfl, rfl, by simp⟩⟩
    · rw [if_neg h2]
      obtain ⟨T, r, D, rc, c, e1, e2, e3, -, e4, e5, e6, e7⟩ := h.search_inner k (Bd.gtKey_iff'.2 hhi)
      rw [e2]
      simp only [Res.ok_bind]
      rcases e7 with ⟨rfl, hT, hk⟩ | ⟨rfl, hlt⟩
      · rw [if_neg (by simp)]
        obtain ⟨T', r0, rfl⟩ : ∃ T' r0, T = T' ++ [r0] := ⟨T.dropLast, T.getLast hT, (List.dropLast_append_getLast hT).symm⟩
        have e1' : n.recs = T' ++ r0 :: r :: D := by rw [e1]; simp
        obtain ⟨n2, d1, d2, d3, d4, -⟩ := dropChild_ok (L := L) h e1'
        obtain ⟨need, n3, m1, m2, m3⟩ := blinkNeedMerge_ok hr d2
        rw [List.length_append, List.length_singleton, d1]
        simp only [Res.ok_bind, m1]
        refine ⟨_, n3, rfl, Or.inr ⟨by cases need <;> simp, m2, ⟨m3.frame.isInner.trans d3.isInner, m3.frame.removed.trans d3.removed,
          m3.frame.low.trans d3.low, m3.frame.high.trans d3.high, m3.frame.next.trans d3.next⟩, T', r0, r, D, e1', hk, ?_⟩⟩
        rw [m3.recs d2.kind]; exact d4
      · rw [if_pos rfl]
        refine ⟨_, _, rfl, Or.inl ⟨Or.inr rfl, rfl, fun _ c hc => ?_⟩⟩
        rw [hrecs, kids_iff] at hc
        rcases hc with ⟨hb, -⟩ | ⟨z, hz, hb, -⟩
        · obtain ⟨a, ha, g1, -⟩ := h.inner.keyed y (by rw [hrecs]; simp)
          rw [hk1] at ha; cases ha
          have := Bd.lt_iff.1 g1
          rw [← hb] at this
          exact h2 (Bd.key_lt_key.1 this)
        · have hzk : z.key = some k := by
            cases hk : z.key with
            | none => rw [hk] at hb; cases hb
            | some a => rw [hk] at hb; cases hb; rfl
          have hD : z ∉ D := fun hz => lt_irrefl _ (e4 z hz k hzk)
          cases T with
          | nil =>
            rw [hrecs] at e1
            injection e1 with e1 e1'
            rw [← e1'] at hD
            exact hD hz
          | cons x' T =>
            rw [hrecs, List.cons_append] at e1
            injection e1 with e1 e1'
            obtain ⟨a, ha, hak⟩ := hlt (by simp)
            have hs := h.inner.sorted
            rw [hrecs, List.tail_cons, e1'] at hs
            unfold KSorted at hs
            rw [List.pairwise_append] at hs
            rw [e1'] at hz
            rcases List.mem_append.1 hz with hz | hz
            · exact lt_asymm hak (hs.2.2 z hz r (by simp) k hzk a ha)
            · rcases List.mem_cons.1 hz with rfl | hz
              · rw [hzk] at ha; cases ha; exact lt_irrefl _ hak
              · exact hD hz

/-- Thread `t` has no more pages to link than before. -/
def PendLe (t : Tid) (w w' : World K V) : Prop := ∀ q, w'.pend q = some t → w.pend q = some t

theorem PendLe.refl (t : Tid) (w : World K V) : PendLe t w w := fun _ h => h
theorem PendLe.trans {w1 w2 : World K V} (h : PendLe t w w1) (h' : PendLe t w1 w2) : PendLe t w w2 := fun q e => h q (h' q e)
theorem Kp.pendLe {E : Ptr → Prop} (h : Kp t E w w') : PendLe t w w' := fun q e => (h.pend q).1 e

/-- Thread `t` has linked all pages. -/
def World.Clean (w : World K V) (t : Tid) : Prop := w.NoPend t

theorem World.Clean.le (h : w.Clean t) (hp : PendLe t w w') : w'.Clean t := fun q e => h q (hp q e)

/-- A page on the highest level has no right sibling if every page is linked. -/
theorem CInv.top_high (hI : CInv cfg w) {n : Node K V} (hs : w.solo = true) (hg : w.Wr t) (hc : w.Clean t) (hp : w.st p = .live)
    (hn : w.heap p = some n) (hlvl : w.lvl p = w.top) : n.high = none := by
  have hb : cfg.blink = true := by
    have := (hI.solo hs).1
    rw [hI.strict] at this
    simpa using this
  rcases (hI.page hp hn).nextB (Or.inl hb) with ⟨e, -⟩ | ⟨h, q, -, -, c, d, e⟩
  · exact e
  · exfalso
    rcases hI.full q c with hh | hh | ⟨x, m, b, x1, x2, x3, x4⟩
    · rw [e] at hh; cases hh
    · cases hu : w.pend q with
      | none => exact hh hu
      | some u =>
        have h1 := (hI.solo hs).2.1 q u hu
        rw [hg hs] at h1
        cases h1
        exact hc q hu
    · obtain ⟨i, hi⟩ := Nat.exists_eq_succ_of_ne_zero x3
      obtain ⟨-, k2, -⟩ := (hI.page x1 x2).kids i hi _ _ x4
      have := hI.lvle x x1
      omega

/-- The parent forgets page `r`. -/
theorem ok_unlink (hI : CInv cfg w) {r : Ptr} {n n' : Node K V} {k : K} (h : HoldX w t p n) (hlvl : w.lvl p = w.lvl r + 1)
    (hlive : w.st r = .live) (hlo : w.lo r = .key k) (hf : SameFrame n n') (hok : NodeOk cfg true (w.lo p) n')
    {T D : List (Rec K V)} {r0 d : Rec K V} (hn : n.recs = T ++ r0 :: d :: D) (hd : d.key = some k) (hn' : n'.recs = T ++ r0 :: D) :
    ∃ w2 : World K V, w2.mem = w.mem.setHeap p n' ∧ OkB cfg t w w2 ∧ Th t w w2 ∧ w2.pend r = some t ∧
      (∀ q m, q ≠ p → Hold w t q m → Hold w2 t q m) ∧ HoldX w2 t p n' ∧ (∀ q, w2.pend q = some t → q = r ∨ w.pend q = some t) := by
  have pg := hI.page h.st h.heap
  have hokn := pg.ok
  rw [decide_eq_true (by omega : w.lvl p ≠ 0)] at hokn
  have hdk : (.key k, d.toPtr) ∈ kidsOf (w.lo p) (slots n.recs n.high) := by
    have := kids_mem (T := T ++ [r0]) (D := D) (r0 := d) (lo := w.lo p) (hi := n.high) (by simp)
    rw [hn]
    rw [hd] at this
    simpa using this
  have hdr : d.toPtr = r := by
    obtain ⟨a, b, c⟩ := pg.kids (w.lvl r) hlvl _ _ hdk
    exact hI.same_lo a hlive b (c.trans hlo.symm)
  rw [hdr] at hdk
  have hsub : ∀ b c, (b, c) ∈ kidsOf (w.lo p) (slots n'.recs n'.high) → (b, c) ∈ kidsOf (w.lo p) (slots n.recs n.high) := by
    intro b c hc
    rw [hn', hf.high] at hc
    rw [hn, kids_drop]; exact Or.inl hc
  have o := ok_page (ps' := w.ps) (n' := n') hI h.x h.st h.heap hf.high (Spec.upd w.pend r (some t)) (fun _ hp => hp) (le_refl _) (fun _ _ => rfl)
    (fun _ _ => rfl) (fun _ _ _ _ _ _ _ _ _ => rfl) (by
      refine ⟨by rw [decide_eq_true (by omega)]; exact hok, by rw [hf.high, hf.next]; exact pg.next, fun i hi b c hc => ?_, fun h0 => by omega⟩
      exact pg.kids i hi b c (hsub b c hc)) (by
      intro q u hu
      by_cases e : q = r
      · subst e
        rw [Spec.upd_same]
        constructor
        · intro e; exact absurd (Option.some.inj e).symm hu
        · intro e
          exact absurd hdk ((hI.pend q u e).2.2 p n _ h.st h.heap (by omega))
      · rw [Spec.upd_ne _ _ e]) (by
      intro q u hq
      by_cases e : q = r
      · subst e
        refine ⟨hlive, ⟨k, hlo⟩, fun x m bb hx hm h0 hk => ?_⟩
        by_cases ex : x = p
        · subst ex
          rw [setHeap_same] at hm; cases hm
          have hb : bb = .key k := by
            obtain ⟨-, -, c⟩ := pg.kids (w.lvl q) hlvl _ _ (hsub _ _ hk)
            exact c.symm.trans hlo
          rw [hb, hn', hf.high] at hk
          exact kidsOf_gone hokn hn hd _ hk
        · have hm' : w.heap x = some m := (setHeap_ne _ _ ex).symm.trans hm
          have pgx := hI.page hx hm'
          have hokx := pgx.ok
          rw [decide_eq_true h0] at hokx
          obtain ⟨i, hi⟩ := Nat.exists_eq_succ_of_ne_zero h0
          obtain ⟨-, b, c⟩ := pgx.kids i hi _ _ hk
          have hr1 := kidsOf_range hokx hk
          have hr2 := kidsOf_range hokn hdk
          rw [hlo] at c
          rw [← c] at hr1
          exact ex (hI.same_page hx h.st (by rw [hi, hlvl, b]) hm' h.heap hr1.1 hr1.2 hr2.1 hr2.2)
      · rw [Spec.upd_ne _ _ e] at hq
        obtain ⟨a, b, c⟩ := hI.pend q u hq
        refine ⟨a, b, fun x m bb hx hm h0 hk => ?_⟩
        by_cases ex : x = p
        · subst ex
          rw [setHeap_same] at hm; cases hm
          exact c x n bb hx h.heap h0 (hsub _ _ hk)
        · exact c x m bb hx ((setHeap_ne _ _ ex).symm.trans hm) h0 hk) h.wr (by
      intro _ b c hc
      rw [hn, kids_drop] at hc
      rcases hc with hc | hc
      · left; rw [hn', hf.high]; exact hc
      · right
        cases hc
        rw [hdr, Spec.upd_same]; simp) (by
      intro c hc
      left
      by_cases e : c = r
      · subst e; rw [Spec.upd_same]; simp
      · rw [Spec.upd_ne _ _ e]; exact hc)
  refine ⟨_, rfl, o, ⟨OkB.ext o, rfl, fun e => e, rfl, id⟩, Spec.upd_same _ _ _, fun q m hq hh => ⟨hh.six, hh.st, (setHeap_ne _ _ hq).trans hh.heap, hh.wr⟩,
    ⟨h.x, h.st, setHeap_same _ _ _, h.wr⟩, fun q hq => ?_⟩
  have hq : Spec.upd w.pend r (some t) q = some t := hq
  by_cases e : q = r
  · exact Or.inl e
  · rw [Spec.upd_ne _ _ e] at hq; exact Or.inr hq

/-- When there is one writer at a time, the pages outside `E` keep their contents. -/
def Calm (E : Ptr → Prop) (w w' : World K V) : Prop := w.solo = true → ∀ q, ¬ E q → w.Pub q → w'.heap q = w.heap q

theorem Kp.calmE {E : Ptr → Prop} (k : Kp t E w w') (hw : w.Wr t) : Calm E w w' := fun hs q he hq => k.calm hs hw q he hq
theorem Calm.trans {E : Ptr → Prop} {w1 w2 : World K V} (h : Calm E w w1) (h' : Calm E w1 w2) (e : Th t w w1) : Calm E w w2 :=
  fun hs q he hq => (h' (e.wr.1.trans hs) q he (e.ext.pub hq)).trans (h hs q he hq)
theorem Calm.mono {E E' : Ptr → Prop} (h : Calm E w w') (he : ∀ q, E q → E' q) : Calm E' w w' :=
  fun hs q hq => h hs q (fun e => hq (he q e))

/-- A path stays in the tree while the only writer changes a leaf. -/
theorem Up.over {s : List Ptr} {σ : Bd K} {leaf q : Ptr} (h : Up w s leaf) (hI : CInv cfg w) (hI' : CInv cfg w') (e : Ext w w') (hso : w'.solo = w.solo)
    (hw : w'.Wr t) (hns : w'.NoStale t) (hlv : w.lvl leaf = 0) (hlv' : w'.lvl q = 0) (hs : StackOk w σ 1 s) (hp : w.Pub leaf)
    (hc : Calm (· = q) w w') (hr : w.solo = true → w'.mem.root = w.mem.root) : Up w' s q := by
  intro hs'
  have so := hso.symm.trans hs'
  obtain ⟨a, b⟩ := h so
  refine ⟨fun c hc' => ⟨e.pub (a c hc').1, ?_⟩, fun e' => ?_⟩
  · obtain ⟨cp, cg⟩ := a c hc'
    have cl := (hI.rep c cp).1.resolve_right cg
    have clv := (hI.rep c cp).2.1
    have cge : 1 ≤ w.lvl c := ((hs.mem hc').2).resolve_left cg
    refine e.not_gone hI hI' hs' hw hns cp (hc so _ ?_ (World.pub_live cl)) cg
    intro e1
    have := (e.fixed _ (World.pub_live cl)).1
    rw [e1] at this
    rw [e1] at clv
    omega
  · rw [hr so, (e.fixed _ hI.root_pub).1, ← b e', hlv']; exact hlv.symm

namespace CBlink

theorem deleteChild_wp (hr : Roomy cfg L) (hI : CInv cfg w) {n : Node K V} {r : Ptr} {k : K} (h : Hold w t p n)
    (hlvl : w.lvl p = w.lvl r + 1) (hown : w.Own t r) (hlive : w.st r = .live) (hlo : w.lo r = .key k) (h2 : .key k < hiB n.high) :
    WP cfg t (deleteChild cfg p k) (fun rc w' => CInv cfg w' ∧ Th t w w' ∧ (∀ q m, q ≠ p → Hold w t q m → Hold w' t q m) ∧
      (((rc = .abortMerge ∨ rc = .needRetry) ∧ PendLe t w w' ∧
        (rc = .needRetry → ∀ c, (.key k, c) ∉ kidsOf (w.lo p) (slots n.recs n.high))) ∨
       (rc = .needMerge ∧ w'.pend r = some t ∧ (∃ n', Hold w' t p n' ∧ n'.high = n.high) ∧ (∀ q, w'.pend q = some t → q = r ∨ w.pend q = some t) ∧
        (∀ q, w'.Own t q → w.Own t q) ∧ Calm (· = p) w w') ∨
       (rc = .completed ∧ w'.pend r = some t ∧ ∀ q, w'.pend q = some t → q = r ∨ w.pend q = some t))) w := by
  have pg := hI.page h.st h.heap
  have hok := pg.ok
  rw [decide_eq_true (by omega : w.lvl p ≠ 0)] at hok
  have hpr : r ≠ p := by rintro rfl; omega
  obtain ⟨rc, n', e1, e2⟩ := Blink.deleteChild_ok hr hok h2
  unfold deleteChild
  refine h.load fun w1 r1 i1 h1 => WP.lift e1 ?_
  rcases e2 with ⟨hrc, rfl, hret⟩ | ⟨hrc, e2, e3, T, r0, d, D, e4, e5, e6⟩
  · have : WP cfg t (do Prog.unlockSIX p; return rc) (fun rc w' => CInv cfg w' ∧ Th t w w' ∧
        (∀ q m, q ≠ p → Hold w t q m → Hold w' t q m) ∧ (((rc = .abortMerge ∨ rc = .needRetry) ∧ PendLe t w w' ∧
        (rc = .needRetry → ∀ c, (.key k, c) ∉ kidsOf (w.lo p) (slots n'.recs n'.high))) ∨
       (rc = .needMerge ∧ w'.pend r = some t ∧ (∃ n'', Hold w' t p n'' ∧ n''.high = n'.high) ∧ (∀ q, w'.pend q = some t → q = r ∨ w.pend q = some t) ∧
        (∀ q, w'.Own t q → w.Own t q) ∧ Calm (· = p) w w') ∨
       (rc = .completed ∧ w'.pend r = some t ∧ ∀ q, w'.pend q = some t → q = r ∨ w.pend q = some t))) w1 :=
      h1.unlock fun w2 k2 i2 _ _ => WP.ret ⟨i2, r1.kp.th.trans k2.th, fun q m hq hh => (hh.rely r1).kp k2 hq,
        Or.inl ⟨hrc, r1.kp.pendLe.trans k2.pendLe, hret⟩⟩
    rcases hrc with rfl | rfl <;> exact this
  · -- the page is written
    have key : ∀ w4, CInv cfg w4 → Kp t (· = p) w w4 → HoldX w4 t p n → ∃ w5 : World K V, w5.mem = w4.mem.setHeap p n' ∧ OkB cfg t w4 w5 ∧
        Th t w4 w5 ∧ w5.pend r = some t ∧ (∀ q m, q ≠ p → Hold w4 t q m → Hold w5 t q m) ∧ HoldX w5 t p n' ∧
        (∀ q, w5.pend q = some t → q = r ∨ w4.pend q = some t) := by
      intro w4 i4 k4 h4
      have fp := k4.ext.fixed p h.pub
      have fr := k4.ext.fixed r (World.pub_live hlive)
      exact ok_unlink i4 h4 (by rw [fp.1, fr.1]; exact hlvl) ((k4.own r hpr hown).2.trans hlive) (fr.2.1.trans hlo) e3
        (by rw [fp.2.1]; exact e2) e4 e5 e6
    rcases hrc with rfl | rfl
    · simp only [commit]
      refine h1.upgrade fun w3 k3 i3 h3 => h3.store fun w4 r4 i4 h4 => ?_
      have k4 : Kp t (· = p) w w4 := ((r1.kpE _).trans k3).trans (r4.kpE _)
      obtain ⟨w5, m5, o5, t5, p5, ho5, h5, ps5⟩ := key w4 i4 k4 h4
      refine ⟨w5, m5, o5, h5.downgrade fun w6 k6 i6 h6 => WP.ret ⟨i6, (k4.th.trans t5).trans k6.th,
        fun q m hq hh => (ho5 q m hq (hh.kp k4 hq)).kp k6 hq, Or.inr (Or.inl ⟨rfl, (k6.pend r).2 p5, ⟨n', h6, e3.high⟩,
          fun q hq => (ps5 q (k6.pendLe q hq)).imp id (k4.pendLe q), fun q hq => ?_, ?_⟩)⟩⟩
      · by_cases e : q = p
        · subst e; exact h.own
        · have h5 := k6.ownLe q e hq
          exact k4.ownLe q e (by unfold World.Own World.lk at h5 ⊢; rw [m5] at h5; exact h5)
      · refine (k4.calmE h.wr).trans (Calm.trans (fun _ q e _ => ?_) (k6.calmE (t5.wr.2 h4.wr)) t5) k4.th
        unfold World.heap; rw [m5]; exact setHeap_ne _ _ e
    · simp only [commit]
      refine h1.upgrade fun w3 k3 i3 h3 => h3.store fun w4 r4 i4 h4 => ?_
      have k4 : Kp t (· = p) w w4 := ((r1.kpE _).trans k3).trans (r4.kpE _)
      obtain ⟨w5, m5, o5, t5, p5, ho5, h5, ps5⟩ := key w4 i4 k4 h4
      refine ⟨w5, m5, o5, h5.unlock fun w6 k6 i6 _ _ => WP.ret ⟨i6, (k4.th.trans t5).trans k6.th,
        fun q m hq hh => (ho5 q m hq (hh.kp k4 hq)).kp k6 hq, Or.inr (Or.inr ⟨rfl, (k6.pend r).2 p5,
          fun q hq => (ps5 q (k6.pendLe q hq)).imp id (k4.pendLe q)⟩)⟩⟩

/-! ## Merging two pages -/

theorem mergeInto_wp (hr : Roomy cfg L) (hb : cfg.blink = true) (hI : CInv cfg w) (hns : w.NoStale t) {l r : Ptr} {ln rn : Node K V} (hl : Hold w t l ln)
    (hh : Hold w t r rn) (hnx : ln.next = some r) (hpd : w.pend r = some t) (hcan : ln.canMerge cfg rn = true) :
    WP cfg t (mergeInto cfg l r) (fun _ w' => CInv cfg w' ∧ Th t w w' ∧ PendSub t r w w' ∧
      (∀ q m, q ≠ l → q ≠ r → Hold w t q m → Hold w' t q m) ∧ (∀ q, w'.Own t q → w.Own t q ∧ q ≠ l ∧ q ≠ r) ∧
      Calm (fun q => q = l ∨ q = r) w w' ∧ ∃ τ, w'.st r = .merged τ l) w := by
  have pl := hI.page hl.st hl.heap
  have pr := hI.page hh.st hh.heap
  obtain ⟨hk, hhk, hlvr, hlor⟩ : ∃ h, ln.high = some h ∧ w.lvl r = w.lvl l ∧ w.lo r = .key h := by
    rcases pl.nextB (Or.inl hb) with ⟨-, e⟩ | ⟨h, q, a, b, c, d, e⟩
    · rw [hnx] at e; cases e
    · rw [hnx] at b; cases b; exact ⟨h, a, d, e⟩
  have hlr : l ≠ r := by
    rintro rfl
    have := hI.lo_lt hl.st hl.heap
    rw [hhk, hlor] at this
    exact lt_irrefl _ this
  have hrok := pr.ok
  rw [hlor, hlvr] at hrok
  obtain ⟨n, e1, mp⟩ := merge_ok hr pl.ok (by rw [hhk]; exact hrok) hcan
  unfold mergeInto
  refine hl.load fun w1 r1 i1 l1 => ?_
  have q1 := hh.rely r1
  refine q1.load fun w2 r2 i2 q2 => ?_
  have l2 := l1.rely r2
  refine WP.lift e1 ?_
  refine l2.upgrade fun w3 k3 i3 l3 => ?_
  have q3 := q2.kp k3 (Ne.symm hlr)
  refine l3.store fun w4 r4 i4 l4 => ?_
  have q4 := q3.rely r4
  have k4 : Kp t (· = l) w w4 := (((r1.kpE _).trans (r2.kpE _)).trans k3).trans (r4.kpE _)
  have fl := k4.ext.fixed l hl.pub
  have o5 := ok_merge i4 l4.x l4.st l4.heap hnx q4.st q4.heap q4.six ((k4.pend r).2 hpd) hb (k4.noStaleT hns) (n := n) (L := L) (by rw [fl.1, fl.2.1]; exact mp)
  refine ⟨_, rfl, o5, ?_⟩
  set w5 := w4.merge t l r n with hw5
  have st5 : w5.st = Spec.upd w4.st r (.stale w4.now l t) := rfl
  have l5 : HoldX w5 t l n := ⟨l4.x, by rw [st5, Spec.upd_ne _ _ hlr]; exact l4.st, setHeap_same _ _ _, l4.wr⟩
  have six5 : (w5.lk r).six = some t := q4.six
  have sr5 : w5.st r = .stale w4.now l t := by rw [st5, Spec.upd_same]
  have hr5 : w5.heap r = some rn := (setHeap_ne _ _ (Ne.symm hlr)).trans q4.heap
  refine l5.unlock fun w6 k6 i6 no6 _ => ?_
  obtain ⟨hr6, sr6⟩ := k6.own r (Ne.symm hlr) (Or.inl six5)
  have six6 : (w6.lk r).six = some t := (k6.six r (Ne.symm hlr)).2 six5
  have pub6 : w6.Pub r := by unfold World.Pub; rw [sr6, sr5]; trivial
  refine WP.upgradeX (Or.inl pub6) six6 fun w7 k7 i7 _ x7 hr7 sr7 => ?_
  refine WP.store x7 (fun _ => ⟨k7.ext.pub pub6, by unfold World.Dead; rw [sr7, sr6, sr5]; exact id⟩) fun w8 r8 i8 x8 hr8 sr8 => ?_
  have sr8' : w8.st r = .stale w4.now l t := sr8.trans (sr7.trans (sr6.trans sr5))
  have o9 := ok_mark i8 x8 sr8' (hr8.trans (hr7.trans (hr6.trans hr5))) (r8.kp.wr.2 (k7.wr.2 (k6.wr.2 l5.wr)))
  refine ⟨_, rfl, o9, ?_⟩
  set w9 := w8.mark r { rn with removed := true, next := some l } w4.now l with hw9
  have st9 : w9.st = Spec.upd w8.st r (.merged w4.now l) := rfl
  have sr9 : w9.st r = .merged w4.now l := by rw [st9, Spec.upd_same]
  refine WP.unit (WP.unlockX (by unfold World.Pub; rw [sr9]; trivial) (show (w9.lk r).x = some t from x8) (by intro _ _; rw [sr9]; simp)
    fun w10 k10 i10 _ no10 => WP.ret ⟨i10, ⟨?_, ?_, ?_, ?_⟩, ?_, ?_, ?_, ?_, w4.now, ?_⟩)
  · exact (((((k4.ext.trans (OkB.ext o5)).trans k6.ext).trans k7.ext).trans r8.kp.ext).trans (OkB.ext o9)).trans k10.ext
  · exact k10.ph.trans (r8.kp.ph.trans (k7.ph.trans (k6.ph.trans k4.ph)))
  · refine fun ns => ⟨fun q τ c hq => ?_, fun e => ns.2 (k4.shr.1 (k6.shr.1 (k7.shr.1 (r8.kp.shr.1 (k10.shr.1 e)))))⟩
    rw [k10.noStale, st9] at hq
    by_cases e : q = r
    · subst e; rw [Spec.upd_same] at hq; cases hq
    · rw [Spec.upd_ne _ _ e, r8.kp.noStale, k7.noStale, k6.noStale, st5, Spec.upd_ne _ _ e, k4.noStale] at hq
      exact ns.1 q τ c hq
  · exact ⟨k10.wr.1.trans (r8.kp.wr.1.trans (k7.wr.1.trans (k6.wr.1.trans k4.wr.1))),
      fun e => k10.wr.2 (r8.kp.wr.2 (k7.wr.2 (k6.wr.2 (k4.wr.2 e))))⟩
  · intro q hq
    have hq : Spec.upd w4.pend r none q = some t := k6.pendLe q (k7.pendLe q (r8.kp.pendLe q (k10.pendLe q hq)))
    by_cases e : q = r
    · subst e; rw [Spec.upd_same] at hq; cases hq
    · rw [Spec.upd_ne _ _ e] at hq; exact ⟨e, k4.pendLe q hq⟩
  · intro q m hql hqr hq
    have h4 := hq.kp k4 hql
    have h5 : Hold w5 t q m := ⟨h4.six, by rw [st5, Spec.upd_ne _ _ hqr]; exact h4.st, (setHeap_ne _ _ hql).trans h4.heap, h4.wr⟩
    have h8 := ((h5.kp k6 hql).kp k7 hqr).rely r8
    have h9 : Hold w9 t q m := ⟨h8.six, by rw [st9, Spec.upd_ne _ _ hqr]; exact h8.st, (setHeap_ne _ _ hqr).trans h8.heap, h8.wr⟩
    exact h9.kp k10 hqr
  · intro q hq
    have hqr : q ≠ r := by rintro rfl; exact no10 hq
    have h9 : w8.Own t q := k10.ownLe q hqr hq
    have h6 := k7.ownLe q hqr (r8.kp.ownLe q (fun e => e) h9)
    have hql : q ≠ l := by rintro rfl; exact no6 h6
    have h5 : w4.Own t q := k6.ownLe q hql h6
    exact ⟨k4.ownLe q hql h5, hql, hqr⟩
  · intro hs q hq hp
    rw [not_or] at hq
    have s4 : w4.solo = true := k4.wr.1.trans hs
    have s5 : w5.solo = true := s4
    have s6 := k6.wr.1.trans s5
    have s7 := k7.wr.1.trans s6
    have s8 := r8.kp.wr.1.trans s7
    have p4 := k4.ext.pub hp
    have p5 := (OkB.ext o5).pub p4
    have p6 := k6.ext.pub p5
    have p7 := k7.ext.pub p6
    have p8 := r8.kp.ext.pub p7
    have p9 := (OkB.ext o9).pub p8
    have wr6 := k6.wr.2 l5.wr
    have wr8 := r8.kp.wr.2 (k7.wr.2 wr6)
    have e9 : w9.heap q = w8.heap q := setHeap_ne _ _ hq.2
    have e5 : w5.heap q = w4.heap q := setHeap_ne _ _ hq.1
    rw [k10.calm s8 wr8 q hq.2 p9, e9, r8.kp.calm s7 (k7.wr.2 wr6) q (fun e => e) p7, k7.calm s6 wr6 q hq.2 p6,
      k6.calm s5 l5.wr q hq.1 p5, e5, k4.calm hs hl.wr q hq.1 hp]
  · have := k10.ext.st r
    rw [sr9] at this
    exact this

/-! ## Shrinking the tree -/

/-- A page that `TryShrinkTree` may remove if it has no right sibling. -/
def Shr (w : World K V) (t : Tid) (old node : Ptr) (n : Node K V) : Prop :=
  n.high = none → w.mem.root = old ∧ w.lvl node = w.top ∧ w.lo node = .bot ∧ (old = node ∨ w.shr = some t)

theorem Shr.keep {E : Ptr → Prop} {old node : Ptr} {n : Node K V} (h : Shr w t old node n) (ho : w.Own t node) (hs : w.st node = .live)
    (hn : w.heap node = some n) (hk : Kp t E w w') (hr : RootK t w w') : Shr w' t old node n := by
  intro hh
  obtain ⟨a, b, c, d⟩ := h hh
  obtain ⟨f1, f2, -⟩ := hk.ext.fixed node (World.pub_live hs)
  have hroot : w'.mem.root = w.mem.root ∧ w'.top = w.top := by
    rcases d with d | d
    · refine hr.2.1 n ?_ ?_ ?_ (Or.inr hh) <;> rw [a, d] <;> assumption
    · exact hr.1 d
  exact ⟨hroot.1.trans a, by rw [f1, hroot.2]; exact b, f2.trans c, d.imp id hk.shr.2⟩

theorem shrinkLoop_wp (hb : cfg.blink = true) {old : Ptr} : ∀ (f : Nat) (node : Ptr) (n : Node K V) (w : World K V), CInv cfg w → Hold w t node n →
    w.lvl node ≠ 0 → Shr w t old node n → n.recs.length = 1 → w.Clean t → (w.solo = true → n.high = none) → w.Only t node →
    WP cfg t (shrinkLoop old f node) (fun c w' => CInv cfg w' ∧ Th0 t w w' ∧ w'.shr ≠ some t ∧ PendLe t w w' ∧ ∃ m, Hold w' t c m) w
  | 0, _, _, _, _, _, _, _, _, _, _, _ => WP.stuck
  | f + 1, node, n, w, hI, h, hlvl, hsh, hone, hcl, htop, hon => by
    unfold shrinkLoop removeRoot
    refine WP.retire h.pub (fun e => absurd e hlvl) fun w1 k1 i1 rk1 => ?_
    have h1 := h.kp k1 (fun e => e)
    have sh1 := hsh.keep h.own h.st h.heap k1 rk1
    refine WP.bind ?_
    refine WP.upgradeX (Or.inl h1.pub) h1.six fun w2 k2 i2 rk2 x2 e2 s2 => ?_
    have h2 : HoldX w2 t node n := ⟨x2, s2.trans h1.st, e2.trans h1.heap, k2.wr.2 h1.wr⟩
    have sh2 := sh1.keep h1.own h1.st h1.heap k2 rk2
    refine h2.load fun w3 r3 i3 h3 => ?_
    have sh3 := sh2.keep h2.own h2.st h2.heap r3.kp r3.rootK
    refine WP.note (fun s3 => by rw [htop (k1.wr.1.symm.trans (k2.wr.1.symm.trans (r3.kp.wr.1.symm.trans s3)))]; rfl) fun hno w4 r4 i4 => ?_
    have h4 := h3.rely r4
    have sh4 := sh3.keep h3.own h3.st h3.heap r4.kp r4.rootK
    have hhi : n.high = none := by cases hh : n.high with
      | none => rfl
      | some a => rw [hh] at hno; cases hno
    have t4 : Th0 t w w4 := ((k1.th0.trans k2.th0).trans r3.kp.th0).trans r4.kp.th0
    have lv4 : w4.lvl node = w.lvl node := (t4.ext.fixed node h.pub).1
    have pg4 := i4.page h4.st h4.heap
    have hok := pg4.ok
    rw [decide_eq_true (by rw [lv4]; exact hlvl)] at hok
    obtain ⟨i, hi⟩ := Nat.exists_eq_succ_of_ne_zero hlvl
    obtain ⟨r, rs, hrecs⟩ := List.exists_cons_of_ne_nil hok.inner.ne
    obtain ⟨pc, hpc⟩ := hok.inner.ptrs r (by rw [hrecs]; simp)
    refine WP.lift (getChild_zero hrecs hpc) ?_
    set child := r.toPtr with hchild
    have hkid : ∀ x : World K V, CInv cfg x → x.st node = .live → x.heap node = some n → x.lvl node = i + 1 →
        x.st child = .live ∧ x.lvl child = i ∧ x.lo child = x.lo node := by
      intro x ix sx hx lx
      exact (ix.page sx hx).kids i lx _ _ (by rw [hrecs, slots_cons]; simp [kidsOf, hchild])
    obtain ⟨c1, c2, c3⟩ := hkid w4 i4 h4.st h4.heap (lv4.trans hi)
    have hne : node ≠ child := by
      intro e
      rw [← e, lv4, hi] at c2; omega
    have on4 : w4.Only t node := (((hon.kp k1 (fun _ e => e.elim)).kp k2 (fun _ e => e)).kp r3.kp (fun _ e => e.elim)).kp r4.kp (fun _ e => e.elim)
    refine WP.lockSIX (World.pub_live c1) (fun s4 ho => hne (on4 s4 _ ho).symm) (fun e => by rw [hb] at e; cases e) fun w5 _ k5 i5 rk5 six5 => ?_
    have h5 := h4.kp k5 hne
    have sh5 := sh4.keep h4.own h4.st h4.heap k5 rk5
    have t5 := t4.trans k5.th0
    have lv5 : w5.lvl node = i + 1 := ((t5.ext.fixed node h.pub).1).trans hi
    obtain ⟨c1', c2', c3'⟩ := hkid w5 i5 h5.st h5.heap lv5
    obtain ⟨cn, hcn⟩ := i5.some_of_pub (World.pub_live c1')
    have hc5 : Hold w5 t child cn := ⟨six5, c1', hcn, k5.wr.2 h4.wr⟩
    refine h5.store fun w6 r6 i6 h6 => ?_
    have hc6 := hc5.rely r6
    have sh6 := sh5.keep h5.own h5.st h5.heap r6.kp r6.rootK
    obtain ⟨s1, s2', s3, s4⟩ := sh6 hhi
    have lv6 : w6.lvl node = i + 1 := ((r6.kp.ext.fixed node h5.pub).1).trans lv5
    have o7 := ok_removeRoot i6 h6.x h6.st h6.heap s2' (by rw [lv6]; omega) s3 hhi (s4.imp (fun e => s1.trans e) id) hone h6.wr
    refine ⟨_, rfl, o7, ?_⟩
    set w7 := w6.removeRoot t node { n with removed := true, next := none } with hw7
    have st7 : w7.st = Spec.upd w6.st node .gone := rfl
    have hc7 : Hold w7 t child cn := ⟨hc6.six, by rw [st7, Spec.upd_ne _ _ (Ne.symm hne)]; exact hc6.st,
      (setHeap_ne _ _ (Ne.symm hne)).trans hc6.heap, hc6.wr⟩
    have sn7 : w7.st node = .gone := by rw [st7, Spec.upd_same]
    have t7 : Th0 t w6 w7 := ⟨OkB.ext o7, rfl, fun ns q τ c hq => by
      rw [st7] at hq
      by_cases e : q = node
      · subst e; rw [Spec.upd_same] at hq; cases hq
      · rw [Spec.upd_ne _ _ e] at hq; exact ns q τ c hq, rfl, id⟩
    refine WP.unlockX (by unfold World.Pub; rw [sn7]; trivial) (show (w7.lk node).x = some t from h6.x) (by intro _ _; rw [sn7]; simp)
      fun w8 k8 i8 rk8 no8 => ?_
    have on8 : w8.Only t child := by
      intro s8 q hq
      have hqn : q ≠ node := by rintro rfl; exact no8 hq
      have h6 : w6.Own t q := k8.ownLe q hqn hq
      by_contra e
      have s4 : w4.solo = true := k5.wr.1.symm.trans (r6.kp.wr.1.symm.trans (k8.wr.1.symm.trans s8))
      exact hqn (on4 s4 q (k5.ownLe q e (r6.kp.ownLe q (fun e => e) h6)))
    have hc8 := hc7.kp k8 (Ne.symm hne)
    have t8 : Th0 t w w8 := ((t5.trans r6.kp.th0).trans t7).trans k8.th0
    have pl8 : PendLe t w w8 := (((((k1.pendLe.trans k2.pendLe).trans r3.kp.pendLe).trans r4.kp.pendLe).trans k5.pendLe).trans
      r6.kp.pendLe).trans (PendLe.trans (w1 := w7) (fun _ h => h) k8.pendLe)
    obtain ⟨g1, g2⟩ := rk8.1 (rfl : w7.shr = some t)
    have fc6 := r6.kp.ext.fixed child hc5.pub
    have fc7 := t7.ext.fixed child hc6.pub
    have fc8 := k8.ext.fixed child hc7.pub
    have top7 : w7.top = w6.top - 1 := rfl
    have lvc : w8.lvl child = w8.top := by
      rw [fc8.1, fc7.1, fc6.1, c2', g2, top7, ← s2', lv6]; omega
    have loc : w8.lo child = .bot := by
      rw [fc8.2.1, fc7.2.1, fc6.2.1, c3', ← (r6.kp.ext.fixed node h5.pub).2.1]; exact s3
    have shr8 : w8.shr = some t := k8.shr.2 rfl
    have root8 : w8.mem.root = old := g1.trans s1
    have sh8 : Shr w8 t old child cn := fun _ => ⟨root8, lvc, loc, Or.inr shr8⟩
    refine WP.ret ?_
    refine hc8.load fun w9 r9 i9 hc9 => ?_
    have t9 := t8.trans r9.kp.th0
    have fc9 := r9.kp.ext.fixed child hc8.pub
    by_cases hcond : cn.rc = 1 ∧ cn.isInner = true
    · rw [if_pos hcond]
      have hl9 : w9.lvl child ≠ 0 := by
        have := i9.kind hc9.pub hc9.heap
        rw [hcond.2] at this
        exact of_decide_eq_true this.symm
      have pl9 := pl8.trans r9.kp.pendLe
      refine (shrinkLoop_wp hb f child cn w9 i9 hc9 hl9 (sh8.keep hc8.own hc8.st hc8.heap r9.kp r9.rootK) hcond.1 (hcl.le pl9)
        (fun s9 => i8.top_high (r9.kp.wr.1.symm.trans s9) hc8.wr (hcl.le pl8) hc8.st hc8.heap lvc)
        (on8.kp r9.kp (fun _ e => e.elim))).mono ?_
      rintro c w10 ⟨i10, t10, s10, p10, h10⟩
      exact ⟨i10, t9.trans t10, s10, pl9.trans p10, h10⟩
    · rw [if_neg hcond]
      refine WP.setRoot (fun x rx _ _ => (rx.shr (r9.kp.shr.2 shr8)).1.trans ((r9.shr shr8).1.trans root8))
        (fun x rx ix n hn => (ix.page (hc9.rely rx).st hn).ok.notRemoved) fun w10 r10 i10 hroot => ?_
      have hc10 := hc9.rely r10
      have t10 := t9.trans r10.kp.th0
      have shr10 : w10.shr = some t := r10.kp.shr.2 (r9.kp.shr.2 shr8)
      have fc10 := r10.kp.ext.fixed child hc9.pub
      have top9 : w9.top = w8.top := (r9.shr shr8).2
      have top10 : w10.top = w9.top := (r10.shr (r9.kp.shr.2 shr8)).2
      have o11 := ok_shrinkRoot i10 shr10 hc10.st (by rw [fc10.2.1, fc9.2.1]; exact loc) (by rw [fc10.1, fc9.1, lvc, top10, top9]) hc10.wr
      refine ⟨_, rfl, o11, WP.ret ⟨o11.inv, t10.trans ⟨OkB.ext o11, rfl, fun e => e, rfl, id⟩, fun e => (by cases e),
        (pl8.trans r9.kp.pendLe).trans r10.kp.pendLe, cn, hc10.six, hc10.st, hc10.heap, hc10.wr⟩⟩

theorem tryShrinkTree_wp (hb : cfg.blink = true) {fuel : Nat} {node : Ptr} {n : Node K V} (h : Hold w t node n) (hlvl : w.lvl node ≠ 0) (hcl : w.Clean t)
    (hon : w.Only t node) :
    WP cfg t (tryShrinkTree fuel node) (fun _ w' => CInv cfg w' ∧ Th t w w' ∧ PendLe t w w') w := by
  unfold tryShrinkTree
  refine WP.getRoot fun w1 r1 i1 => ?_
  have h1 := h.rely r1
  refine h1.load fun w2 r2 i2 h2 => ?_
  have t2 := r1.kp.th.trans r2.kp.th
  have p2 := r1.kp.pendLe.trans r2.kp.pendLe
  by_cases hc : node = w1.mem.root ∧ n.rc = 1
  · rw [if_pos hc]
    have sh1 : Shr w1 t w1.mem.root node n := by
      intro hh
      rcases i1.root with ⟨-, -, a, b⟩ | ⟨u, -, a, -⟩
      · rw [← hc.1] at a b
        exact ⟨rfl, b, a, Or.inl hc.1.symm⟩
      · rw [← hc.1, h1.st] at a; cases a
    have sh2 := sh1.keep h1.own h1.st h1.heap r2.kp r2.rootK
    refine WP.bind ((shrinkLoop_wp hb fuel node n w2 i2 h2 (by rw [(t2.ext.fixed node h.pub).1]; exact hlvl) sh2 hc.2
      (hcl.le p2) (fun s2 => i1.top_high (r2.kp.wr.1.symm.trans s2) h1.wr (hcl.le r1.kp.pendLe) h1.st h1.heap ?_)
      ((hon.kp r1.kp (fun _ e => e.elim)).kp r2.kp (fun _ e => e.elim))).mono ?_)
    · rcases i1.root with ⟨-, -, a, b⟩ | ⟨u, -, a, -⟩
      · rw [hc.1]; exact b
      · rw [← hc.1, h1.st] at a; cases a
    rintro c w3 ⟨i3, t3, s3, p3, m, h3⟩
    exact WP.unit (h3.unlock fun w4 k4 i4 _ _ => WP.ret ⟨i4, (t2.trans (t3.th s3)).trans k4.th, (p2.trans p3).trans k4.pendLe⟩)
  · rw [if_neg hc]
    exact WP.unit (h2.unlock fun w4 k4 i4 _ _ => WP.ret ⟨i4, t2.trans k4.th, p2.trans k4.pendLe⟩)

/-! ## The loop of `Merge` -/

/-- A thread that owns the right sibling already blocks itself. -/
theorem merge_stuck (hb : cfg.blink = true) {nav : Nav K V} {f : Nat} {stack : List Ptr} {node : Option Ptr} {l r : Ptr} {ln : Node K V}
    {Q : Unit → World K V → Prop} (h : Hold w t l ln) (hnx : ln.next = some r) (ho : w.Own t r) (hp : w.Pub r) (hs : w.solo ≠ true) :
    WP cfg t (merge nav cfg f stack node l) Q w := by
  cases f with
  | zero => exact WP.stuck
  | succ f =>
    unfold merge
    refine h.load fun w1 r1 i1 h1 => ?_
    simp only [hnx]
    exact WP.lockSIX (r1.kp.ext.pub hp) (fun s1 => absurd (r1.kp.wr.1.symm.trans s1) hs) (fun e => by rw [hb] at e; cases e) fun w2 hno => absurd (r1.own ho) hno

theorem merge_wp (hr : Roomy cfg L) (hb : cfg.blink = true) {nav : Nav K V} (hnav : NavOk cfg nav) :
    ∀ (f : Nat) (stack : List Ptr) (l : Ptr) (ln : Node K V) (σ : Bd K) (w : World K V), CInv cfg w → w.NoStale t → Hold w t l ln →
      σ ≤ hiB ln.high → StackOk w σ (w.lvl l + 1) stack → w.Clean t → w.Only t l → Up w stack l →
      WP cfg t (merge nav cfg f stack none l) (fun _ w' => CInv cfg w' ∧ Th t w w' ∧ PendLe t w w') w
  | 0, _, _, _, _, _, _, _, _, _, _, _, _, _ => WP.stuck
  | f + 1, stack, l, ln, σ, w, hI, hns, h, hσ, hs, hcl, hon, hup => by
    unfold merge
    refine h.load fun w1 r1 i1 h1 => ?_
    have pg1 := i1.page h1.st h1.heap
    rcases pg1.nextB (Or.inl hb) with ⟨-, hnx⟩ | ⟨key, r, hhi, hnx, -⟩
    · simp only [hnx]
      exact WP.unit (h1.unlock fun w2 k2 i2 _ _ => WP.ret ⟨i2, r1.kp.th.trans k2.th, r1.kp.pendLe.trans k2.pendLe⟩)
    · simp only [hnx]
      -- the right sibling, at any time
      have hsib : ∀ x : World K V, CInv cfg x → Hold x t l ln → x.st r = .live ∧ x.lvl r = x.lvl l ∧ x.lo r = .key key ∧ l ≠ r := by
        intro x ix hx
        rcases (ix.page hx.st hx.heap).nextB (Or.inl hb) with ⟨-, e⟩ | ⟨h', q, a, b, c, d, e⟩
        · rw [hnx] at e; cases e
        · rw [hnx] at b; cases b
          rw [hhi] at a; cases a
          refine ⟨c, d, e, ?_⟩
          rintro rfl
          have := ix.lo_lt hx.st hx.heap
          rw [hhi, e] at this
          exact lt_irrefl _ this
      obtain ⟨a1, a2, a3, hlr⟩ := hsib w1 i1 h1
      have on1 := hon.kp r1.kp (fun _ e => e.elim)
      refine WP.lockSIX (World.pub_live a1) (fun s1 ho => hlr (on1 s1 r ho).symm) (fun e => by rw [hb] at e; cases e) fun w2 _ k2 i2 rk2 six2 => ?_
      have h2 := h1.kp k2 hlr
      obtain ⟨b1, b2, b3, -⟩ := hsib w2 i2 h2
      obtain ⟨rn, hrn⟩ := i2.some_of_pub (World.pub_live b1)
      have q2 : Hold w2 t r rn := ⟨six2, b1, hrn, k2.wr.2 h1.wr⟩
      refine q2.load fun w3 r3 i3 q3 => ?_
      have h3 := h2.rely r3
      have t3 : Th t w w3 := (r1.kp.th.trans k2.th).trans r3.kp.th
      have p3 : PendLe t w w3 := (r1.kp.pendLe.trans k2.pendLe).trans r3.kp.pendLe
      obtain ⟨-, b2', b3', -⟩ := hsib w3 i3 h3
      have lv3 : w3.lvl l = w.lvl l := (t3.ext.fixed l h.pub).1
      have hs3 : StackOk w3 σ (w3.lvl l + 1) stack := by rw [lv3]; exact hs.ext t3.ext
      cases hcan : ln.canMerge cfg rn with
      | false =>
        rw [if_pos rfl]
        refine q3.unlock fun w4 k4 i4 _ _ => ?_
        exact WP.unit ((h3.kp k4 hlr).unlock fun w5 k5 i5 _ _ => WP.ret ⟨i5, (t3.trans k4.th).trans k5.th, (p3.trans k4.pendLe).trans k5.pendLe⟩)
      | true =>
        rw [if_neg (by simp)]
        simp only [hhi]
        -- what the thread owns, when there is one writer at a time
        have own3 : w3.solo = true → ∀ q, w3.Own t q → q = l ∨ q = r := by
          intro s3 q hq
          have h2 := r3.kp.ownLe q (fun e => e) hq
          by_cases e : q = r
          · exact Or.inr e
          · exact Or.inl (on1 (k2.wr.1.symm.trans (r3.kp.wr.1.symm.trans s3)) q (k2.ownLe q e h2))
        have up3 : Up w3 stack l := by
          have up1 := hup.kp0 r1.kp hI i1 h.wr hns h.pub
          have ns1 := r1.kp.noStaleT hns
          refine (up1.kp k2 i1 i2 h1.wr ns1 h1.pub (fun s1 b hb e => (rk2.2.2 s1 h1.wr).1 _ (World.pub_live
            (((i1.rep b ((up1 s1).1 b hb).1).1).resolve_right ((up1 s1).1 b hb).2)))).kp0 r3.kp i2 i3 h2.wr (k2.noStaleT ns1) h2.pub
        have cl3 : w3.Clean t := hcl.le p3
        -- a second round cannot start: `r` is locked
        have again : ∀ (s : List Ptr) (nd : Option Ptr) (w4 : World K V) {Q : Unit → World K V → Prop}, Hold w4 t l ln → Hold w4 t r rn →
            w4.solo ≠ true → WP cfg t (merge nav cfg f s nd l) Q w4 := fun s nd w4 Q hh hq hs => merge_stuck hb hh hnx hq.own hq.pub hs
        have retry : ∀ (s : List Ptr) (nd : Option Ptr) (w4 : World K V) {Q : Unit → World K V → Prop}, CInv cfg w4 → Hold w4 t l ln → Hold w4 t r rn →
            (∀ b ∈ s, w4.Pub b ∧ w4.Gone b) → w4.solo ≠ true →
            WP cfg t (do
              let root ← Prog.getRoot
              let stack ← nav.searchParent key r (f + 1) s root
              merge nav cfg f stack nd l) Q w4 := by
          intro s nd w4 Q i4 hh hq hg hso
          refine WP.getRoot fun w5 r5 i5 => ?_
          have hh5 := hh.rely r5
          have hq5 := hq.rely r5
          refine WP.bind ((hnav.searchParent t key r (f + 1) s w5 i5 (Or.inr ⟨hq5.own, hq5.st⟩) (hsib w5 i5 hh5).2.2.1
            (StackOk.start i5 key (fun b hb => ⟨r5.kp.ext.pub (hg b hb).1, r5.kp.ext.gone_of (hg b hb).1 (hg b hb).2⟩))).mono ?_)
          rintro s' w6 ⟨i6, k6, -⟩
          exact again s' nd w6 (hh5.kp k6 (fun e => e)) (hq5.kp k6 (fun e => e)) (fun e => hso (r5.kp.wr.1.symm.trans (k6.wr.1.symm.trans e)))
        cases stack with
        | nil =>
          refine retry [] none w3 i3 h3 q3 (by simp) fun s3 => ?_
          have hroot := (up3 s3).2 rfl
          have := i3.top_high s3 h3.wr cl3 h3.st h3.heap (by
            have := i3.lvle l h3.st
            rcases i3.root with ⟨-, -, -, e⟩ | ⟨u, -, -, e⟩ <;> omega)
          rw [hhi] at this; cases this
        | cons top rest =>
          obtain ⟨s1, s2, s3, s4⟩ := hs3
          have hσk : σ ≤ .key key := by rw [hhi] at hσ; exact hσ
          simp only
          refine WP.bind ((hnav.checkW t key (f + 1) top w3 i3 s1 (t3.ns hns) (s2.imp id (fun e => le_trans e.2 hσk)) (by
            intro so q hq hlq ho
            have hlt := (s2.resolve_left ((up3 so).1 top (by simp)).2).1
            rcases own3 so q ho with rfl | rfl <;> omega)).mono ?_)
          intro o w4 ho
          cases o with
          | none =>
            obtain ⟨i4, k4, g4, -⟩ := ho
            refine retry rest none w4 i4 (h3.kp k4 (fun e => e)) (q3.kp k4 (fun e => e)) ?_ (fun so => by
              have so3 := k4.wr.1.symm.trans so
              exact k4.not_gone i3 i4 so3 h3.wr (t3.ns hns) s1 ((up3 so3).1 top (by simp)).2 g4)
            have hs4 : StackOk w4 σ (w3.lvl l + 1) (top :: rest) := StackOk.ext ⟨s1, s2, s3, s4⟩ k4.ext
            intro b hb'
            exact ⟨(hs4.mem (List.mem_cons_of_mem _ hb')).1, hs4.2.2.1 g4 b hb'⟩
          | some p =>
            obtain ⟨i4, k4, no4, -, six4, st4, lv4, g4, lo4, ⟨n, hn, hi4⟩, c4⟩ := ho
            have hpl : l ≠ p := by rintro rfl; exact no4 h3.own
            have hpr : r ≠ p := by rintro rfl; exact no4 q3.own
            have h4 := h3.kp k4 hpl
            have q4 := q3.kp k4 hpr
            have p4 : Hold w4 t p n := ⟨six4, st4, hn, h4.wr⟩
            obtain ⟨-, d2, d3, -⟩ := hsib w4 i4 h4
            have hlv : w3.lvl top = w3.lvl l + 1 := by
              rcases s2 with e | e
              · exact absurd e g4
              · exact e.1
            have fl4 := k4.ext.fixed l h3.pub
            have hlvp : w4.lvl p = w4.lvl r + 1 := by rw [lv4, d2, fl4.1]; exact hlv
            have s4' : StackOk w4 (.key key) (w4.lvl p + 1) rest := by
              rw [lv4, hlv]; exact (s4.mono hσk).ext k4.ext
            refine WP.bind ((deleteChild_wp hr i4 p4 hlvp q4.own q4.st d3 hi4).mono ?_)
            rintro rc w5 ⟨i5, t5, ho5, hrc⟩
            have h5 := ho5 l ln hpl h4
            have q5 := ho5 r rn hpr q4
            have tt5 : Th t w w5 := (t3.trans k4.th).trans t5
            rcases hrc with ⟨hrc, pl5, hret⟩ | ⟨rfl, pd5, ⟨n', p5, hi5⟩, ps5, own5, cm5⟩ | ⟨rfl, pd5, ps5⟩
            · rcases hrc with rfl | rfl
              · simp only [if_true]
                refine h5.unlock fun w6 k6 i6 _ _ => ?_
                exact WP.unit ((q5.kp k6 (Ne.symm hlr)).unlock fun w7 k7 i7 _ _ => WP.ret ⟨i7, (tt5.trans k6.th).trans k7.th,
                  (((p3.trans k4.pendLe).trans pl5).trans k6.pendLe).trans k7.pendLe⟩)
              · simp only [reduceCtorEq, if_false, if_true]
                refine again rest (some p) w5 h5 q5 fun so => ?_
                have so4 := t5.wr.1.symm.trans so
                rcases i4.full r q4.st with hh | hh | ⟨x, m, b, x1, x2, x3, x4⟩
                · rw [d3] at hh; cases hh
                · cases hu : w4.pend r with
                  | none => exact hh hu
                  | some u =>
                    have h1 := (i4.solo so4).2.1 r u hu
                    rw [h4.wr so4] at h1
                    cases h1
                    exact cl3.le k4.pendLe r hu
                · obtain ⟨i, hi⟩ := Nat.exists_eq_succ_of_ne_zero x3
                  have pgx := i4.page x1 x2
                  obtain ⟨-, b2, b3⟩ := pgx.kids i hi _ _ x4
                  have hokx := pgx.ok
                  rw [decide_eq_true x3] at hokx
                  have hr1 := kidsOf_range hokx x4
                  rw [d3] at b3
                  rw [← b3] at hr1
                  have hxp : x = p := i4.same_page x1 p4.st (by rw [hi, hlvp, b2]) x2 p4.heap hr1.1 hr1.2 lo4 hi4
                  subst hxp
                  rw [p4.heap] at x2; cases x2
                  rw [← b3] at x4
                  exact hret rfl r x4
            · simp only [reduceCtorEq, if_false]
              refine WP.bind ((mergeInto_wp hr hb i5 (tt5.ns hns) h5 q5 hnx pd5 hcan).mono ?_)
              rintro - w6 ⟨i6, t6, ps6, ho6, own6, cm6, τ6, mg6⟩
              have p6 := ho6 p n' (Ne.symm hpl) (Ne.symm hpr) p5
              refine WP.retire (t6.ext.pub q5.pub) (fun _ => ⟨_, _, mg6⟩) fun w7 k7 i7 _ => ?_
              have p7 := p6.kp k7 (fun e => e)
              have pl7 : PendLe t w w7 := fun q hq => by
                obtain ⟨x1, x2⟩ := ps6 q (k7.pendLe q hq)
                exact p3 q (k4.pendLe q ((ps5 q x2).resolve_left x1))
              have t57 : Th t w4 w7 := (t5.trans t6).trans k7.th
              have tt7 : Th t w w7 := (tt5.trans t6).trans k7.th
              have fp7 := t57.ext.fixed p p4.pub
              have on7 : w7.Only t p := by
                intro s7 q hq
                obtain ⟨x1, x2, x3⟩ := own6 q (k7.ownLe q (fun e => e) hq)
                have x4 := own5 q x1
                by_contra e
                rcases own3 ((k4.th.trans t57).wr.1.symm.trans s7) q (k4.ownLe q e x4) with e | e
                · exact x2 e
                · exact x3 e
              cases rest with
              | nil =>
                refine (tryShrinkTree_wp hb p7 (by rw [fp7.1, hlvp]; omega) (hcl.le pl7) on7).mono ?_
                rintro - w8 ⟨i8, t8, p8⟩
                exact ⟨i8, tt7.trans t8, pl7.trans p8⟩
              | cons x xs =>
                have up7 : Up w7 (x :: xs) p := by
                  intro s7
                  have so3 : w3.solo = true := (k4.th.trans t57).wr.1.symm.trans s7
                  have so4 : w4.solo = true := k4.wr.1.trans so3
                  have cm : Calm (fun q => q = p ∨ q = l ∨ q = r) w4 w7 :=
                    ((cm5.mono (fun _ e => Or.inl e)).trans (cm6.mono (fun _ e => Or.inr e)) t5).trans
                      ((k7.calmE (t6.wr.2 (t5.wr.2 h4.wr))).mono (fun _ e => e.elim)) (t5.trans t6)
                  have up4 : Up w4 (x :: xs) l := by
                    have : Up w3 (x :: xs) l := fun s => ⟨fun b hb => (up3 s).1 b (List.mem_cons_of_mem _ hb), by simp⟩
                    exact this.kp k4 i3 i4 h3.wr (t3.ns hns) h3.pub (fun s1 b hb e => e ▸ c4 s1 h3.wr (e ▸ World.pub_live
                      (((i3.rep b ((this s1).1 b hb).1).1).resolve_right ((this s1).1 b hb).2)))
                  refine ⟨fun b hb => ⟨t57.ext.pub ((up4 so4).1 b hb).1, ?_⟩, by simp⟩
                  obtain ⟨bp, bg⟩ := (up4 so4).1 b hb
                  have bl := (i4.rep b bp).1.resolve_right bg
                  have blv := (i4.rep b bp).2.1
                  have bge : w4.lvl p + 1 ≤ w4.lvl b := ((s4'.mem hb).2).resolve_left bg
                  refine t57.ext.not_gone i4 i7 s7 p7.wr (tt7.ns hns) bp (cm so4 _ ?_ (World.pub_live bl)) bg
                  rintro (e | e | e)
                  · rw [e] at blv; omega
                  · rw [e] at blv; omega
                  · rw [e] at blv; omega
                refine (merge_wp hr hb hnav f (x :: xs) p n' (.key key) w7 i7 (tt7.ns hns) p7 (by rw [hi5]; exact le_of_lt hi4)
                  (by rw [fp7.1]; exact s4'.ext t57.ext) (hcl.le pl7) on7 up7).mono ?_
                rintro - w8 ⟨i8, t8, p8⟩
                exact ⟨i8, tt7.trans t8, pl7.trans p8⟩
            · simp only [reduceCtorEq, if_false, if_true]
              refine WP.bind ((mergeInto_wp hr hb i5 (tt5.ns hns) h5 q5 hnx pd5 hcan).mono ?_)
              rintro - w6 ⟨i6, t6, ps6, -, -, -, τ6, mg6⟩
              exact WP.retire (t6.ext.pub q5.pub) (fun _ => ⟨_, _, mg6⟩) fun w7 k7 i7 _ => WP.ret ⟨i7, (tt5.trans t6).trans k7.th, fun q hq => by
                obtain ⟨x1, x2⟩ := ps6 q (k7.pendLe q hq)
                exact p3 q (k4.pendLe q ((ps5 q x2).resolve_left x1))⟩

end CBlink
end BT
