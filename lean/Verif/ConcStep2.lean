import Verif.ConcStep

/-!
# Steps that change pages of the tree
-/

set_option linter.unusedSectionVars false

namespace BT
open Spec
variable {K V : Type} [LinearOrder K] {cfg : Cfg K} {w w' : World K V} {t : Tid} {p : Ptr}

/-! ## Children -/

def kidEnd : Bd K → List (Ptr × Option K) → Bd K
  | lo, [] => lo
  | _, (_, h) :: l => kidEnd (hiB h) l

theorem kidsOf_append (lo : Bd K) (A B : List (Ptr × Option K)) : kidsOf lo (A ++ B) = kidsOf lo A ++ kidsOf (kidEnd lo A) B := by
  induction A generalizing lo with
  | nil => rfl
  | cons x A ih => obtain ⟨q, h⟩ := x; simp [kidsOf, kidEnd, ih]

theorem kidEnd_slots (lo : Bd K) {recs : List (Rec K V)} (h : Option K) (hr : recs ≠ []) : kidEnd lo (slots recs h) = hiB h := by
  obtain ⟨X, q, e⟩ := slots_getLast (hi := h) hr
  rw [e]
  clear e
  induction X generalizing lo with
  | nil => rfl
  | cons x X ih => obtain ⟨q, h⟩ := x; exact ih _

theorem kidsOf_mem {lo : Bd K} {A : List (Ptr × Option K)} {b : Bd K} {c : Ptr} (h : (b, c) ∈ kidsOf lo A) :
    ∃ h, (c, h) ∈ A := by
  induction A generalizing lo with
  | nil => simp [kidsOf] at h
  | cons x A ih =>
    obtain ⟨q, h'⟩ := x
    simp only [kidsOf, List.mem_cons, Prod.mk.injEq] at h
    rcases h with ⟨-, rfl⟩ | h
    · exact ⟨h', by simp⟩
    · obtain ⟨y, hy⟩ := ih h
      exact ⟨y, by simp [hy]⟩

/-! ## Facts about live pages -/

namespace CInv
variable (hI : CInv cfg w)
include hI

/-- A live page is not its own sibling or child, and referenced pages have a lower border key. -/
theorem lo_lt {n : Node K V} (hp : w.st p = .live) (hn : w.heap p = some n) : w.lo p < hiB n.high := by
  obtain ⟨n', a, b⟩ := hI.live p hp
  rw [hn] at a; cases a
  exact b.lt

theorem page {n : Node K V} (hp : w.st p = .live) (hn : w.heap p = some n) :
    PageOk cfg w.lvl w.lo p n (fun c => w.st c = .live) (w.maps w.now) := by
  obtain ⟨n', a, b⟩ := hI.live p hp
  rw [hn] at a; cases a
  exact b

/-- Two live pages of one level that contain the same key. -/
theorem same_page {q : Ptr} {n m : Node K V} {b : Bd K} (hp : w.st p = .live) (hq : w.st q = .live) (hl : w.lvl p = w.lvl q)
    (hn : w.heap p = some n) (hm : w.heap q = some m) (h1 : w.lo p ≤ b) (h2 : b < hiB n.high) (h3 : w.lo q ≤ b)
    (h4 : b < hiB m.high) : p = q :=
  hI.disj p q n m hp hq hl hn hm (by order) (by order)

theorem same_lo {q : Ptr} (hp : w.st p = .live) (hq : w.st q = .live) (hl : w.lvl p = w.lvl q) (h : w.lo p = w.lo q) : p = q := by
  obtain ⟨n, hn, bn⟩ := hI.live p hp
  obtain ⟨m, hm, bm⟩ := hI.live q hq
  have h1 := bn.lt
  have h2 := bm.lt
  exact hI.same_page hp hq hl hn hm (le_refl _) h1 (by order) (by order)

theorem same_hi {q : Ptr} {n m : Node K V} (hp : w.st p = .live) (hq : w.st q = .live) (hl : w.lvl p = w.lvl q)
    (hn : w.heap p = some n) (hm : w.heap q = some m) (h : n.high = m.high) : p = q := by
  have h1 := hI.lo_lt hp hn
  have h2 := hI.lo_lt hq hm
  rw [h] at h1
  exact hI.disj p q n m hp hq hl hn hm h1 (by rw [h]; exact h2)

theorem rep_live (hp : w.st p = .live) : ¬ w.Gone p := by
  unfold World.Gone
  rw [hI.repSelf p (Or.inl hp), hp]
  simp

end CInv

/-! ## One live page changes -/

theorem ok_page (hI : CInv cfg w) (hx : (w.lk p).x = some t) (hl : w.st p = .live) {n n' : Node K V} (hh : w.heap p = some n)
    (hhi : n'.high = n.high) (pend' : Ptr → Option Tid) (ps' : PState K V) (hpast : ∀ {m0 : Map K V} h, Past true m0 w.ps h → Past true m0 ps' h)
    (hnow : w.now ≤ ps'.now) (hmaps : ∀ i, i ≤ w.now → ps'.maps i = w.maps i) (hph : ∀ u, u ≠ t → ps'.ph u = w.ps.ph u)
    (hfr : ∀ q m, q ≠ p → w.st q = .live → w.lvl q = 0 → w.heap q = some m → ∀ k, w.lo q ≤ .key k → .key k < hiB m.high →
      ps'.maps ps'.now k = w.maps w.now k)
    (hpg : PageOk cfg w.lvl w.lo p n' (fun c => w.st c = .live) (ps'.maps ps'.now))
    (hpd : ∀ r u, u ≠ t → (pend' r = some u ↔ w.pend r = some u))
    (hpd' : ∀ r u, pend' r = some u → w.st r = .live ∧ (∃ σ, w.lo r = .key σ) ∧
      ∀ q m b, w.st q = .live → (w.mem.setHeap p n').heap q = some m → w.lvl q ≠ 0 →
        (b, r) ∉ kidsOf (w.lo q) (slots m.recs m.high)) (hg : w.Wr t)
    (hfl : w.lvl p ≠ 0 → ∀ b c, (b, c) ∈ kidsOf (w.lo p) (slots n.recs n.high) →
      (b, c) ∈ kidsOf (w.lo p) (slots n'.recs n'.high) ∨ pend' c ≠ none)
    (hfp : ∀ c, w.pend c ≠ none → pend' c ≠ none ∨ (w.lvl p ≠ 0 ∧ ∃ b, (b, c) ∈ kidsOf (w.lo p) (slots n'.recs n'.high))) :
    (blg V cfg).Ok t w { w with mem := w.mem.setHeap p n', ps := ps', pend := pend' } := by
  have hstale : ∀ {q}, w.st q ≠ .live → (w.mem.setHeap p n').heap q = w.mem.heap q := by
    intro q hq
    refine setHeap_ne _ _ ?_
    rintro rfl
    exact hq hl
  refine ⟨?_, fun u hu => ?_, hpast, rfl, rfl⟩
  · have hI' := hI
    obtain ⟨h1, h2, h2', h3, h4, h5, h6, h7, h8, h9, h10, h11, h12, h13, h14, h15, h16, h17, h18, h19, h20⟩ := hI
    refine ⟨h1, h2, h2', ?_, ?_, ?_, h6, ?_, ?_, ?_, ?_, hpd', h12, ?_, ?_, h15, h16, h17, h18, ?_, ?_⟩
    · intro q
      show (w.mem.setHeap p n').heap q = none ↔ _
      by_cases e : q = p
      · subst e; simp [hl, setHeap_same]
      · rw [setHeap_ne _ _ e]; exact h3 q
    · intro q hq
      have e : q ≠ p := by
        rintro rfl
        have := h4 q hq
        rw [hh] at this; cases this
      exact (setHeap_ne _ _ e).trans (h4 q hq)
    · intro q hq
      by_cases e : q = p
      · subst e; exact ⟨n', setHeap_same _ _ _, hpg⟩
      · obtain ⟨m, a, b⟩ := h5 q hq
        exact ⟨m, (setHeap_ne _ _ e).trans a,
          b.congr rfl rfl (fun _ h => ⟨h, rfl, rfl⟩) (fun h0 k => hfr q m e hq h0 a k)⟩
    · intro q τ c u hq
      obtain ⟨a, b, c1, d, e, m, f, g⟩ := h7 q τ c u hq
      exact ⟨le_trans a hnow, b, c1, d, e, m, (hstale (by rw [hq]; simp)).trans f,
        g.congr rfl rfl (fun _ h => ⟨h, rfl, rfl⟩) (fun _ k _ _ => by
          show ps'.maps τ k = _
          rw [hmaps τ a])⟩
    · intro q τ c hq
      obtain ⟨a, b, c1, d, m, f, g1, g2, g3, g4⟩ := h8 q τ c hq
      refine ⟨le_trans a hnow, b, c1, d, m, (hstale (by rw [hq]; simp)).trans f, g1, g2, g3, fun h k => ?_⟩
      show _ → _ → ∀ v, ps'.maps τ k = _ ↔ _
      rw [hmaps τ a]
      exact g4 h k
    · intro q hq
      obtain ⟨a, m, f, g⟩ := h9 q hq
      exact ⟨a, m, (hstale (by rw [hq]; simp)).trans f, g⟩
    · have old : ∀ q m, w.st q = .live → (w.mem.setHeap p n').heap q = some m → ∃ m', w.heap q = some m' ∧ m'.high = m.high := by
        intro q m _ hm
        by_cases e : q = p
        · subst e; rw [setHeap_same] at hm; cases hm; exact ⟨n, hh, hhi.symm⟩
        · rw [setHeap_ne _ _ e] at hm; exact ⟨m, hm, rfl⟩
      intro q r m1 m2 hq hr hlv hm1 hm2 a b
      obtain ⟨m1', e1, f1⟩ := old q m1 hq hm1
      obtain ⟨m2', e2, f2⟩ := old r m2 hr hm2
      exact h10 q r m1' m2' hq hr hlv e1 e2 (by rw [f2]; exact a) (by rw [f1]; exact b)
    · intro q τ c u m r hq hm
      exact h13 q τ c u m r hq ((hstale (by rw [show w.st q = _ from hq]; simp)).symm.trans hm)
    · intro q hq
      exact le_trans (h14 q hq) hnow
    · intro r hr
      have key : ∀ b, w.lvl p ≠ 0 → (b, r) ∈ kidsOf (w.lo p) (slots n'.recs n'.high) → ∃ q m b, w.st q = .live ∧
          (w.mem.setHeap p n').heap q = some m ∧ w.lvl q ≠ 0 ∧ (b, r) ∈ kidsOf (w.lo q) (slots m.recs m.high) :=
        fun b h0 hb => ⟨p, n', b, hl, setHeap_same _ _ _, h0, hb⟩
      rcases h19 r hr with a | a | ⟨q, m, b, a, c, d, e⟩
      · exact Or.inl a
      · rcases hfp r a with h | ⟨h0, b, hb⟩
        · exact Or.inr (Or.inl h)
        · exact Or.inr (Or.inr (key b h0 hb))
      · by_cases e' : q = p
        · subst e'
          rw [hh] at c; cases c
          rcases hfl d b r e with h | h
          · exact Or.inr (Or.inr (key b d h))
          · exact Or.inr (Or.inl h)
        · exact Or.inr (Or.inr ⟨q, m, b, a, (setHeap_ne _ _ e').trans c, d, e⟩)
    · intro hs
      refine ⟨(h20 hs).1, fun q u hq => ?_, fun q τ c u hq => ?_⟩
      · by_cases e : u = t
        · subst e; exact hg hs
        · exact (h20 hs).2.1 q u ((hpd q u e).1 hq)
      · obtain ⟨a, b⟩ := (h20 hs).2.2 q τ c u hq
        exact ⟨a, fun m x hm => b m x ((hstale (by rw [show w.st q = _ from hq]; simp)).symm.trans hm)⟩
  · refine rely_of hI hu rfl (Ext.same rfl rfl rfl rfl rfl hnow hmaps) (hph u hu) (fun _ _ _ => Iff.rfl) (fun r => hpd r u hu)
      Iff.rfl (fun q => ?_) (fun _ _ => rfl) (fun _ h => h) (fun _ _ _ _ _ => ⟨rfl, rfl⟩) (fun _ => ⟨rfl, rfl⟩) (Or.inl hg)
    by_cases e : q = p
    · subst e; exact Or.inr (Or.inl hx)
    · exact Or.inl (setHeap_ne _ _ e)

/-! ## Split -/

/-- The abstract map with one more instant. -/
def tick (ps : PState K V) : PState K V := ⟨ps.now + 1, Spec.upd ps.maps (ps.now + 1) (ps.maps ps.now), ps.ph⟩

theorem tick_past {m0 : Map K V} {ps : PState K V} {h : List (Ev K V)} (hp : Past true m0 ps h) : Past true m0 (tick ps) h := Past.tick hp
theorem tick_cur (ps : PState K V) : (tick ps).maps (tick ps).now = ps.maps ps.now := Spec.upd_same _ _ _
theorem tick_maps (ps : PState K V) {i : Nat} (h : i ≤ ps.now) : (tick ps).maps i = ps.maps i := Spec.upd_ne _ _ (by omega)

/-- The world after the left page of a split has been written: the new right page is part of the tree. -/
def World.split (w : World K V) (t : Tid) (l r : Ptr) (ln : Node K V) (sep : K) : World K V :=
  { w with
    mem := w.mem.setHeap l ln
    ps := tick w.ps
    lvl := Spec.upd w.lvl r (w.lvl l)
    lo := Spec.upd w.lo r (.key sep)
    born := Spec.upd w.born r (w.now + 1)
    st := Spec.upd w.st r .live
    rep := Spec.upd w.rep r r
    pend := Spec.upd w.pend r (some t) }

section publish
/-! Publishing a private page `r`: what it means for the status predicates. -/
variable {r : Ptr} (hr : w.st r = .priv t) (hst : w'.st = Spec.upd w.st r .live)
include hr hst

theorem pub_pub {q : Ptr} (h : w.Pub q) : q ≠ r := by rintro rfl; exact World.not_pub_priv hr h
theorem pub_st_ne {q : Ptr} (h : q ≠ r) : w'.st q = w.st q := by rw [hst, Spec.upd_ne _ _ h]
theorem pub_st_same : w'.st r = .live := by rw [hst, Spec.upd_same]
theorem pub_st {q : Ptr} {s : PSt} (hs : s ≠ .live ∧ s ≠ .priv t) : w'.st q = s ↔ w.st q = s := by
  by_cases e : q = r
  · subst e; rw [pub_st_same hr hst, hr]
    exact ⟨fun h => absurd h.symm hs.1, fun h => absurd h.symm hs.2⟩
  · rw [pub_st_ne hr hst e]
theorem pub_live {q : Ptr} (h : w.st q = .live) : w'.st q = .live := by
  rw [pub_st_ne hr hst (pub_pub hr hst (World.pub_live h))]; exact h
theorem pub_live_inv {q : Ptr} (h : w'.st q = .live) : q = r ∨ (q ≠ r ∧ w.st q = .live) := by
  by_cases e : q = r
  · exact Or.inl e
  · exact Or.inr ⟨e, by rw [← pub_st_ne hr hst e]; exact h⟩
theorem pub_pub_inv {q : Ptr} (h : w'.Pub q) : q = r ∨ (q ≠ r ∧ w.Pub q) := by
  by_cases e : q = r
  · exact Or.inl e
  · refine Or.inr ⟨e, ?_⟩
    unfold World.Pub at h ⊢
    rw [← pub_st_ne hr hst e]; exact h
theorem pub_ge {q : Ptr} {τ : Nat} (h : w.Ge τ q) : w'.Ge τ q := by
  have e := pub_pub hr hst h.pub
  unfold World.Ge at h ⊢
  rw [pub_st_ne hr hst e]; exact h
theorem pub_gone (hI : CInv cfg w) (hrep : w'.rep = Spec.upd w.rep r r) {q : Ptr} (h : w.Pub q) : w'.Gone q ↔ w.Gone q := by
  unfold World.Gone
  rw [hrep, Spec.upd_ne _ _ (pub_pub hr hst h)]
  exact pub_st hr hst ⟨by simp, by simp⟩
theorem pub_ref (hI : CInv cfg w) (hrep : w'.rep = Spec.upd w.rep r r) {a : Nat} (hlvl : w'.lvl = Spec.upd w.lvl r a)
    {q c : Ptr} {τ : Nat} (hq : w.Pub q) (h : w.Ref τ q c) : w'.Ref τ q c := by
  refine ⟨pub_ge hr hst h.1, ?_⟩
  rw [hlvl, Spec.upd_ne _ _ (pub_pub hr hst h.1.pub), Spec.upd_ne _ _ (pub_pub hr hst hq), pub_gone hr hst hI hrep h.1.pub, pub_gone hr hst hI hrep hq]
  exact h.2

theorem pub_ext (hI : CInv cfg w) (hrep : w'.rep = Spec.upd w.rep r r) {a : Nat} {b : Bd K} {d : Nat} (hlvl : w'.lvl = Spec.upd w.lvl r a)
    (hlo : w'.lo = Spec.upd w.lo r b) (hborn : w'.born = Spec.upd w.born r d) (hps : w'.ps = tick w.ps) : Ext w w' where
  fixed q hq := by
    have e := pub_pub hr hst hq
    rw [hlvl, hlo, hborn, Spec.upd_ne _ _ e, Spec.upd_ne _ _ e, Spec.upd_ne _ _ e]
    exact ⟨rfl, rfl, rfl⟩
  st q := by
    by_cases e : q = r
    · subst e; rw [hr]; trivial
    · rw [pub_st_ne hr hst e]; exact StLe.refl _ _
  rep q hq := by
    refine ⟨(pub_gone hr hst hI hrep hq).2, ?_⟩
    have e := pub_pub hr hst hq
    have e' : w.rep q ≠ r := by
      intro h
      have := (hI.rep q hq).1
      rw [h, hr] at this
      simp at this
    rw [hrep, hlo, Spec.upd_ne _ _ e, Spec.upd_ne _ _ e']
  gone x y hx _ _ hn hg := absurd ((pub_gone hr hst hI hrep hx).1 hg) hn
  now := by show w.ps.now ≤ w'.ps.now; rw [hps]; exact Nat.le_succ _
  maps i hi := by show w'.ps.maps i = _; rw [hps]; exact tick_maps _ hi
end publish

theorem ok_split (hI : CInv cfg w) {l r : Ptr} (hx : (w.lk l).x = some t) (hl : w.st l = .live) {n ln rn : Node K V} {sep : K} {L : Nat}
    (hn : w.heap l = some n) (hr : w.st r = .priv t) (hrn : w.heap r = some rn)
    (hs : SplitPost cfg L (decide (w.lvl l ≠ 0)) (w.lo l) n r ln rn sep) (hg : w.Wr t) : (blg V cfg).Ok t w (w.split t l r ln sep) := by
  set w' := w.split t l r ln sep with hw'
  have hst : w'.st = Spec.upd w.st r .live := rfl
  have hrep : w'.rep = Spec.upd w.rep r r := rfl
  have hlr : l ≠ r := pub_pub hr hst (World.pub_live hl)
  have hpg := hI.page hl hn
  have hlvl : ∀ {q}, w.Pub q → w'.lvl q = w.lvl q ∧ w'.lo q = w.lo q ∧ w'.born q = w.born q := fun h =>
    (pub_ext hr hst hI hrep (w' := w') rfl rfl rfl rfl).fixed _ h
  have hll := hlvl (World.pub_live hl)
  have hrl : w'.lvl r = w.lvl l ∧ w'.lo r = .key sep ∧ w'.born r = w.now + 1 :=
    ⟨Spec.upd_same _ _ _, Spec.upd_same _ _ _, Spec.upd_same _ _ _⟩
  have hhl : w'.heap l = some ln := setHeap_same _ _ _
  have hhr : w'.heap r = some rn := (setHeap_ne _ _ (Ne.symm hlr)).trans hrn
  have hho : ∀ {q}, q ≠ l → w'.heap q = w.heap q := fun h => setHeap_ne _ _ h
  have hext := pub_ext hr hst hI hrep (w' := w') rfl rfl rfl rfl
  have hnext : Linked cfg (w.lvl l) → n.hasNext cfg = true := fun h => h.hasNext hpg.ok.kind
  have hsl := Bd.lt_iff.1 hs.sepLo
  have hsh := Bd.lt_iff.1 hs.sepHi
  have hcur : w'.maps w'.now = w.maps w.now := tick_cur _
  -- children of the two halves
  have hkids : w.lvl l ≠ 0 → ∀ b c, (b, c) ∈ kidsOf (w.lo l) (slots n.recs n.high) ↔
      (b, c) ∈ kidsOf (w.lo l) (slots ln.recs ln.high) ∨ (b, c) ∈ kidsOf (.key sep) (slots rn.recs rn.high) := by
    intro h0 b c
    rw [hs.slots (by simp [h0]), kidsOf_append, kidEnd_slots _ _ hs.neL, hs.lhigh, hiB_some, List.mem_append]
  have hagree : w.lvl l = 0 → (∀ k v, (k, v) ∈ pairs ln.recs → .key k < Bd.key sep) ∧
      (∀ k v, (k, v) ∈ pairs rn.recs → Bd.key sep ≤ .key k) := by
    intro h0
    have h1 := hs.left
    have h2 := hs.right
    rw [show decide (w.lvl l ≠ 0) = false by simp [h0]] at h1 h2
    constructor
    · intro k v hk
      obtain ⟨x, hx, e⟩ := mem_pairs.1 hk
      obtain ⟨a, e1, -, e2⟩ := h1.leaf.keyed x hx
      have := (pair_key e).1
      rw [e1] at this; cases this
      rw [hs.lhigh] at e2
      exact Bd.gtKey_iff'.1 e2
    · intro k v hk
      obtain ⟨x, hx, e⟩ := mem_pairs.1 hk
      obtain ⟨a, e1, e2, -⟩ := h2.leaf.keyed x hx
      have := (pair_key e).1
      rw [e1] at this; cases this
      exact Bd.leKey_iff'.1 e2
  have pgL : PageOk cfg w'.lvl w'.lo l ln (fun c => w'.st c = .live) (w'.maps w'.now) := by
    refine ⟨?_, ?_, ?_, ?_⟩
    · rw [hll.1, hll.2.1]; exact hs.left
    · exact Or.inr ⟨sep, r, hs.lhigh, fun h => hs.lnext (hnext (by rwa [hll.1] at h)), pub_st_same hr hst, by rw [hrl.1, hll.1], hrl.2.1⟩
    · intro i hi b c hc
      rw [hll.1] at hi
      rw [hll.2.1] at hc
      obtain ⟨a1, a2, a3⟩ := hpg.kids i hi b c ((hkids (by omega) b c).2 (Or.inl hc))
      have e := hlvl (World.pub_live a1)
      exact ⟨pub_live hr hst a1, by rw [e.1, a2], by rw [e.2.1, a3]⟩
    · intro h0 k h1 h2 v
      rw [hll.1] at h0
      rw [hll.2.1] at h1
      rw [hs.lhigh, hiB_some] at h2
      rw [hcur, hpg.agree h0 k h1 (by order) v, hs.pairs, List.mem_append]
      refine ⟨fun h => h.resolve_right (fun h => ?_), Or.inl⟩
      have := (hagree h0).2 k v h
      order
  have pgR : PageOk cfg w'.lvl w'.lo r rn (fun c => w'.st c = .live) (w'.maps w'.now) := by
    refine ⟨?_, ?_, ?_, ?_⟩
    · rw [hrl.1, hrl.2.1]; exact hs.right
    · rw [hs.rhigh, hrl.1]
      rcases hpg.next with ⟨h1, h2⟩ | ⟨h, q, a, b, c, d, e⟩
      · exact Or.inl ⟨h1, fun h => (hs.rnext (hnext h)).trans (h2 h)⟩
      · have f := hlvl (World.pub_live c)
        exact Or.inr ⟨h, q, a, fun h => (hs.rnext (hnext h)).trans (b h), pub_live hr hst c, by rw [f.1, d], by rw [f.2.1, e]⟩
    · intro i hi b c hc
      rw [hrl.1] at hi
      rw [hrl.2.1] at hc
      obtain ⟨a1, a2, a3⟩ := hpg.kids i hi b c ((hkids (by omega) b c).2 (Or.inr hc))
      have e := hlvl (World.pub_live a1)
      exact ⟨pub_live hr hst a1, by rw [e.1, a2], by rw [e.2.1, a3]⟩
    · intro h0 k h1 h2 v
      rw [hrl.1] at h0
      rw [hrl.2.1] at h1
      rw [hs.rhigh] at h2
      rw [hcur, hpg.agree h0 k (by order) h2 v, hs.pairs, List.mem_append]
      refine ⟨fun h => h.resolve_left (fun h => ?_), Or.inr⟩
      have := (hagree h0).1 k v h
      order
  -- every page of the new tree lies in a page of the old one
  have hcov : ∀ q m, w'.st q = .live → w'.heap q = some m → ∃ q0 m0, w.st q0 = .live ∧ w.heap q0 = some m0 ∧
      w.lvl q0 = w'.lvl q ∧ w.lo q0 ≤ w'.lo q ∧ hiB m.high ≤ hiB m0.high ∧
      (∀ b c, w.lvl q0 ≠ 0 → (b, c) ∈ kidsOf (w'.lo q) (slots m.recs m.high) → (b, c) ∈ kidsOf (w.lo q0) (slots m0.recs m0.high)) ∧
      (q0 = q ∨ (q0 = l ∧ q = r)) := by
    intro q m hq hm
    rcases pub_live_inv hr hst hq with rfl | ⟨e, hq'⟩
    · rw [hhr] at hm; cases hm
      refine ⟨l, n, hl, hn, hrl.1.symm, by rw [hrl.2.1]; order, by rw [hs.rhigh], ?_, Or.inr ⟨rfl, rfl⟩⟩
      intro b c h0 hc
      rw [hrl.2.1] at hc
      exact (hkids h0 b c).2 (Or.inr hc)
    · have f := hlvl (World.pub_live hq')
      by_cases e' : q = l
      · subst e'
        rw [hhl] at hm; cases hm
        refine ⟨q, n, hl, hn, f.1.symm, by rw [f.2.1], by rw [hs.lhigh, hiB_some]; order, ?_, Or.inl rfl⟩
        intro b c h0 hc
        rw [f.2.1] at hc
        exact (hkids h0 b c).2 (Or.inl hc)
      · rw [hho e'] at hm
        exact ⟨q, m, hq', hm, f.1.symm, by rw [f.2.1], le_refl _, by rw [f.2.1]; exact fun _ _ _ h => h, Or.inl rfl⟩
  have hlkn := hI.lkn
  refine ⟨?_, fun u hu => ?_, fun h hp => tick_past hp, rfl, rfl⟩
  · refine ⟨hI.base, hI.lkx, ?_, ?_, ?_, ?_, ?_, ?_, ?_, ?_, ?_, ?_, ?_, ?_, ?_, ?_, ?_, ?_, ?_, ?_, ?_⟩
    · intro q u hq hlk
      have e : q ≠ r := by rintro rfl; exact hq (World.pub_live (pub_st_same hr hst))
      rw [pub_st_ne hr hst e]
      refine hlkn q u (fun h => hq (hext.pub h)) hlk
    · intro q
      by_cases e : q = l
      · subst e; rw [hhl, pub_live hr hst hl]; simp
      · rw [hho e]
        by_cases e' : q = r
        · subst e'; rw [hrn, pub_st_same hr hst]; simp
        · rw [pub_st_ne hr hst e']; exact hI.alloc q
    · intro q hq
      have := hI.fresh q hq
      have e : q ≠ l := by rintro rfl; rw [hn] at this; cases this
      rw [hho e]; exact this
    · intro q hq
      rcases pub_live_inv hr hst hq with rfl | ⟨e, hq'⟩
      · exact ⟨rn, hhr, pgR⟩
      · by_cases e' : q = l
        · subst e'; exact ⟨ln, hhl, pgL⟩
        · obtain ⟨m, a, b⟩ := hI.live q hq'
          have f := hlvl (World.pub_live hq')
          refine ⟨m, (hho e').trans a, b.congr f.1 f.2.1 (fun c hc => ?_) (fun _ k _ _ => by rw [hcur])⟩
          have g := hlvl (World.pub_live hc)
          exact ⟨pub_live hr hst hc, g.1, g.2.1⟩
    · intro q hq
      rcases pub_live_inv hr hst hq with rfl | ⟨e, hq'⟩
      · rw [hrl.1]; exact hI.lvle l hl
      · rw [(hlvl (World.pub_live hq')).1]; exact hI.lvle q hq'
    · intro q τ c u hq
      have hq' := (pub_st hr hst (s := .stale τ c u) ⟨by simp, by simp⟩).1 hq
      obtain ⟨a, b, c1, d, e, m, f, g⟩ := hI.stale q τ c u hq'
      have f1 := hlvl (World.pub_stale hq')
      have f2 := hlvl c1.pub
      have e' : q ≠ l := by rintro rfl; rw [hl] at hq'; cases hq'
      refine ⟨le_trans a (Nat.le_succ _), b, pub_ge hr hst c1, by rw [f1.1, f2.1, d], by rw [f1.2.1, f2.2.1]; exact e, m, (hho e').trans f,
        g.congr f1.1 f1.2.1 (fun x hx => ?_) (fun _ k _ _ => by rw [hext.maps τ a])⟩
      have g := hlvl hx.1.pub
      exact ⟨pub_ref hr hst hI hrep (w' := w') rfl (World.pub_stale hq') hx, g.1, g.2.1⟩
    · intro q τ c hq
      have hq' := (pub_st hr hst (s := .merged τ c) ⟨by simp, by simp⟩).1 hq
      obtain ⟨a, c1, d, e, m, f, g1, g2, g3, g4⟩ := hI.merged q τ c hq'
      have f1 := hlvl (World.pub_merged hq')
      have f2 := hlvl c1.pub
      have e' : q ≠ l := by rintro rfl; rw [hl] at hq'; cases hq'
      exact ⟨le_trans a (Nat.le_succ _), pub_ge hr hst c1, by rw [f1.1, f2.1, d], by rw [f1.2.1, f2.2.1]; exact e, m, (hho e').trans f,
        g1, g2, by rw [f1.1, f1.2.1]; exact g3, by rw [f1.1, f1.2.1, hext.maps τ a]; exact g4⟩
    · intro q hq
      have hq' := (pub_st hr hst (s := .gone) ⟨by simp, by simp⟩).1 hq
      obtain ⟨a, m, f, g1, g2, g3⟩ := hI.gone q hq'
      have f1 := hlvl (World.pub_gone hq')
      have e' : q ≠ l := by rintro rfl; rw [hl] at hq'; cases hq'
      exact ⟨by rw [f1.1]; exact a, m, (hho e').trans f, g1, g2, by rw [f1.1, f1.2.1]; exact g3⟩
    · intro q1 q2 m1 m2 hq1 hq2 hlv hm1 hm2 ha hb'
      obtain ⟨p1, o1, a1, a2, a3, a4, a5, -, a6⟩ := hcov q1 m1 hq1 hm1
      obtain ⟨p2, o2, b1, b2, b3, b4, b5, -, b6⟩ := hcov q2 m2 hq2 hm2
      have e := hI.disj p1 p2 o1 o2 a1 b1 (by rw [a3, b3, hlv]) a2 b2 (by order) (by order)
      rcases a6 with rfl | ⟨rfl, rfl⟩ <;> rcases b6 with rfl | ⟨rfl, rfl⟩
      · exact e
      · subst e
        rw [hhl] at hm1; cases hm1
        rw [hs.lhigh, hrl.2.1] at hb'
        exact absurd hb' (lt_irrefl _)
      · subst e
        rw [hhl] at hm2; cases hm2
        rw [hs.lhigh, hrl.2.1] at ha
        exact absurd ha (lt_irrefl _)
      · rfl
    · intro c u hc
      by_cases e : c = r
      · subst e
        refine ⟨pub_st_same hr hst, ⟨sep, hrl.2.1⟩, ?_⟩
        intro q m b hq hm h0 hk
        obtain ⟨p1, o1, a1, a2, a3, a4, a5, a6, -⟩ := hcov q m hq hm
        have h0' : w.lvl p1 ≠ 0 := by rw [a3]; exact h0
        obtain ⟨i, hi⟩ := Nat.exists_eq_succ_of_ne_zero h0'
        have := ((hI.page a1 a2).kids i hi b c (a6 b c h0' hk)).1
        rw [hr] at this; cases this
      · have hc' : w.pend c = some u := (Spec.upd_ne w.pend (some t) e).symm.trans hc
        obtain ⟨a, ⟨σ, b⟩, d⟩ := hI.pend c u hc'
        refine ⟨pub_live hr hst a, ⟨σ, by rw [(hlvl (World.pub_live a)).2.1, b]⟩, ?_⟩
        intro q m b' hq hm h0 hk
        obtain ⟨p1, o1, a1, a2, a3, a4, a5, a6, -⟩ := hcov q m hq hm
        have h0' : w.lvl p1 ≠ 0 := by rw [a3]; exact h0
        exact d p1 o1 b' a1 a2 h0' (a6 b' c h0' hk)
    · rcases hI.root with ⟨a, b, c, d⟩ | ⟨u, a, b, c⟩
      · have f := hlvl (World.pub_live b)
        exact Or.inl ⟨a, pub_live hr hst b, f.2.1.trans c, f.1.trans d⟩
      · have f := hlvl (World.pub_gone b)
        exact Or.inr ⟨u, a, (pub_st hr hst ⟨by simp, by simp⟩).2 b, lt_of_lt_of_eq c f.1.symm⟩
    · intro q τ c u m x hq hm hx' hlv h1 h2
      have hq' := (pub_st hr hst (s := .stale τ c u) ⟨by simp, by simp⟩).1 hq
      have f := hlvl (World.pub_stale hq')
      have e' : q ≠ l := by rintro rfl; rw [hl] at hq'; cases hq'
      rw [hho e'] at hm
      rcases pub_live_inv hr hst hx' with rfl | ⟨e, hx2⟩
      · have := (hI.stale q τ c u hq').1
        rw [hrl.2.2]; omega
      · have g := hlvl (World.pub_live hx2)
        rw [g.2.2]
        rw [f.1, g.1] at hlv
        rw [f.2.1, g.2.1] at h1
        rw [g.2.1] at h2
        exact hI.over q τ c u m x hq' hm hx2 hlv h1 h2
    · intro q hq
      rcases pub_pub_inv hr hst hq with rfl | ⟨e, hq'⟩
      · rw [hrl.2.2]; exact le_refl _
      · rw [(hlvl hq').2.2]; exact le_trans (hI.born q hq') (Nat.le_succ _)
    · intro q hq
      rcases pub_pub_inv hr hst hq with rfl | ⟨e, hq'⟩
      · rw [hrep, Spec.upd_same]
        exact ⟨Or.inl (pub_st_same hr hst), rfl, le_refl _⟩
      · obtain ⟨a, b, c⟩ := hI.rep q hq'
        have hp' : w.Pub (w.rep q) := by rcases a with a | a; exacts [World.pub_live a, World.pub_gone a]
        have f := hlvl hq'
        have g := hlvl hp'
        rw [hrep, Spec.upd_ne _ _ e, g.1, g.2.1, f.1, f.2.1]
        exact ⟨a.imp (pub_live hr hst) (pub_st hr hst ⟨by simp, by simp⟩).2, b, c⟩
    · intro q hq
      rcases hq with hq | hq
      · rcases pub_live_inv hr hst hq with rfl | ⟨e, hq'⟩
        · rw [hrep, Spec.upd_same]
        · rw [hrep, Spec.upd_ne _ _ e]; exact hI.repSelf q (Or.inl hq')
      · have hq' := (pub_st hr hst (s := .gone) ⟨by simp, by simp⟩).1 hq
        rw [hrep, Spec.upd_ne _ _ (pub_pub hr hst (World.pub_gone hq'))]
        exact hI.repSelf q (Or.inr hq')
    · intro q τ c u hq
      have hq' := (pub_st hr hst (s := .stale τ c u) ⟨by simp, by simp⟩).1 hq
      have hc := (hI.stale q τ c u hq').2.2.1.pub
      rw [hrep, Spec.upd_ne _ _ (pub_pub hr hst (World.pub_stale hq')), Spec.upd_ne _ _ (pub_pub hr hst hc)]
      exact hI.repStale q τ c u hq'
    · intro q τ c hq
      have hq' := (pub_st hr hst (s := .merged τ c) ⟨by simp, by simp⟩).1 hq
      have hc := (hI.merged q τ c hq').2.1.pub
      rw [hrep, Spec.upd_ne _ _ (pub_pub hr hst (World.pub_merged hq')), Spec.upd_ne _ _ (pub_pub hr hst hc)]
      exact hI.repMerged q τ c hq'
    · intro x hx'
      rcases pub_live_inv hr hst hx' with rfl | ⟨e, hx2⟩
      · refine Or.inr (Or.inl ?_)
        show Spec.upd w.pend x (some t) x ≠ none
        rw [Spec.upd_same]; simp
      · rcases hI.full x hx2 with a | a | ⟨q, m, b, a, c, d, f⟩
        · exact Or.inl ((hlvl (World.pub_live hx2)).2.1.trans a)
        · refine Or.inr (Or.inl ?_)
          show Spec.upd w.pend r (some t) x ≠ none
          rw [Spec.upd_ne _ _ e]; exact a
        · refine Or.inr (Or.inr ?_)
          have g := hlvl (World.pub_live a)
          by_cases e' : q = l
          · subst e'
            rw [hn] at c; cases c
            rcases (hkids d b x).1 f with f | f
            · exact ⟨q, ln, b, pub_live hr hst a, hhl, by rw [g.1]; exact d, by rw [g.2.1]; exact f⟩
            · exact ⟨r, rn, b, pub_st_same hr hst, hhr, by rw [hrl.1]; exact d, by rw [hrl.2.1]; exact f⟩
          · exact ⟨q, m, b, pub_live hr hst a, (hho e').trans c, by rw [g.1]; exact d, by rw [g.2.1]; exact f⟩
    · intro hs
      refine ⟨(hI.solo hs).1, fun q u hq => ?_, fun q τ c u hq => ?_⟩
      · by_cases e : q = r
        · subst e
          have hq : Spec.upd w.pend q (some t) q = some u := hq
          rw [Spec.upd_same] at hq
          cases hq
          exact hg hs
        · exact (hI.solo hs).2.1 q u ((Spec.upd_ne w.pend (some t) e).symm.trans hq)
      · have hq' := (pub_st hr hst (s := .stale τ c u) ⟨by simp, by simp⟩).1 hq
        obtain ⟨a, b⟩ := (hI.solo hs).2.2 q τ c u hq'
        have e' : q ≠ l := by rintro rfl; rw [hl] at hq'; cases hq'
        exact ⟨a, fun m x hm hx => pub_live hr hst (b m x ((hho e').symm.trans hm) hx)⟩
  · have hpr : w.pend r ≠ some u := by
      intro h
      have := (hI.pend r u h).1
      rw [hr] at this; cases this
    refine rely_of hI hu rfl hext rfl (fun q τ c => pub_st hr hst ⟨by simp, by simp⟩) (fun q => ?_)
      Iff.rfl (fun q => ?_) (fun q ho => ?_) (fun q hq => ?_) (fun _ _ _ _ _ => ⟨rfl, rfl⟩) (fun _ => ⟨rfl, rfl⟩) (Or.inl hg)
    · show Spec.upd w.pend r (some t) q = some u ↔ _
      by_cases e : q = r
      · subst e; rw [Spec.upd_same]
        exact ⟨fun h => absurd (Option.some.inj h).symm hu, fun h => absurd h hpr⟩
      · rw [Spec.upd_ne _ _ e]
    · by_cases e : q = l
      · subst e; exact Or.inr (Or.inl hx)
      · exact Or.inl (hho e)
    · refine pub_st_ne hr hst ?_
      rintro rfl
      have := hI.lkn q u (World.not_pub_priv hr) (Or.inl ho)
      rw [hr] at this; cases this
      exact hu rfl
    · refine (pub_st_ne hr hst ?_).trans hq
      rintro rfl
      rw [hr] at hq; cases hq
      exact hu rfl

end BT
