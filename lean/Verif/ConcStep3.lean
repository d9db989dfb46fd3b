import Verif.ConcStep2

/-!
# Merges and changes of the root
-/

set_option linter.unusedSectionVars false

namespace BT
open Spec
variable {K V : Type} [LinearOrder K] {cfg : Cfg K} {w w' : World K V} {t : Tid} {p : Ptr}

/-! ## Merge -/

/-- The world after the left page of a merge has been written: the right page is not part of the tree any more. -/
def World.merge (w : World K V) (t : Tid) (l r : Ptr) (n : Node K V) : World K V :=
  { w with
    mem := w.mem.setHeap l n
    st := Spec.upd w.st r (.stale w.now l t)
    rep := fun q => if w.rep q = r then l else w.rep q
    pend := Spec.upd w.pend r none }

theorem ok_merge (hI : CInv cfg w) {l r : Ptr} (hx : (w.lk l).x = some t) (hl : w.st l = .live) {ln rn n : Node K V} {L : Nat}
    (hln : w.heap l = some ln) (hnx : ln.next = some r) (hr : w.st r = .live) (hrn : w.heap r = some rn)
    (h6 : (w.lk r).six = some t) (hpd : w.pend r = some t) (hb : cfg.blink = true) (hns : w.NoStale t)
    (hm : MergePost cfg L (decide (w.lvl l ≠ 0)) (w.lo l) ln rn n) : (blg V cfg).Ok t w (w.merge t l r n) := by
  set w' := w.merge t l r n with hw'
  have pl := hI.page hl hln
  have pr := hI.page hr hrn
  obtain ⟨hk, hhk, hlvr, hlor⟩ : ∃ h, ln.high = some h ∧ w.lvl r = w.lvl l ∧ w.lo r = .key h := by
    rcases pl.nextB (Or.inl hb) with ⟨-, e⟩ | ⟨h, q, a, b, c, d, e⟩
    · rw [hnx] at e; cases e
    · rw [hnx] at b; cases b; exact ⟨h, a, d, e⟩
  have hlt1 := pl.lt
  have hlt2 := pr.lt
  rw [hhk, hiB_some] at hlt1
  have hlr : l ≠ r := by
    rintro rfl
    rw [hlor] at hlt1
    exact absurd hlt1 (lt_irrefl _)
  have hst_ne : ∀ {q}, q ≠ r → w'.st q = w.st q := fun h => Spec.upd_ne _ _ h
  have hst_r : w'.st r = .stale w.now l t := Spec.upd_same _ _ _
  have hhl : w'.heap l = some n := setHeap_same _ _ _
  have hho : ∀ {q}, q ≠ l → w'.heap q = w.heap q := fun h => setHeap_ne _ _ h
  have hst : ∀ {q s}, (∀ τ c, s ≠ .stale τ c t) → s ≠ .live → (w'.st q = s ↔ w.st q = s) := by
    intro q s hs hs'
    by_cases e : q = r
    · subst e; rw [hst_r, hr]
      exact ⟨fun h => absurd h.symm (hs _ _), fun h => absurd h.symm hs'⟩
    · rw [hst_ne e]
  have hlive : ∀ {q}, w'.st q = .live → q ≠ r ∧ w.st q = .live := by
    intro q hq
    have e : q ≠ r := by rintro rfl; rw [hst_r] at hq; cases hq
    exact ⟨e, by rw [← hst_ne e]; exact hq⟩
  have hpub : ∀ {q}, w'.Pub q ↔ w.Pub q := by
    intro q
    by_cases e : q = r
    · subst e; simp [World.Pub, hst_r, hr]
    · unfold World.Pub; rw [hst_ne e]
  have hrepl : w'.rep l = l := by
    show (if w.rep l = r then l else w.rep l) = l
    rw [hI.repSelf l (Or.inl hl), if_neg hlr]
  have hgone : ∀ q, w'.Gone q ↔ w.Gone q := by
    intro q
    unfold World.Gone
    show w'.st (if w.rep q = r then l else w.rep q) = _ ↔ _
    by_cases e : w.rep q = r
    · rw [if_pos e, hst_ne hlr, hl, e, hr]
    · rw [if_neg e, hst_ne e]
  have hge : ∀ {q τ}, τ ≤ w.now → w.Ge τ q → w'.Ge τ q := by
    intro q τ hτ hq
    by_cases e : q = r
    · subst e; simp [World.Ge, hst_r]; exact hτ
    · unfold World.Ge at hq ⊢; rw [hst_ne e]; exact hq
  have hext : Ext w w' := by
    refine ⟨fun _ _ => ⟨rfl, rfl, rfl⟩, fun q => ?_, fun q hq => ⟨(hgone q).2, ?_⟩, fun a b _ _ _ hn hg => absurd ((hgone a).1 hg) hn,
      le_refl _, fun _ _ => rfl⟩
    · by_cases e : q = r
      · subst e; rw [hst_r, hr]; exact le_refl _
      · rw [hst_ne e]; exact StLe.refl _ _
    · show w.lo (if w.rep q = r then l else w.rep q) ≤ _
      by_cases e : w.rep q = r
      · rw [if_pos e, e, hlor]; exact le_of_lt hlt1
      · rw [if_neg e]
  have hrk : ∀ q m b, w.st q = .live → w.heap q = some m → w.lvl q ≠ 0 → (b, r) ∉ kidsOf (w.lo q) (slots m.recs m.high) :=
    (hI.pend r t hpd).2.2
  -- no live page except l has r as sibling
  have hnr : ∀ {q m}, w.st q = .live → w.heap q = some m → m.next = some r → q = l := by
    intro q m hq hm' e
    rcases (hI.page hq hm').nextB (Or.inl hb) with ⟨-, e'⟩ | ⟨h, c, a1, a2, a3, a4, a5⟩
    · rw [e] at e'; cases e'
    · rw [e] at a2; cases a2
      rw [hlor] at a5; cases a5
      exact hI.same_hi hq hl (by rw [← a4, hlvr]) hm' hln (by rw [a1, hhk])
  have hnext : n.next = rn.next := hm.next (by simp [Node.hasNext, hb])
  have hrr : rn.next ≠ some r := fun e => hlr (hnr hr hrn e).symm
  have hkids : w.lvl l ≠ 0 → ∀ b c, (b, c) ∈ kidsOf (w.lo l) (slots n.recs n.high) ↔
      (b, c) ∈ kidsOf (w.lo l) (slots ln.recs ln.high) ∨ (b, c) ∈ kidsOf (w.lo r) (slots rn.recs rn.high) := by
    intro h0 b c
    have h1 := pl.ok
    rw [show decide (w.lvl l ≠ 0) = true by simp [h0]] at h1
    rw [hm.slots (by simp [h0]), kidsOf_append, kidEnd_slots _ _ h1.inner.ne, hhk, hiB_some, ← hlor, List.mem_append, ← hhk]
  have hcov : ∀ q m, w'.st q = .live → w'.heap q = some m → ∃ m0, w.st q = .live ∧ w.heap q = some m0 ∧ q ≠ r ∧
      (q = l ∧ m0 = ln ∧ m = n ∨ q ≠ l ∧ m0 = m) := by
    intro q m hq hm'
    obtain ⟨e, hq'⟩ := hlive hq
    by_cases e' : q = l
    · subst e'; rw [hhl] at hm'; cases hm'; exact ⟨ln, hq', hln, e, Or.inl ⟨rfl, rfl, rfl⟩⟩
    · rw [hho e'] at hm'; exact ⟨m, hq', hm', e, Or.inr ⟨e', rfl⟩⟩
  -- no page of the new tree refers to r
  have hnoref : ∀ {q m}, w'.st q = .live → w'.heap q = some m → m.next ≠ some r ∧
      ∀ b, w.lvl q ≠ 0 → (b, r) ∉ kidsOf (w.lo q) (slots m.recs m.high) := by
    intro q m hq hm'
    obtain ⟨m0, a1, a2, a3, a4⟩ := hcov q m hq hm'
    rcases a4 with ⟨rfl, rfl, rfl⟩ | ⟨a4, rfl⟩
    · refine ⟨by rw [hnext]; exact hrr, fun b h0 h => ?_⟩
      rcases (hkids h0 b r).1 h with h | h
      · exact hrk q m0 b hl hln h0 h
      · exact hrk r rn b hr hrn (by rw [hlvr]; exact h0) h
    · exact ⟨fun e => a4 (hnr a1 a2 e), fun b h0 => hrk q m0 b a1 a2 h0⟩
  have pgL : PageOk cfg w'.lvl w'.lo l n (fun c => w.st c = .live) (w'.maps w'.now) := by
    refine ⟨hm.ok, ?_, ?_, ?_⟩
    · rw [hm.high, hnext]
      rcases pr.nextB (Or.inl hb) with h | ⟨h, q, a, b, c, d, e⟩
      · exact Or.inl ⟨h.1, fun _ => h.2⟩
      · exact Or.inr ⟨h, q, a, fun _ => b, c, d.trans hlvr, e⟩
    · intro i hi b c hc
      have h0 : w.lvl l ≠ 0 := by have : w.lvl l = i + 1 := hi; omega
      rcases (hkids h0 b c).1 hc with h | h
      · exact pl.kids i hi b c h
      · exact pr.kids i (hlvr.trans hi) b c h
    · intro h0 k h1 h2 v
      have h0' : w.lvl l = 0 := h0
      have hle := pl.ok
      have hre := pr.ok
      rw [show decide (w.lvl l ≠ 0) = false by simp [h0']] at hle
      rw [show decide (w.lvl r ≠ 0) = false by simp [hlvr, h0']] at hre
      rw [hm.pairs, List.mem_append]
      rw [hm.high] at h2
      by_cases hk' : Bd.key k < Bd.key hk
      · have := pl.agree h0' k h1 (by rw [hhk]; exact hk') v
        rw [show w'.maps w'.now k = some v ↔ _ from this]
        refine ⟨Or.inl, fun h => h.resolve_right (fun h => ?_)⟩
        obtain ⟨x, hx, e⟩ := mem_pairs.1 h
        obtain ⟨a, e1, e2, -⟩ := hre.leaf.keyed x hx
        have := (pair_key e).1
        rw [e1] at this; cases this
        rw [hlor] at e2
        exact absurd hk' (not_lt.2 (Bd.leKey_iff'.1 e2))
      · have := pr.agree (hlvr.trans h0') k (by rw [hlor]; exact not_lt.1 hk') h2 v
        rw [show w'.maps w'.now k = some v ↔ _ from this]
        refine ⟨Or.inr, fun h => h.resolve_left (fun h => ?_)⟩
        obtain ⟨x, hx, e⟩ := mem_pairs.1 h
        obtain ⟨a, e1, -, e2⟩ := hle.leaf.keyed x hx
        have := (pair_key e).1
        rw [e1] at this; cases this
        rw [hhk] at e2
        exact hk' (Bd.gtKey_iff'.1 e2)
  -- turn references to live pages of the old world into references to live pages of the new one
  have lift : ∀ {q m}, w'.st q = .live → w'.heap q = some m →
      PageOk cfg w'.lvl w'.lo q m (fun c => w.st c = .live) (w'.maps w'.now) →
      PageOk cfg w'.lvl w'.lo q m (fun c => w'.st c = .live) (w'.maps w'.now) := by
    intro q m hq hm' h
    obtain ⟨n1, n2⟩ := hnoref hq hm'
    refine ⟨h.ok, ?_, ?_, h.agree⟩
    · rcases h.next with h | ⟨h, c, a, b, c1, d, e⟩
      · exact Or.inl h
      · refine Or.inr ⟨h, c, a, b, ?_, d, e⟩
        have e : c ≠ r := by rintro rfl; exact n1 (b (Or.inl hb))
        rw [hst_ne e]; exact c1
    · intro i hi b c hc
      obtain ⟨a1, a2, a3⟩ := h.kids i hi b c hc
      have e : c ≠ r := by
        rintro rfl
        exact n2 b (by have : w.lvl q = i + 1 := hi; omega) hc
      exact ⟨by rw [hst_ne e]; exact a1, a2, a3⟩
  have href : ∀ {τ q c}, τ ≤ w.now → w.Ref τ q c → w'.Ref τ q c := by
    intro τ q c hτ h
    refine ⟨hge hτ h.1, ?_⟩
    rw [hgone, hgone]; exact h.2
  refine ⟨?_, fun u hu => ?_, fun h hp => hp, rfl, rfl⟩
  · refine ⟨hI.base, hI.lkx, ?_, ?_, ?_, ?_, ?_, ?_, ?_, ?_, ?_, ?_, ?_, ?_, ?_, ?_, ?_, ?_, ?_, ?_, ?_⟩
    · intro q u hq hlk
      have hq' : ¬ w.Pub q := fun h => hq (hpub.2 h)
      have e : q ≠ r := by rintro rfl; exact hq' (World.pub_live hr)
      rw [hst_ne e]
      exact hI.lkn q u hq' hlk
    · intro q
      by_cases e : q = l
      · subst e; rw [hhl, hst_ne hlr, hl]; simp
      · rw [hho e]
        by_cases e' : q = r
        · subst e'; rw [hrn, hst_r]; simp
        · rw [hst_ne e']; exact hI.alloc q
    · intro q hq
      have := hI.fresh q hq
      have e : q ≠ l := by rintro rfl; rw [hln] at this; cases this
      rw [hho e]; exact this
    · intro q hq
      obtain ⟨e, hq'⟩ := hlive hq
      by_cases e' : q = l
      · subst e'; exact ⟨n, hhl, lift hq hhl pgL⟩
      · obtain ⟨m, a, b⟩ := hI.live q hq'
        have a' : w'.heap q = some m := (hho e').trans a
        exact ⟨m, a', lift hq a' b⟩
    · intro q hq
      exact hI.lvle q (hlive hq).2
    · intro q τ c u hq
      by_cases e : q = r
      · subst e
        rw [hst_r] at hq; cases hq
        refine ⟨le_refl _, Or.inl h6, World.ge_live ((hst_ne hlr).trans hl) _, hlvr.symm,
          by show w.lo l < w.lo q; rw [hlor]; exact hlt1, rn, (hho (Ne.symm hlr)).trans hrn,
          pr.congr rfl rfl (fun c hc => ⟨⟨hge (le_refl _) (World.ge_live hc _), ?_, ?_⟩, rfl, rfl⟩) (fun _ _ _ _ => rfl)⟩
        · rw [hgone]
          exact fun h => absurd h (hI.rep_live hc)
        · rw [hgone]
          exact fun _ h => absurd h (hI.rep_live hr)
      · rw [hst_ne e] at hq
        obtain ⟨a, b, c1, d, e2, m, f, g⟩ := hI.stale q τ c u hq
        have e' : q ≠ l := by rintro rfl; rw [hl] at hq; cases hq
        exact ⟨a, b, hge a c1, d, e2, m, (hho e').trans f,
          g.congr rfl rfl (fun x hx => ⟨href a hx, rfl, rfl⟩) (fun _ _ _ _ => rfl)⟩
    · intro q τ c hq
      have hq' := (hst (s := .merged τ c) (by simp) (by simp)).1 hq
      obtain ⟨a, c1, d, e, m, f, g⟩ := hI.merged q τ c hq'
      have e' : q ≠ l := by rintro rfl; rw [hl] at hq'; cases hq'
      exact ⟨a, hge a c1, d, e, m, (hho e').trans f, g⟩
    · intro q hq
      have hq' := (hst (s := .gone) (by simp) (by simp)).1 hq
      obtain ⟨a, m, f, g⟩ := hI.gone q hq'
      have e' : q ≠ l := by rintro rfl; rw [hl] at hq'; cases hq'
      exact ⟨a, m, (hho e').trans f, g⟩
    · -- disjointness
      have key : ∀ q m, w'.st q = .live → w'.heap q = some m → w.lvl q = w.lvl l → q ≠ l → w.lo q < hiB n.high → w.lo l < hiB m.high →
          False := by
        intro q m hq hm' hlv hne h1 h2
        obtain ⟨m0, a1, a2, a3, a4⟩ := hcov q m hq hm'
        rcases a4 with ⟨a4, -, -⟩ | ⟨a4, rfl⟩
        · exact hne a4
        · rw [hm.high] at h1
          by_cases h3 : w.lo q < Bd.key hk
          · exact hne (hI.disj q l m0 ln a1 hl hlv a2 hln (by rw [hhk]; exact h3) h2)
          · have h4 := hI.lo_lt a1 a2
            exact a3 (hI.disj q r m0 rn a1 hr (hlv.trans hlvr.symm) a2 hrn h1 (by rw [hlor]; order))
      intro q1 q2 m1 m2 hq1 hq2 hlv hm1 hm2 ha hb'
      obtain ⟨o1, a1, a2, a3, a4⟩ := hcov q1 m1 hq1 hm1
      obtain ⟨o2, b1, b2, b3, b4⟩ := hcov q2 m2 hq2 hm2
      rcases a4 with ⟨rfl, rfl, rfl⟩ | ⟨a4, rfl⟩ <;> rcases b4 with ⟨rfl, rfl, rfl⟩ | ⟨b4, rfl⟩
      · rfl
      · exact (key q2 _ hq2 hm2 hlv.symm b4 hb' ha).elim
      · exact (key q1 _ hq1 hm1 hlv a4 ha hb').elim
      · exact hI.disj q1 q2 _ _ a1 b1 hlv a2 b2 ha hb'
    · intro c u hc
      have e : c ≠ r := by
        rintro rfl
        have : (none : Option Tid) = some u := (Spec.upd_same w.pend c none).symm.trans hc
        cases this
      have hc' : w.pend c = some u := (Spec.upd_ne w.pend none e).symm.trans hc
      obtain ⟨a, b, d⟩ := hI.pend c u hc'
      refine ⟨(hst_ne e).trans a, b, ?_⟩
      intro q m b' hq hm' h0 hk'
      obtain ⟨m0, a1, a2, a3, a4⟩ := hcov q m hq hm'
      rcases a4 with ⟨rfl, rfl, rfl⟩ | ⟨a4, rfl⟩
      · rcases (hkids h0 b' c).1 hk' with h | h
        · exact d q _ b' hl hln h0 h
        · exact d r rn b' hr hrn (by rw [hlvr]; exact h0) h
      · exact d q _ b' a1 a2 h0 hk'
    · rcases hI.root with ⟨a, b, c, d⟩ | ⟨u, a, b, c⟩
      · refine Or.inl ⟨a, ?_, c, d⟩
        have e : w.mem.root ≠ r := by
          intro e
          rw [e, hlor] at c; cases c
        exact (hst_ne e).trans b
      · exact Or.inr ⟨u, a, (hst (by simp) (by simp)).2 b, c⟩
    · intro q τ c u m x hq hm' hx' hlv h1 h2
      obtain ⟨e, hx2⟩ := hlive hx'
      by_cases e' : q = r
      · subst e'
        rw [hho (Ne.symm hlr), hrn] at hm'; cases hm'
        obtain ⟨m2, c1, c2⟩ := hI.live x hx2
        have := c2.lt
        have h1' : w.lo q ≤ w.lo x := h1
        exact absurd (hI.disj q x _ m2 hr hx2 hlv hrn c1 (lt_of_le_of_lt h1' this) h2) (Ne.symm e)
      · rw [hst_ne e'] at hq
        have e2 : q ≠ l := by rintro rfl; rw [hl] at hq; cases hq
        rw [hho e2] at hm'
        exact hI.over q τ c u m x hq hm' hx2 hlv h1 h2
    · intro q hq
      exact hI.born q (hpub.1 hq)
    · intro q hq
      obtain ⟨a, b, c⟩ := hI.rep q (hpub.1 hq)
      show (w'.st (if w.rep q = r then l else w.rep q) = _ ∨ w'.st (if w.rep q = r then l else w.rep q) = _) ∧
        w.lvl (if w.rep q = r then l else w.rep q) = _ ∧ w.lo (if w.rep q = r then l else w.rep q) ≤ _
      by_cases e : w.rep q = r
      · rw [if_pos e, hst_ne hlr]
        rw [e] at b c
        rw [hlor] at c
        have c' : Bd.key hk ≤ w'.lo q := c
        exact ⟨Or.inl hl, hlvr.symm.trans b, by order⟩
      · rw [if_neg e, hst_ne e]
        exact ⟨a, b, c⟩
    · intro q hq
      have hq' : q ≠ r ∧ w.rep q = q := by
        rcases hq with hq | hq
        · exact ⟨(hlive hq).1, hI.repSelf q (Or.inl (hlive hq).2)⟩
        · have hq' := (hst (s := .gone) (by simp) (by simp)).1 hq
          exact ⟨(by rintro rfl; rw [hr] at hq'; cases hq'), hI.repSelf q (Or.inr hq')⟩
      show (if w.rep q = r then l else w.rep q) = q
      rw [hq'.2, if_neg hq'.1]
    · intro q τ c u hq
      by_cases e : q = r
      · subst e
        rw [hst_r] at hq; cases hq
        rw [hrepl]
        show (if w.rep q = q then l else w.rep q) = l
        rw [if_pos (hI.repSelf q (Or.inl hr))]
      · rw [hst_ne e] at hq
        show (if w.rep q = r then l else w.rep q) = (if w.rep c = r then l else w.rep c)
        rw [hI.repStale q τ c u hq]
    · intro q τ c hq
      have hq' := (hst (s := .merged τ c) (by simp) (by simp)).1 hq
      show (if w.rep q = r then l else w.rep q) = (if w.rep c = r then l else w.rep c)
      rw [hI.repMerged q τ c hq']
    · intro x hx'
      obtain ⟨e, hx2⟩ := hlive hx'
      rcases hI.full x hx2 with a | a | ⟨q, m, b, a, c, d, f⟩
      · exact Or.inl a
      · refine Or.inr (Or.inl ?_)
        show Spec.upd w.pend r none x ≠ none
        rw [Spec.upd_ne _ _ e]; exact a
      · refine Or.inr (Or.inr ?_)
        by_cases e1 : q = l
        · subst e1
          rw [hln] at c; cases c
          exact ⟨q, n, b, (hst_ne hlr).trans hl, hhl, d, (hkids d b x).2 (Or.inl f)⟩
        · by_cases e2 : q = r
          · subst e2
            rw [hrn] at c; cases c
            exact ⟨l, n, b, (hst_ne hlr).trans hl, hhl, by rw [hlvr] at d; exact d, (hkids (by rw [← hlvr]; exact d) b x).2 (Or.inr f)⟩
          · exact ⟨q, m, b, (hst_ne e2).trans a, (hho e1).trans c, d, f⟩
    · intro hs
      refine ⟨(hI.solo hs).1, fun q u hq => ?_, fun q τ c u hq => ?_⟩
      · have e : q ≠ r := by
          rintro rfl
          have : (none : Option Tid) = some u := (Spec.upd_same w.pend q none).symm.trans hq
          cases this
        exact (hI.solo hs).2.1 q u ((Spec.upd_ne w.pend none e).symm.trans hq)
      · by_cases e : q = r
        · subst e
          rw [hst_r] at hq; cases hq
          refine ⟨(hI.solo hs).2.1 q t hpd, fun m x hm hx => ?_⟩
          rw [hho (Ne.symm hlr), hrn] at hm; cases hm
          rcases pr.nextB (Or.inl hb) with ⟨-, e⟩ | ⟨h, x', a, b, d, e, f⟩
          · rw [hx] at e; cases e
          · rw [hx] at b; cases b
            refine (hst_ne ?_).trans d
            rintro rfl
            rw [a, f] at hlt2
            exact absurd hlt2 (lt_irrefl _)
        · rw [hst_ne e] at hq
          have h1 := ((hI.solo hs).2.2 q τ c u hq).1
          rw [(hI.solo hs).2.1 r t hpd] at h1
          cases h1
          exact absurd hq (hns.1 q τ c)
  · refine rely_of hI hu rfl hext rfl (fun q τ c => hst (by
        intro τ' c' h
        cases h
        exact hu rfl) (by simp)) (fun q => ?_)
      Iff.rfl (fun q => ?_) (fun q ho => ?_) (fun q hq => (hst (by simp) (by simp)).2 hq) (fun _ _ _ _ _ => ⟨rfl, rfl⟩)
      (fun _ => ⟨rfl, rfl⟩) (Or.inl (fun hs => (hI.solo hs).2.1 r t hpd))
    · show Spec.upd w.pend r none q = some u ↔ _
      by_cases e : q = r
      · subst e; rw [Spec.upd_same, hpd]
        exact ⟨fun h => (by cases h), fun h => absurd (Option.some.inj h).symm hu⟩
      · rw [Spec.upd_ne _ _ e]
    · by_cases e : q = l
      · subst e; exact Or.inr (Or.inl hx)
      · exact Or.inl (hho e)
    · refine hst_ne ?_
      rintro rfl
      rcases ho with ho | ho
      · rw [h6] at ho; exact hu (Option.some.inj ho).symm
      · have := (hI.lkx q u ho).1
        rw [h6] at this; cases this

/-! ## Marking the right page of a merge -/

def World.mark (w : World K V) (r : Ptr) (n : Node K V) (τ : Nat) (l : Ptr) : World K V :=
  { w with mem := w.mem.setHeap r n, st := Spec.upd w.st r (.merged τ l) }

theorem NodeOk.mark {b : Bool} {lo : Bd K} {n : Node K V} (h : NodeOk cfg b lo n) (nx : Option Ptr) :
    NodeOk cfg b lo { n with removed := false, next := nx } := ⟨h.kind, rfl, h.lt, h.slots, h.size⟩

theorem ok_mark (hI : CInv cfg w) {l r : Ptr} (hx : (w.lk r).x = some t) {τ : Nat} (hr : w.st r = .stale τ l t) {rn : Node K V}
    (hrn : w.heap r = some rn) (hg : w.Wr t) : (blg V cfg).Ok t w (w.mark r { rn with removed := true, next := some l } τ l) := by
  set w' := w.mark r { rn with removed := true, next := some l } τ l with hw'
  obtain ⟨hτ, -, hge0, hlv0, hlo0, m0, hm0, pg0⟩ := hI.stale r τ l t hr
  rw [hrn] at hm0; cases hm0
  have hst_ne : ∀ {q}, q ≠ r → w'.st q = w.st q := fun h => Spec.upd_ne _ _ h
  have hst_r : w'.st r = .merged τ l := Spec.upd_same _ _ _
  have hho : ∀ {q}, q ≠ r → w'.heap q = w.heap q := fun h => setHeap_ne _ _ h
  have hst : ∀ {q s}, (∀ τ c, s ≠ .stale τ c t) → (∀ τ c, s ≠ .merged τ c) → (w'.st q = s ↔ w.st q = s) := by
    intro q s hs hs'
    by_cases e : q = r
    · subst e; rw [hst_r, hr]
      exact ⟨fun h => absurd h.symm (hs' _ _), fun h => absurd h.symm (hs _ _)⟩
    · rw [hst_ne e]
  have hlive : ∀ {q}, w'.st q = .live ↔ w.st q = .live := hst (by simp) (by simp)
  have hgone' : ∀ {q}, w'.st q = .gone ↔ w.st q = .gone := hst (by simp) (by simp)
  have hpub : ∀ {q}, w'.Pub q ↔ w.Pub q := by
    intro q
    by_cases e : q = r
    · subst e; simp [World.Pub, hst_r, hr]
    · unfold World.Pub; rw [hst_ne e]
  have hgone : ∀ q, w'.Gone q ↔ w.Gone q := fun q => hgone'
  have hge : ∀ {q τ}, w'.Ge τ q ↔ w.Ge τ q := by
    intro q τ
    by_cases e : q = r
    · subst e; simp [World.Ge, hst_r, hr]
    · unfold World.Ge; rw [hst_ne e]
  have href : ∀ {τ q c}, w.Ref τ q c → w'.Ref τ q c := by
    intro τ q c h
    refine ⟨hge.2 h.1, ?_⟩
    rw [hgone, hgone]; exact h.2
  have hne : ∀ {q}, w.st q = .live → q ≠ r := by rintro q hq rfl; rw [hr] at hq; cases hq
  have hext : Ext w w' := by
    refine ⟨fun _ _ => ⟨rfl, rfl, rfl⟩, fun q => ?_, fun q hq => ⟨(hgone q).2, le_refl _⟩,
      fun a b _ _ _ hn hg => absurd ((hgone a).1 hg) hn, le_refl _, fun _ _ => rfl⟩
    by_cases e : q = r
    · subst e; rw [hst_r, hr]; exact Or.inr rfl
    · rw [hst_ne e]; exact StLe.refl _ _
  refine ⟨?_, fun u hu => ?_, fun h hp => hp, rfl, rfl⟩
  · refine ⟨hI.base, hI.lkx, ?_, ?_, ?_, ?_, ?_, ?_, ?_, ?_, ?_, ?_, ?_, ?_, ?_, ?_, ?_, ?_, ?_, ?_, ?_⟩
    · intro q u hq hlk
      have hq' : ¬ w.Pub q := fun h => hq (hpub.2 h)
      have e : q ≠ r := by rintro rfl; exact hq' (World.pub_stale hr)
      rw [hst_ne e]
      exact hI.lkn q u hq' hlk
    · intro q
      by_cases e : q = r
      · subst e; rw [hst_r, show w'.heap q = _ from setHeap_same _ _ _]; simp
      · rw [hho e, hst_ne e]; exact hI.alloc q
    · intro q hq
      have := hI.fresh q hq
      have e : q ≠ r := by rintro rfl; rw [hrn] at this; cases this
      rw [hho e]; exact this
    · intro q hq
      obtain ⟨m, a, b⟩ := hI.live q (hlive.1 hq)
      exact ⟨m, (hho (hne (hlive.1 hq))).trans a, b.congr rfl rfl (fun c hc => ⟨hlive.2 hc, rfl, rfl⟩) (fun _ _ _ _ => rfl)⟩
    · intro q hq
      exact hI.lvle q (hlive.1 hq)
    · intro q τ' c u hq
      have e : q ≠ r := by rintro rfl; rw [hst_r] at hq; cases hq
      rw [hst_ne e] at hq
      obtain ⟨a, b, c1, d, e2, m, f, g⟩ := hI.stale q τ' c u hq
      exact ⟨a, b, hge.2 c1, d, e2, m, (hho e).trans f, g.congr rfl rfl (fun x hx => ⟨href hx, rfl, rfl⟩) (fun _ _ _ _ => rfl)⟩
    · intro q τ' c hq
      by_cases e : q = r
      · subst e
        rw [hst_r] at hq; cases hq
        exact ⟨hτ, hge.2 hge0, hlv0, hlo0, _, setHeap_same _ _ _, rfl, rfl, pg0.ok.mark _, fun h => pg0.agree h⟩
      · rw [hst_ne e] at hq
        obtain ⟨a, c1, d, e2, m, f, g⟩ := hI.merged q τ' c hq
        exact ⟨a, hge.2 c1, d, e2, m, (hho e).trans f, g⟩
    · intro q hq
      have hq' := hgone'.1 hq
      obtain ⟨a, m, f, g⟩ := hI.gone q hq'
      have e' : q ≠ r := by rintro rfl; rw [hr] at hq'; cases hq'
      exact ⟨a, m, (hho e').trans f, g⟩
    · intro q1 q2 m1 m2 hq1 hq2 hlv hm1 hm2
      rw [hho (hne (hlive.1 hq1))] at hm1
      rw [hho (hne (hlive.1 hq2))] at hm2
      exact hI.disj q1 q2 m1 m2 (hlive.1 hq1) (hlive.1 hq2) hlv hm1 hm2
    · intro c u hc
      obtain ⟨a, b, d⟩ := hI.pend c u hc
      refine ⟨hlive.2 a, b, fun q m b' hq hm => ?_⟩
      rw [hho (hne (hlive.1 hq))] at hm
      exact d q m b' (hlive.1 hq) hm
    · rcases hI.root with ⟨a, b, c⟩ | ⟨u, a, b, c⟩
      · exact Or.inl ⟨a, hlive.2 b, c⟩
      · exact Or.inr ⟨u, a, hgone'.2 b, c⟩
    · intro q τ' c u m x hq hm hx'
      have e : q ≠ r := by rintro rfl; rw [hst_r] at hq; cases hq
      rw [hst_ne e] at hq
      rw [hho e] at hm
      exact hI.over q τ' c u m x hq hm (hlive.1 hx')
    · intro q hq
      exact hI.born q (hpub.1 hq)
    · intro q hq
      obtain ⟨a, b⟩ := hI.rep q (hpub.1 hq)
      exact ⟨a.imp hlive.2 hgone'.2, b⟩
    · intro q hq
      exact hI.repSelf q (hq.imp hlive.1 hgone'.1)
    · intro q τ' c u hq
      have e : q ≠ r := by rintro rfl; rw [hst_r] at hq; cases hq
      rw [hst_ne e] at hq
      exact hI.repStale q τ' c u hq
    · intro q τ' c hq
      by_cases e : q = r
      · subst e
        rw [hst_r] at hq; cases hq
        exact hI.repStale q τ l t hr
      · rw [hst_ne e] at hq
        exact hI.repMerged q τ' c hq
    · intro x hx'
      rcases hI.full x (hlive.1 hx') with a | a | ⟨q, m, b, a, c, d⟩
      · exact Or.inl a
      · exact Or.inr (Or.inl a)
      · exact Or.inr (Or.inr ⟨q, m, b, hlive.2 a, (hho (hne a)).trans c, d⟩)
    · intro hs
      refine ⟨(hI.solo hs).1, (hI.solo hs).2.1, fun q τ' c u hq => ?_⟩
      have e : q ≠ r := by rintro rfl; rw [hst_r] at hq; cases hq
      rw [hst_ne e] at hq
      obtain ⟨a, b⟩ := (hI.solo hs).2.2 q τ' c u hq
      exact ⟨a, fun m x hm hx => hlive.2 (b m x ((hho e).symm.trans hm) hx)⟩
  · refine rely_of hI hu rfl hext rfl (fun q τ c => hst (by
        intro τ' c' h
        cases h
        exact hu rfl) (by simp)) (fun q => Iff.rfl)
      Iff.rfl (fun q => ?_) (fun q ho => ?_) (fun q hq => (hst (by simp) (by simp)).2 hq) (fun _ _ _ _ _ => ⟨rfl, rfl⟩)
      (fun _ => ⟨rfl, rfl⟩) (Or.inl hg)
    · by_cases e : q = r
      · subst e; exact Or.inr (Or.inl hx)
      · exact Or.inl (hho e)
    · refine hst_ne ?_
      rintro rfl
      exact (Lk.not_own_x hI hx hu).1 ho

/-! ## Removing the root -/

def World.removeRoot (w : World K V) (t : Tid) (p : Ptr) (n : Node K V) : World K V :=
  { w with mem := w.mem.setHeap p n, st := Spec.upd w.st p .gone, top := w.top - 1, shr := some t }

theorem ok_removeRoot (hI : CInv cfg w) (hx : (w.lk p).x = some t) (hl : w.st p = .live) {n : Node K V} (hn : w.heap p = some n)
    (hlvl : w.lvl p = w.top) (h0 : w.lvl p ≠ 0) (hlo : w.lo p = .bot) (hhi : n.high = none)
    (hroot : w.mem.root = p ∨ w.shr = some t) (hone : n.recs.length = 1) (hg : w.Wr t) :
    (blg V cfg).Ok t w (w.removeRoot t p { n with removed := true, next := none }) := by
  set w' := w.removeRoot t p { n with removed := true, next := none } with hw'
  have pg := hI.page hl hn
  have hst_ne : ∀ {q}, q ≠ p → w'.st q = w.st q := fun h => Spec.upd_ne _ _ h
  have hst_p : w'.st p = .gone := Spec.upd_same _ _ _
  have hho : ∀ {q}, q ≠ p → w'.heap q = w.heap q := fun h => setHeap_ne _ _ h
  have hst : ∀ {q s}, s ≠ .live → s ≠ .gone → (w'.st q = s ↔ w.st q = s) := by
    intro q s hs hs'
    by_cases e : q = p
    · subst e; rw [hst_p, hl]
      exact ⟨fun h => absurd h.symm hs', fun h => absurd h.symm hs⟩
    · rw [hst_ne e]
  have hlive : ∀ {q}, w'.st q = .live → q ≠ p ∧ w.st q = .live := by
    intro q hq
    have e : q ≠ p := by rintro rfl; rw [hst_p] at hq; cases hq
    exact ⟨e, by rw [← hst_ne e]; exact hq⟩
  have hgo : ∀ {q}, w.st q = .gone → w'.st q = .gone := by
    intro q hq
    by_cases e : q = p
    · subst e; exact hst_p
    · rw [hst_ne e]; exact hq
  have hlg : ∀ {q}, w.st q = .live ∨ w.st q = .gone → w'.st q = .live ∨ w'.st q = .gone := by
    intro q hq
    by_cases e : q = p
    · subst e; exact Or.inr hst_p
    · rw [hst_ne e]; exact hq
  have hpub : ∀ {q}, w'.Pub q ↔ w.Pub q := by
    intro q
    by_cases e : q = p
    · subst e; simp [World.Pub, hst_p, hl]
    · unfold World.Pub; rw [hst_ne e]
  -- the page is alone on its level
  have alone : ∀ {q}, w.st q = .live → w.lvl q = w.top → q = p := by
    intro q hq hlv
    obtain ⟨m, hm, pm⟩ := hI.live q hq
    have := pm.lt
    refine hI.disj q p m n hq hl (hlv.trans hlvl.symm) hm hn ?_ ?_
    · rw [hhi, hiB_none]
      exact lt_of_lt_of_le this (Bd.le_top _)
    · rw [hlo]
      exact lt_of_le_of_lt (Bd.bot_le _) this
  have hgone1 : ∀ {q}, w.Gone q → w'.Gone q := fun h => hgo h
  have hgoneG : ∀ a b, w.Pub a → w.Pub b → w.lvl a ≤ w.lvl b → ¬ w.Gone a → w'.Gone a → w'.Gone b := by
    intro a b ha hb hle hn' hg
    have ea : w.rep a = p := by
      by_contra e
      exact hn' ((hst_ne e).symm.trans hg)
    obtain ⟨b1, b2, -⟩ := hI.rep b hb
    have hla := (hI.rep a ha).2.1
    rw [ea, hlvl] at hla
    rcases b1 with b1 | b1
    · have := hI.lvle _ b1
      have e := alone b1 (by omega)
      show w'.st (w.rep b) = _
      rw [e]; exact hst_p
    · exact hgo b1
  have hge : ∀ {q τ}, w.Ge τ q → w'.Ge τ q := by
    intro q τ hq
    by_cases e : q = p
    · subst e; exact World.ge_gone hst_p _
    · unfold World.Ge at hq ⊢; rw [hst_ne e]; exact hq
  have hext : Ext w w' := by
    refine ⟨fun _ _ => ⟨rfl, rfl, rfl⟩, fun q => ?_, fun q hq => ⟨hgone1, le_refl _⟩, hgoneG, le_refl _, fun _ _ => rfl⟩
    by_cases e : q = p
    · subst e; rw [hst_p, hl]; trivial
    · rw [hst_ne e]; exact StLe.refl _ _
  have href : ∀ {τ q c}, w.Pub q → w.lvl c ≤ w.lvl q → w.Ref τ q c → w'.Ref τ q c := by
    intro τ q c hq hle h
    refine ⟨hge h.1, fun hg => ?_, fun hl hg => ?_⟩
    · by_cases hg' : w.Gone c
      · exact hgone1 (h.2.1 hg')
      · exact hgoneG c q h.1.pub hq hle hg' hg
    · by_cases hg' : w.Gone q
      · exact hgone1 (h.2.2 hl hg')
      · exact hgoneG q c hq h.1.pub (le_of_eq hl.symm) hg' hg
  refine ⟨?_, fun u hu => ?_, fun h hp => hp, rfl, rfl⟩
  · refine ⟨hI.base, hI.lkx, ?_, ?_, ?_, ?_, ?_, ?_, ?_, ?_, ?_, ?_, ?_, ?_, ?_, ?_, ?_, ?_, ?_, ?_, ?_⟩
    · intro q u hq hlk
      have hq' : ¬ w.Pub q := fun h => hq (hpub.2 h)
      have e : q ≠ p := by rintro rfl; exact hq' (World.pub_live hl)
      rw [hst_ne e]
      exact hI.lkn q u hq' hlk
    · intro q
      by_cases e : q = p
      · subst e; rw [hst_p, show w'.heap q = _ from setHeap_same _ _ _]; simp
      · rw [hho e, hst_ne e]; exact hI.alloc q
    · intro q hq
      have := hI.fresh q hq
      have e : q ≠ p := by rintro rfl; rw [hn] at this; cases this
      rw [hho e]; exact this
    · intro q hq
      obtain ⟨e, hq'⟩ := hlive hq
      obtain ⟨m, a, b⟩ := hI.live q hq'
      refine ⟨m, (hho e).trans a, b.ok, ?_, ?_, b.agree⟩
      · rcases b.next with h | ⟨h, c, d1, d2, d3, d4, d5⟩
        · exact Or.inl h
        · refine Or.inr ⟨h, c, d1, d2, ?_, d4, d5⟩
          have e : c ≠ p := by rintro rfl; rw [hlo] at d5; cases d5
          exact (hst_ne e).trans d3
      · intro i hi b' c hc
        obtain ⟨d1, d2, d3⟩ := b.kids i hi b' c hc
        refine ⟨?_, d2, d3⟩
        have e : c ≠ p := by
          rintro rfl
          have := hI.lvle q hq'
          have hi' : w.lvl q = i + 1 := hi
          omega
        exact (hst_ne e).trans d1
    · intro q hq
      obtain ⟨e, hq'⟩ := hlive hq
      have := hI.lvle q hq'
      have h2 : w.lvl q ≠ w.top := fun h => e (alone hq' h)
      show w.lvl q ≤ w.top - 1
      omega
    · intro q τ c u hq
      have hq' := (hst (s := .stale τ c u) (by simp) (by simp)).1 hq
      obtain ⟨a, b, c1, d, e2, m, f, g⟩ := hI.stale q τ c u hq'
      have e : q ≠ p := by rintro rfl; rw [hl] at hq'; cases hq'
      refine ⟨a, b, hge c1, d, e2, m, (hho e).trans f, g.ok, ?_, ?_, g.agree⟩
      · rcases g.next with h | ⟨h, c', d1, d2, d3, d4, d5⟩
        · exact Or.inl h
        · exact Or.inr ⟨h, c', d1, d2, href (World.pub_stale hq') (le_of_eq d4) d3, d4, d5⟩
      · intro i hi b' c' hc
        obtain ⟨d1, d2, d3⟩ := g.kids i hi b' c' hc
        have d2' : w.lvl c' = i := d2
        have hi' : w.lvl q = i + 1 := hi
        exact ⟨href (World.pub_stale hq') (by omega) d1, d2, d3⟩
    · intro q τ c hq
      have hq' := (hst (s := .merged τ c) (by simp) (by simp)).1 hq
      obtain ⟨a, c1, d, e2, m, f, g⟩ := hI.merged q τ c hq'
      have e : q ≠ p := by rintro rfl; rw [hl] at hq'; cases hq'
      exact ⟨a, hge c1, d, e2, m, (hho e).trans f, g⟩
    · intro q hq
      by_cases e : q = p
      · subst e
        exact ⟨h0, _, setHeap_same _ _ _, rfl, rfl, pg.ok.mark _⟩
      · rw [hst_ne e] at hq
        obtain ⟨a, m, f, g⟩ := hI.gone q hq
        exact ⟨a, m, (hho e).trans f, g⟩
    · intro q1 q2 m1 m2 hq1 hq2 hlv hm1 hm2
      obtain ⟨e1, hq1'⟩ := hlive hq1
      obtain ⟨e2, hq2'⟩ := hlive hq2
      rw [hho e1] at hm1
      rw [hho e2] at hm2
      exact hI.disj q1 q2 m1 m2 hq1' hq2' hlv hm1 hm2
    · intro c u hc
      obtain ⟨a, ⟨σ, b⟩, d⟩ := hI.pend c u hc
      have e : c ≠ p := by rintro rfl; rw [hlo] at b; cases b
      refine ⟨(hst_ne e).trans a, ⟨σ, b⟩, fun q m b' hq hm => ?_⟩
      obtain ⟨e1, hq'⟩ := hlive hq
      rw [hho e1] at hm
      exact d q m b' hq' hm
    · refine Or.inr ⟨t, rfl, ?_⟩
      show w'.st w.mem.root = _ ∧ w.top - 1 < w.lvl w.mem.root
      rcases hroot with e | e
      · rw [e, hlvl]
        exact ⟨hst_p, by omega⟩
      · rcases hI.root with ⟨a, -⟩ | ⟨u, a, b, c⟩
        · rw [e] at a; cases a
        · exact ⟨hgo b, by omega⟩
    · intro q τ c u m x hq hm hx'
      have hq' := (hst (s := .stale τ c u) (by simp) (by simp)).1 hq
      have e : q ≠ p := by rintro rfl; rw [hl] at hq'; cases hq'
      rw [hho e] at hm
      exact hI.over q τ c u m x hq' hm (hlive hx').2
    · intro q hq
      exact hI.born q (hpub.1 hq)
    · intro q hq
      obtain ⟨a, b⟩ := hI.rep q (hpub.1 hq)
      exact ⟨hlg a, b⟩
    · intro q hq
      by_cases e : q = p
      · subst e; exact hI.repSelf q (Or.inl hl)
      · rw [hst_ne e] at hq; exact hI.repSelf q hq
    · intro q τ c u hq
      exact hI.repStale q τ c u ((hst (by simp) (by simp)).1 hq)
    · intro q τ c hq
      exact hI.repMerged q τ c ((hst (by simp) (by simp)).1 hq)
    · intro x hx'
      obtain ⟨e, hx2⟩ := hlive hx'
      rcases hI.full x hx2 with a | a | ⟨q, m, b, a, c, d, f⟩
      · exact Or.inl a
      · exact Or.inr (Or.inl a)
      · by_cases e1 : q = p
        · subst e1
          rw [hn] at c; cases c
          obtain ⟨i, hi⟩ := Nat.exists_eq_succ_of_ne_zero d
          have hb := (pg.kids i hi b x f).2.2
          obtain ⟨y, hy⟩ := List.length_eq_one_iff.1 hone
          rw [hy] at f
          simp [slots, kidsOf, hlo] at f
          exact Or.inl (hb.trans f.1)
        · exact Or.inr (Or.inr ⟨q, m, b, (hst_ne e1).trans a, (hho e1).trans c, d, f⟩)
    · intro hs
      refine ⟨(hI.solo hs).1, (hI.solo hs).2.1, fun q τ c u hq => ?_⟩
      have hq' := (hst (s := .stale τ c u) (by simp) (by simp)).1 hq
      obtain ⟨a, b⟩ := (hI.solo hs).2.2 q τ c u hq'
      have e' : q ≠ p := by rintro rfl; rw [hl] at hq'; cases hq'
      refine ⟨a, fun m x hm hnx => ?_⟩
      have hm' := (hho e').symm.trans hm
      refine (hst_ne ?_).trans (b m x hm' hnx)
      rintro rfl
      have hbl : cfg.blink = true := by
        have := hI.strict
        rw [(hI.solo hs).1] at this
        simpa using this.symm
      obtain ⟨-, -, -, -, -, m', f, g⟩ := hI.stale q τ c u hq'
      rw [hm'] at f; cases f
      rcases g.nextB (Or.inl hbl) with ⟨-, e⟩ | ⟨h, x', -, e, -, -, e2⟩
      · rw [hnx] at e; cases e
      · rw [hnx] at e; cases e
        rw [hlo] at e2; cases e2
  · have hnot : ¬ w.Own u p := (Lk.not_own_x hI hx hu).1
    have hshr : w.shr ≠ some u := by
      rcases hroot with e | e
      · rcases hI.root with ⟨a, -⟩ | ⟨v, a, b, c⟩
        · rw [a]; simp
        · rw [e, hl] at b; cases b
      · rw [e]; exact fun h => hu (Option.some.inj h).symm
    refine rely_of hI hu rfl hext rfl (fun q τ c => hst (by simp) (by simp)) (fun q => Iff.rfl)
      ⟨fun h => absurd (Option.some.inj h).symm hu, fun h => absurd h hshr⟩ (fun q => ?_) (fun q ho => ?_)
      (fun q hq => (hst (by simp) (by simp)).2 hq) (fun m ho hs' _ _ => ?_) (fun h => absurd h hshr) (Or.inl hg)
    · by_cases e : q = p
      · subst e; exact Or.inr (Or.inl hx)
      · exact Or.inl (hho e)
    · refine hst_ne ?_
      rintro rfl
      exact hnot ho
    · exfalso
      rcases hroot with e | e
      · rw [e] at ho; exact hnot ho
      · rcases hI.root with ⟨a, -⟩ | ⟨v, a, b, c⟩
        · rw [e] at a; cases a
        · rw [hs'] at b; cases b

/-! ## `root_` after a removal -/

theorem ok_shrinkRoot (hI : CInv cfg w) (hs : w.shr = some t) (hl : w.st p = .live) (hlo : w.lo p = .bot) (hlvl : w.lvl p = w.top)
    (hg : w.Wr t) : (blg V cfg).Ok t w { w with mem := { w.mem with root := p }, shr := none } := by
  have hgone : w.st w.mem.root = .gone := by
    rcases hI.root with ⟨a, -⟩ | ⟨u, a, b, c⟩
    · rw [hs] at a; cases a
    · exact b
  refine ⟨?_, fun u hu => ?_, fun h hp => hp, rfl, rfl⟩
  · obtain ⟨h1, h2, h2', h3, h4, h5, h6, h7, h8, h9, h10, h11, h12, h13, h14, h15, h16, h17, h18, h19, h20⟩ := hI
    exact ⟨h1, h2, h2', h3, h4, h5, h6, h7, h8, h9, h10, h11, Or.inl ⟨rfl, hl, hlo, hlvl⟩, h13, h14, h15, h16, h17, h18, h19, h20⟩
  · refine rely_of hI hu rfl (Ext.same rfl rfl rfl rfl rfl (le_refl _) (fun _ _ => rfl)) rfl (fun _ _ _ => Iff.rfl) (fun _ => Iff.rfl)
      ⟨fun h => (by cases h), fun h => ?_⟩ (fun _ => Or.inl rfl) (fun _ _ => rfl) (fun _ h => h) (fun m ho hs' _ _ => ?_) (fun h => ?_) (Or.inl hg)
    · rw [hs] at h; exact absurd (Option.some.inj h).symm hu
    · rw [hgone] at hs'; cases hs'
    · rw [hs] at h; exact absurd (Option.some.inj h).symm hu

/-! ## A new root -/

def World.grow (w : World K V) (p r : Ptr) : World K V :=
  { w with
    mem := { w.mem with root := p }
    ps := tick w.ps
    lvl := Spec.upd w.lvl p (w.top + 1)
    lo := Spec.upd w.lo p .bot
    born := Spec.upd w.born p (w.now + 1)
    st := Spec.upd w.st p .live
    rep := Spec.upd w.rep p p
    pend := Spec.upd w.pend r none
    top := w.top + 1 }

theorem ok_grow (hI : CInv cfg w) {l r : Ptr} {sep : K} {n : Node K V} (hroot : w.mem.root = l) (hl : w.Pub l) (hlvl : w.lvl l = w.lvl r)
    (hpd : w.pend r = some t) (hlor : w.lo r = .key sep) (hp : w.st p = .priv t) (hn : w.heap p = some n)
    (hok : NodeOk cfg true .bot n) (hhi : n.high = none) (hnx : n.next = none)
    (hsl : slots n.recs n.high = [(l, some sep), (r, none)]) (hown : w.strict = true → w.Own t l) : (blg V cfg).Ok t w (w.grow p r) := by
  set w' := w.grow p r with hw'
  have hst : w'.st = Spec.upd w.st p .live := rfl
  have hrep : w'.rep = Spec.upd w.rep p p := rfl
  obtain ⟨hr, -, hrk⟩ := hI.pend r t hpd
  obtain ⟨hshr, hll, hlol, htop⟩ : w.shr = none ∧ w.st l = .live ∧ w.lo l = .bot ∧ w.lvl l = w.top := by
    rcases hI.root with ⟨a, b, c, d⟩ | ⟨u, a, b, c⟩
    · rw [hroot] at b c d; exact ⟨a, b, c, d⟩
    · have := hI.lvle r hr
      rw [hroot, hlvl] at c
      omega
  have hext := pub_ext hp hst hI hrep (w' := w') rfl rfl rfl rfl
  have hfix : ∀ {q}, w.Pub q → w'.lvl q = w.lvl q ∧ w'.lo q = w.lo q ∧ w'.born q = w.born q := fun h => hext.fixed _ h
  have hpl : w'.lvl p = w.top + 1 ∧ w'.lo p = .bot ∧ w'.born p = w.now + 1 :=
    ⟨Spec.upd_same _ _ _, Spec.upd_same _ _ _, Spec.upd_same _ _ _⟩
  have hcur : w'.maps w'.now = w.maps w.now := tick_cur _
  have fl := hfix hl
  have fr := hfix (World.pub_live hr)
  have hkids : kidsOf (w'.lo p) (slots n.recs n.high) = [(.bot, l), (.key sep, r)] := by
    rw [hsl, hpl.2.1]; rfl
  have pgP : PageOk cfg w'.lvl w'.lo p n (fun c => w'.st c = .live) (w'.maps w'.now) := by
    refine ⟨?_, Or.inl ⟨hhi, fun _ => hnx⟩, ?_, ?_⟩
    · rw [hpl.1, hpl.2.1]; exact hok
    · intro i hi b c hc
      rw [hkids] at hc
      rw [hpl.1] at hi
      simp only [List.mem_cons, Prod.mk.injEq, List.not_mem_nil, or_false] at hc
      rcases hc with ⟨rfl, rfl⟩ | ⟨rfl, rfl⟩
      · exact ⟨pub_live hp hst hll, by rw [fl.1]; omega, by rw [fl.2.1, hlol]⟩
      · exact ⟨pub_live hp hst hr, by rw [fr.1]; omega, by rw [fr.2.1, hlor]⟩
    · intro h0
      rw [hpl.1] at h0
      cases h0
  refine ⟨?_, fun u hu => ?_, fun h hp => tick_past hp, rfl, rfl⟩
  · refine ⟨hI.base, hI.lkx, ?_, ?_, hI.fresh, ?_, ?_, ?_, ?_, ?_, ?_, ?_, ?_, ?_, ?_, ?_, ?_, ?_, ?_, ?_, ?_⟩
    · intro q u hq hlk
      have e : q ≠ p := by rintro rfl; exact hq (World.pub_live (pub_st_same hp hst))
      rw [pub_st_ne hp hst e]
      exact hI.lkn q u (fun h => hq (hext.pub h)) hlk
    · intro q
      by_cases e : q = p
      · subst e; rw [pub_st_same hp hst, show w'.heap q = _ from hn]; simp
      · rw [pub_st_ne hp hst e]; exact hI.alloc q
    · intro q hq
      rcases pub_live_inv hp hst hq with rfl | ⟨e, hq'⟩
      · exact ⟨n, hn, pgP⟩
      · obtain ⟨m, a, b⟩ := hI.live q hq'
        have f := hfix (World.pub_live hq')
        refine ⟨m, a, b.congr f.1 f.2.1 (fun c hc => ?_) (fun _ k _ _ => by rw [hcur])⟩
        have g := hfix (World.pub_live hc)
        exact ⟨pub_live hp hst hc, g.1, g.2.1⟩
    · intro q hq
      rcases pub_live_inv hp hst hq with rfl | ⟨e, hq'⟩
      · rw [hpl.1]; exact le_refl _
      · rw [(hfix (World.pub_live hq')).1]; exact le_trans (hI.lvle q hq') (Nat.le_succ _)
    · intro q τ c u hq
      have hq' := (pub_st hp hst (s := .stale τ c u) ⟨by simp, by simp⟩).1 hq
      obtain ⟨a, b, c1, d, e, m, f, g⟩ := hI.stale q τ c u hq'
      have f1 := hfix (World.pub_stale hq')
      have f2 := hfix c1.pub
      refine ⟨le_trans a (Nat.le_succ _), b, pub_ge hp hst c1, by rw [f1.1, f2.1, d], by rw [f1.2.1, f2.2.1]; exact e, m, f,
        g.congr f1.1 f1.2.1 (fun x hx => ?_) (fun _ k _ _ => by rw [hext.maps τ a])⟩
      have g := hfix hx.1.pub
      exact ⟨pub_ref hp hst hI hrep (w' := w') rfl (World.pub_stale hq') hx, g.1, g.2.1⟩
    · intro q τ c hq
      have hq' := (pub_st hp hst (s := .merged τ c) ⟨by simp, by simp⟩).1 hq
      obtain ⟨a, c1, d, e, m, f, g1, g2, g3, g4⟩ := hI.merged q τ c hq'
      have f1 := hfix (World.pub_merged hq')
      have f2 := hfix c1.pub
      exact ⟨le_trans a (Nat.le_succ _), pub_ge hp hst c1, by rw [f1.1, f2.1, d], by rw [f1.2.1, f2.2.1]; exact e, m, f,
        g1, g2, by rw [f1.1, f1.2.1]; exact g3, by rw [f1.1, f1.2.1, hext.maps τ a]; exact g4⟩
    · intro q hq
      have hq' := (pub_st hp hst (s := .gone) ⟨by simp, by simp⟩).1 hq
      obtain ⟨a, m, f, g1, g2, g3⟩ := hI.gone q hq'
      have f1 := hfix (World.pub_gone hq')
      exact ⟨by rw [f1.1]; exact a, m, f, g1, g2, by rw [f1.1, f1.2.1]; exact g3⟩
    · intro q1 q2 m1 m2 hq1 hq2 hlv hm1 hm2 ha hb'
      rcases pub_live_inv hp hst hq1 with rfl | ⟨e1, hq1'⟩ <;> rcases pub_live_inv hp hst hq2 with rfl | ⟨e2, hq2'⟩
      · rfl
      · have := hI.lvle q2 hq2'
        rw [hpl.1, (hfix (World.pub_live hq2')).1] at hlv
        omega
      · have := hI.lvle q1 hq1'
        rw [hpl.1, (hfix (World.pub_live hq1')).1] at hlv
        omega
      · have f1 := hfix (World.pub_live hq1')
        have f2 := hfix (World.pub_live hq2')
        rw [f1.1, f2.1] at hlv
        rw [f1.2.1] at ha
        rw [f2.2.1] at hb'
        exact hI.disj q1 q2 m1 m2 hq1' hq2' hlv hm1 hm2 ha hb'
    · intro c u hc
      have e : c ≠ r := by
        rintro rfl
        have : (none : Option Tid) = some u := (Spec.upd_same w.pend c none).symm.trans hc
        cases this
      have hc' : w.pend c = some u := (Spec.upd_ne w.pend none e).symm.trans hc
      obtain ⟨a, ⟨σ, b⟩, d⟩ := hI.pend c u hc'
      refine ⟨pub_live hp hst a, ⟨σ, by rw [(hfix (World.pub_live a)).2.1, b]⟩, ?_⟩
      intro q m b' hq hm h0 hk
      rcases pub_live_inv hp hst hq with rfl | ⟨e1, hq'⟩
      · have : n = m := Option.some.inj (hn.symm.trans hm)
        subst this
        rw [hkids] at hk
        simp only [List.mem_cons, Prod.mk.injEq, List.not_mem_nil, or_false] at hk
        rcases hk with ⟨-, rfl⟩ | ⟨-, rfl⟩
        · rw [hlol] at b; cases b
        · exact e rfl
      · have f := hfix (World.pub_live hq')
        rw [f.1] at h0
        rw [f.2.1] at hk
        exact d q m b' hq' hm h0 hk
    · exact Or.inl ⟨hshr, pub_st_same hp hst, hpl.2.1, hpl.1⟩
    · intro q τ c u m x hq hm hx' hlv h1 h2
      have hq' := (pub_st hp hst (s := .stale τ c u) ⟨by simp, by simp⟩).1 hq
      have f := hfix (World.pub_stale hq')
      rcases pub_live_inv hp hst hx' with rfl | ⟨e, hx2⟩
      · have := (hI.stale q τ c u hq').1
        rw [hpl.2.2]; omega
      · have g := hfix (World.pub_live hx2)
        rw [g.2.2]
        rw [f.1, g.1] at hlv
        rw [f.2.1, g.2.1] at h1
        rw [g.2.1] at h2
        exact hI.over q τ c u m x hq' hm hx2 hlv h1 h2
    · intro q hq
      rcases pub_pub_inv hp hst hq with rfl | ⟨e, hq'⟩
      · rw [hpl.2.2]; exact le_refl _
      · rw [(hfix hq').2.2]; exact le_trans (hI.born q hq') (Nat.le_succ _)
    · intro q hq
      rcases pub_pub_inv hp hst hq with rfl | ⟨e, hq'⟩
      · rw [hrep, Spec.upd_same]
        exact ⟨Or.inl (pub_st_same hp hst), rfl, le_refl _⟩
      · obtain ⟨a, b, c⟩ := hI.rep q hq'
        have hp' : w.Pub (w.rep q) := by rcases a with a | a; exacts [World.pub_live a, World.pub_gone a]
        have f := hfix hq'
        have g := hfix hp'
        rw [hrep, Spec.upd_ne _ _ e, g.1, g.2.1, f.1, f.2.1]
        exact ⟨a.imp (pub_live hp hst) (pub_st hp hst ⟨by simp, by simp⟩).2, b, c⟩
    · intro q hq
      rcases hq with hq | hq
      · rcases pub_live_inv hp hst hq with rfl | ⟨e, hq'⟩
        · rw [hrep, Spec.upd_same]
        · rw [hrep, Spec.upd_ne _ _ e]; exact hI.repSelf q (Or.inl hq')
      · have hq' := (pub_st hp hst (s := .gone) ⟨by simp, by simp⟩).1 hq
        rw [hrep, Spec.upd_ne _ _ (pub_pub hp hst (World.pub_gone hq'))]
        exact hI.repSelf q (Or.inr hq')
    · intro q τ c u hq
      have hq' := (pub_st hp hst (s := .stale τ c u) ⟨by simp, by simp⟩).1 hq
      have hc := (hI.stale q τ c u hq').2.2.1.pub
      rw [hrep, Spec.upd_ne _ _ (pub_pub hp hst (World.pub_stale hq')), Spec.upd_ne _ _ (pub_pub hp hst hc)]
      exact hI.repStale q τ c u hq'
    · intro q τ c hq
      have hq' := (pub_st hp hst (s := .merged τ c) ⟨by simp, by simp⟩).1 hq
      have hc := (hI.merged q τ c hq').2.1.pub
      rw [hrep, Spec.upd_ne _ _ (pub_pub hp hst (World.pub_merged hq')), Spec.upd_ne _ _ (pub_pub hp hst hc)]
      exact hI.repMerged q τ c hq'
    · intro x hx'
      rcases pub_live_inv hp hst hx' with rfl | ⟨e, hx2⟩
      · exact Or.inl hpl.2.1
      · rcases hI.full x hx2 with a | a | ⟨q, m, b, a, c, d, f⟩
        · exact Or.inl ((hfix (World.pub_live hx2)).2.1.trans a)
        · by_cases e1 : x = r
          · subst e1
            exact Or.inr (Or.inr ⟨p, n, .key sep, pub_st_same hp hst, hn, by rw [hpl.1]; simp, by rw [hkids]; simp⟩)
          · refine Or.inr (Or.inl ?_)
            show Spec.upd w.pend r none x ≠ none
            rw [Spec.upd_ne _ _ e1]; exact a
        · have g := hfix (World.pub_live a)
          exact Or.inr (Or.inr ⟨q, m, b, pub_live hp hst a, c, by rw [g.1]; exact d, by rw [g.2.1]; exact f⟩)
    · intro hs
      refine ⟨(hI.solo hs).1, fun q u hq => ?_, fun q τ c u hq => ?_⟩
      · have e : q ≠ r := by
          rintro rfl
          have : (none : Option Tid) = some u := (Spec.upd_same w.pend q none).symm.trans hq
          cases this
        exact (hI.solo hs).2.1 q u ((Spec.upd_ne w.pend none e).symm.trans hq)
      · have hq' := (pub_st hp hst (s := .stale τ c u) ⟨by simp, by simp⟩).1 hq
        obtain ⟨a, b⟩ := (hI.solo hs).2.2 q τ c u hq'
        exact ⟨a, fun m x hm hx => pub_live hp hst (b m x hm hx)⟩
  · refine rely_of hI hu rfl hext rfl (fun q τ c => pub_st hp hst ⟨by simp, by simp⟩) (fun q => ?_)
      Iff.rfl (fun q => Or.inl rfl) (fun q ho => ?_) (fun q hq => ?_) (fun m ho hs hm hmh => ?_) (fun h => ?_)
      (Or.inl (fun hs => (hI.solo hs).2.1 r t hpd))
    · show Spec.upd w.pend r none q = some u ↔ _
      by_cases e : q = r
      · subst e; rw [Spec.upd_same, hpd]
        exact ⟨fun h => (by cases h), fun h => absurd (Option.some.inj h).symm hu⟩
      · rw [Spec.upd_ne _ _ e]
    · refine pub_st_ne hp hst ?_
      rintro rfl
      have := hI.lkn q u (World.not_pub_priv hp) (Or.inl ho)
      rw [hp] at this; cases this
      exact hu rfl
    · refine (pub_st_ne hp hst ?_).trans hq
      rintro rfl
      rw [hp] at hq; cases hq
      exact hu rfl
    · exfalso
      rcases hmh with hmh | hmh
      · rw [hroot] at ho
        exact hu (hI.own_excl (hown hmh) ho)
      rw [hroot] at hm
      obtain ⟨rn, hrn, pr⟩ := hI.live r hr
      have := pr.lt
      have e := hI.disj r l rn m hr hll hlvl.symm hrn hm (by rw [hmh, hiB_none]; exact lt_of_lt_of_le this (Bd.le_top _))
        (by rw [hlol]; exact lt_of_le_of_lt (Bd.bot_le _) this)
      rw [e, hlol] at hlor
      cases hlor
    · rw [hshr] at h; cases h

end BT
