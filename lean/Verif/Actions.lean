import Verif.Wf

/-!
# Tree-level actions

The steps all four variants are made of: change one page, split a page (new page still unknown to the
parent), tell the parent, forget a child, merge two neighbours, grow and shrink the tree.
-/

set_option linter.unusedSectionVars false

namespace BT
variable {K V : Type} [LinearOrder K]

theorem lastOf_eq {g : Grp} {R : List Ptr} {x : Ptr} (h : g.1 :: g.2 = R ++ [x]) : lastOf g = x := by
  have h1 : lastOf g = (g.1 :: g.2).getLastD 0 := by rw [List.getLastD_cons]; rfl
  rw [h1, h, List.getLastD_concat]

theorem map_fst_sublist (G : List Grp) : (G.map Prod.fst).Sublist (flat G) := by
  induction G with
  | nil => simp
  | cons g G ih =>
    simp only [List.map_cons, flat_cons]
    exact List.Sublist.cons_cons _ (ih.trans (List.sublist_append_right _ _))

theorem align {α β : Type} {A B A' B' : List (α × β)} {c : α} {x y : β}
    (h : A ++ (c, x) :: B = A' ++ (c, y) :: B') (hn : ((A ++ (c, x) :: B).map Prod.fst).Nodup) :
    A = A' ∧ x = y ∧ B = B' := by
  induction A generalizing A' with
  | nil =>
    cases A' with
    | nil => simp at h; exact ⟨rfl, h.1, h.2⟩
    | cons a A' =>
      simp only [List.nil_append, List.cons_append, List.cons.injEq] at h
      obtain ⟨rfl, rfl⟩ := h
      simp at hn
  | cons a A ih =>
    cases A' with
    | nil =>
      simp only [List.nil_append, List.cons_append, List.cons.injEq] at h
      obtain ⟨rfl, h⟩ := h
      simp at hn
    | cons a' A' =>
      simp only [List.cons_append, List.cons.injEq] at h
      obtain ⟨rfl, h⟩ := h
      simp only [List.cons_append, List.map_cons, List.nodup_cons] at hn
      obtain ⟨h1, h2, h3⟩ := ih h hn.2
      exact ⟨by rw [h1], h2, h3⟩

/-- Reading a child slot off the parent level. -/
theorem Kid.split {h : Heap K V} {U1 U2 : List Ptr} {u : Ptr} {G : List Grp} {X Y : List (Ptr × Option K)}
    {c : Ptr} {b : Option K} (hk : Kid h (U1 ++ u :: U2) G) (hu : slotsOf h u = X ++ (c, b) :: Y) :
    ∃ G1 run G2, G = G1 ++ (c, run) :: G2 ∧ b = highOf h (lastOf (c, run)) ∧
      G1.map (fun g => (g.1, highOf h (lastOf g))) = U1.flatMap (slotsOf h) ++ X ∧
      G2.map (fun g => (g.1, highOf h (lastOf g))) = Y ++ U2.flatMap (slotsOf h) := by
  unfold Kid at hk
  simp only [List.flatMap_append, List.flatMap_cons, hu, List.append_assoc, List.cons_append] at hk
  rw [← List.append_assoc] at hk
  obtain ⟨G1, G2', rfl, h1, h2⟩ := List.map_eq_append_iff.1 hk.symm
  obtain ⟨⟨c', run⟩, G2, rfl, h3, h4⟩ := List.map_eq_cons_iff.1 h2
  simp only [Prod.mk.injEq] at h3
  obtain ⟨rfl, rfl⟩ := h3
  exact ⟨G1, run, G2, rfl, rfl, h1, h4⟩

section wf
variable {cfg : Cfg K} {L : Nat} {s : St K V} {H : Nat} {gr : Nat → List Grp}

theorem WF.fst_nodup (w : WF cfg s H gr) {i : Nat} (hi : i ≤ H) : ((gr i).map Prod.fst).Nodup :=
  (w.nodup hi).sublist (map_fst_sublist _)

/-- `p` is a page of level `i` with contents `n` and left border `lo`. -/
def At (cfg : Cfg K) (s : St K V) (gr : Nat → List Grp) (i : Nat) (p : Ptr) (n : Node K V) (lo : Bd K) : Prop :=
  ∃ A B, flat (gr i) = A ++ p :: B ∧ s.heap p = some n ∧
    Chain (PageAt cfg i) s.heap .bot A lo (some p) ∧ PageAt cfg i lo n B.head? ∧
    Chain (PageAt cfg i) s.heap (hiB n.high) B .top none

theorem At.heap {i p n lo} (h : At cfg s gr i p n lo) : s.heap p = some n := by
  obtain ⟨_, _, _, h, _⟩ := h; exact h
theorem At.mem {i p n lo} (h : At cfg s gr i p n lo) : p ∈ flat (gr i) := by
  obtain ⟨_, _, h, _⟩ := h; rw [h]; simp
theorem At.ok {i p n lo} (h : At cfg s gr i p n lo) : NodeOk cfg (decide (i ≠ 0)) lo n := by
  obtain ⟨_, _, _, _, _, h, _⟩ := h; exact h.1
theorem At.ok0 {p n lo} (h : At cfg s gr 0 p n lo) : NodeOk cfg false lo n := h.ok
theorem At.okS {i p n lo} (h : At cfg s gr (i + 1) p n lo) : NodeOk cfg true lo n := by
  have := h.ok; simpa using this

theorem WF.at_of_append (w : WF cfg s H gr) {i : Nat} (hi : i ≤ H) {A B : List Ptr} {p : Ptr}
    (h : flat (gr i) = A ++ p :: B) : ∃ n lo, At cfg s gr i p n lo ∧
      Chain (PageAt cfg i) s.heap .bot A lo (some p) := by
  have hc := w.chain i hi
  rw [h, Chain.append] at hc
  obtain ⟨lo, h1, n, h2, h3, h4⟩ := hc
  exact ⟨n, lo, ⟨A, B, h, h2, by simpa using h1, by simpa using h3, h4⟩, by simpa using h1⟩

theorem WF.at_of_mem (w : WF cfg s H gr) {i : Nat} (hi : i ≤ H) {p : Ptr} (h : p ∈ flat (gr i)) :
    ∃ n lo, At cfg s gr i p n lo := by
  obtain ⟨A, B, hAB⟩ := List.append_of_mem h
  obtain ⟨n, lo, h, -⟩ := w.at_of_append hi hAB
  exact ⟨n, lo, h⟩

theorem append_inj_of_nodup {α : Type} {A B A' B' : List α} {p : α} (h : A ++ p :: B = A' ++ p :: B')
    (hn : (A ++ p :: B).Nodup) : A = A' ∧ B = B' := by
  induction A generalizing A' with
  | nil =>
    cases A' with
    | nil => simp at h; exact ⟨rfl, h⟩
    | cons a A' =>
      simp only [List.nil_append, List.cons_append, List.cons.injEq] at h
      obtain ⟨rfl, rfl⟩ := h
      simp at hn
  | cons a A ih =>
    cases A' with
    | nil =>
      simp only [List.nil_append, List.cons_append, List.cons.injEq] at h
      obtain ⟨rfl, h⟩ := h
      simp at hn
    | cons a' A' =>
      simp only [List.cons_append, List.cons.injEq] at h
      obtain ⟨rfl, h⟩ := h
      simp only [List.cons_append, List.nodup_cons] at hn
      obtain ⟨h1, h2⟩ := ih h hn.2
      exact ⟨by rw [h1], h2⟩

theorem At.lo_eq (w : WF cfg s H gr) {i : Nat} (hi : i ≤ H) {p n lo} (h : At cfg s gr i p n lo)
    {A B : List Ptr} {m : Bd K} {e : Option Ptr} (hAB : flat (gr i) = A ++ p :: B)
    (hc : Chain (PageAt cfg i) s.heap .bot A m e) : m = lo := by
  obtain ⟨A', B', h1, h2, h3, -⟩ := h
  have hn := w.nodup hi
  rw [hAB] at hn h1
  obtain ⟨rfl, rfl⟩ := append_inj_of_nodup h1 hn
  rw [hc.end_eq, h3.end_eq]

/-- **A1** Replace the contents of a page. -/
theorem WF.replacePage (w : WF cfg s H gr) {i : Nat} (hi : i ≤ H) {p : Ptr} {n n' : Node K V} {lo : Bd K}
    (hat : At cfg s gr i p n lo) (hpage : NodeOk cfg (decide (i ≠ 0)) lo n') (hnext : n'.next = n.next)
    (hhigh : n'.high = n.high) (hslots : 0 < i → slots n'.recs n'.high = slots n.recs n.high) :
    WF cfg { s with heap := upd s.heap p n' } H gr := by
  have hn := hat.heap
  obtain ⟨A, B, hAB⟩ := List.append_of_mem hat.mem
  have hflat : flat (gr i) = A ++ [p] ++ B := by simp [hAB]
  have := w.modify (i := i) hi (G' := gr i) (X := [p]) (X' := [p]) (h' := upd s.heap p n')
    (fresh' := s.fresh) hflat hflat rfl (by simp)
    (by
      rintro m m' hA ⟨n0, h1, h2, h3⟩
      rw [hn] at h1
      cases h1
      have := At.lo_eq w hi hat hAB hA
      subst this
      refine ⟨n', by simp, ⟨hpage, ?_⟩, ?_⟩
      · intro hh
        rw [hnext]
        apply h2.2
        simp only [Node.hasNext] at hh ⊢
        rw [h2.1.kind, ← hpage.kind]
        exact hh
      rw [hhigh]
      exact h3)
    (by intro q hq; exact Or.inl hq) (by intro q hq hq'; exact absurd hq hq')
    (by intro q hq _; exact upd_other _ (by simpa using hq))
    (by
      intro q hq
      apply w.fresh
      by_cases h : q = p
      · subst h; simp [hn]
      · rwa [upd_other _ h] at hq)
    (by
      apply List.map_congr_left
      intro g _
      by_cases h : lastOf g = p
      · simp [highOf, h, hn, hhigh]
      · simp [highOf, upd_other _ h])
    (by
      intro h0
      simp only [List.flatMap_cons, List.flatMap_nil, List.append_nil]
      rw [slotsOf_eq (by simp : upd s.heap p n' p = some n'), slotsOf_eq hn, hslots h0])
    (by
      intro h
      subst h
      exact w.top)
  rwa [Function.update_eq_self] at this

/-- Effect of `replacePage` on the contents. -/
theorem WF.replacePage_contents (w : WF cfg s H gr) {i : Nat} (hi : i ≤ H) {p : Ptr} {n n' : Node K V}
    {lo : Bd K} (hat : At cfg s gr i p n lo) (hpairs : i = 0 → pairs n'.recs = pairs n.recs) :
    contents { s with heap := upd s.heap p n' } gr = contents s gr := by
  have hn := hat.heap
  obtain ⟨A, B, hAB⟩ := List.append_of_mem hat.mem
  have hflat : flat (gr i) = A ++ [p] ++ B := by simp [hAB]
  have := w.modify_contents (i := i) hi (G' := gr i) (X := [p]) (X' := [p]) (h' := upd s.heap p n')
    (fresh' := s.fresh) hflat hflat
    (by intro q hq; exact Or.inl hq)
    (by intro q hq _; exact upd_other _ (by simpa using hq))
    (by
      intro h0
      simp only [List.flatMap_cons, List.flatMap_nil, List.append_nil]
      rw [pairsOf_eq (by simp : upd s.heap p n' p = some n'), pairsOf_eq hn, hpairs h0])
  rwa [Function.update_eq_self] at this

/-- Changing a leaf changes exactly its part of the contents. -/
theorem WF.leaf_contents (w : WF cfg s H gr) {p : Ptr} {A B : List Ptr} {n : Node K V}
    (hAB : flat (gr 0) = A ++ p :: B) (hn : s.heap p = some n) :
    contents s gr = A.flatMap (pairsOf s.heap) ++ pairs n.recs ++ B.flatMap (pairsOf s.heap) ∧
    ∀ n', contents { s with heap := upd s.heap p n' } gr
      = A.flatMap (pairsOf s.heap) ++ pairs n'.recs ++ B.flatMap (pairsOf s.heap) := by
  have hnd := w.nodup (i := 0) (by omega)
  rw [hAB, List.nodup_append] at hnd
  obtain ⟨-, h2, h3⟩ := hnd
  constructor
  · simp [contents, hAB, pairsOf_eq hn]
  · intro n'
    simp only [contents, hAB, List.flatMap_append, List.flatMap_cons, List.append_assoc]
    rw [pairsOf_eq (by simp : upd s.heap p n' p = some n')]
    congr 1
    · apply List.flatMap_congr
      intro q hq
      have : q ≠ p := fun h => h3 q hq p (by simp) h
      simp only [pairsOf, upd_other _ this]
    · congr 1
      apply List.flatMap_congr
      intro q hq
      have : q ≠ p := fun h => by subst h; exact (List.nodup_cons.1 h2).1 hq
      simp only [pairsOf, upd_other _ this]

/-- **A2** Split a page; the new page stays pending behind it. -/
theorem WF.halfSplit (w : WF cfg s H gr) {i : Nat} (hi : i ≤ H) {G1 G2 : List Grp} {g g' : Grp}
    {R1 R2 : List Ptr} {p r : Ptr} {n l rn : Node K V} {lo : Bd K}
    (hg : gr i = G1 ++ g :: G2) (hR : g.1 :: g.2 = R1 ++ p :: R2)
    (hR' : g'.1 :: g'.2 = R1 ++ p :: r :: R2)
    (hat : At cfg s gr i p n lo) (hr : s.heap r = none) {fresh' : Ptr}
    (hf : s.fresh ≤ fresh') (hrf : r < fresh')
    (hpage : ∀ nx, PageAt cfg i lo n nx →
      PageAt cfg i lo l (some r) ∧ PageAt cfg i (hiB l.high) rn nx)
    (hhigh : rn.high = n.high)
    (hslots : 0 < i → slots n.recs n.high = slots l.recs l.high ++ slots rn.recs rn.high)
    (hpairs : i = 0 → pairs n.recs = pairs l.recs ++ pairs rn.recs) :
    WF cfg ⟨upd (upd s.heap p l) r rn, fresh', s.root⟩ H (Function.update gr i (G1 ++ g' :: G2)) ∧
    contents ⟨upd (upd s.heap p l) r rn, fresh', s.root⟩ (Function.update gr i (G1 ++ g' :: G2))
      = contents s gr := by
  have hn := hat.heap
  have hrp : r ≠ p := by rintro rfl; rw [hn] at hr; cases hr
  have hflat : flat (gr i) = (flat G1 ++ R1) ++ [p] ++ (R2 ++ flat G2) := by
    rw [hg, flat_append, flat_cons, ← List.cons_append, hR]; simp
  have hflat' : flat (G1 ++ g' :: G2) = (flat G1 ++ R1) ++ [p, r] ++ (R2 ++ flat G2) := by
    rw [flat_append, flat_cons, ← List.cons_append, hR']; simp
  have h1 : g'.1 = g.1 := by
    cases R1 <;> simp at hR hR' <;> rw [hR.1, hR'.1]
  have hup : upd (upd s.heap p l) r rn p = some l := by rw [upd_other _ hrp.symm]; simp
  have hur : upd (upd s.heap p l) r rn r = some rn := by simp
  have hoff : ∀ q, q ∉ [p] → q ∉ [p, r] → upd (upd s.heap p l) r rn q = s.heap q := by
    intro q hq hq'
    simp only [List.mem_cons, List.not_mem_nil, or_false, not_or] at hq'
    rw [upd_other _ hq'.2, upd_other _ hq'.1]
  have hnew : ∀ q ∈ [p, r], q ∈ [p] ∨ s.heap q = none := by
    intro q hq
    simp only [List.mem_cons, List.not_mem_nil, or_false] at hq
    rcases hq with rfl | rfl
    · simp
    · exact Or.inr hr
  constructor
  · refine w.modify hi hflat hflat' rfl (by simp) ?_ hnew ?_ hoff ?_ ?_ ?_ ?_
    · rintro m m' hA ⟨n0, e1, e2, e3⟩
      rw [hn] at e1
      cases e1
      have := At.lo_eq w hi hat (by rw [hflat]; simp; rfl) hA
      subst this
      obtain ⟨q1, q2⟩ := hpage _ e2
      refine ⟨l, hup, by simpa using q1, rn, hur, by simpa using q2, ?_⟩
      rw [hhigh]
      exact e3
    · intro q hq hq'
      simp only [List.mem_cons, List.not_mem_nil, or_false] at hq
      simp [hq] at hq'
    · intro q hq
      by_cases e1 : q = r
      · subst e1; exact hrf
      · rw [upd_other _ e1] at hq
        refine lt_of_lt_of_le (w.fresh q ?_) hf
        by_cases e2 : q = p
        · subst e2; simp [hn]
        · rwa [upd_other _ e2] at hq
    · -- the parent sees the same borders
      have hnd := w.nodup hi
      rw [hflat] at hnd
      have hothers : ∀ g0 ∈ G1 ++ G2, highOf (upd (upd s.heap p l) r rn) (lastOf g0) = highOf s.heap (lastOf g0) := by
        intro g0 hg0
        have hm : lastOf g0 ∈ flat (G1 ++ G2) := last_mem_flat hg0
        rw [flat_append, List.mem_append] at hm
        have e1 : lastOf g0 ≠ p := by
          intro e
          rw [e] at hm
          rw [List.nodup_append] at hnd
          obtain ⟨hx, -, hz⟩ := hnd
          rw [List.nodup_append] at hx
          rcases hm with hm | hm
          · exact hx.2.2 p (by simp [hm]) p (by simp) rfl
          · exact hz p (by simp) p (by simp [hm]) rfl
        have e2 : lastOf g0 ≠ r := by
          intro e
          have : s.heap (lastOf g0) ≠ none :=
            (w.alloc _).2 ⟨i, hi, by rw [hg]; apply last_mem_flat; simp at hg0 ⊢; tauto⟩
          rw [e] at this
          exact this hr
        simp only [highOf, upd_other _ e1, upd_other _ e2]
      rw [hg]
      simp only [List.map_append, List.map_cons]
      congr 1
      · apply List.map_congr_left
        intro g0 h0
        rw [hothers g0 (by simp [h0])]
      · congr 1
        · rw [h1]
          congr 1
          rcases List.eq_nil_or_concat' R2 with rfl | ⟨R3, z, rfl⟩
          · have e1 : lastOf g = p := lastOf_eq (R := R1) (by rw [hR])
            have e2 : lastOf g' = r := lastOf_eq (R := R1 ++ [p]) (by rw [hR']; simp)
            rw [e1, e2, highOf_eq hn, highOf_eq hur, hhigh]
          · have e1 : lastOf g = z := lastOf_eq (R := R1 ++ p :: R3) (by rw [hR]; simp)
            have e2 : lastOf g' = z := lastOf_eq (R := R1 ++ p :: r :: R3) (by rw [hR']; simp)
            rw [e1, e2]
            have e3 : z ≠ p := by
              rintro rfl
              rw [List.nodup_append] at hnd
              exact hnd.2.2 z (by simp) z (by simp) rfl
            have e4 : z ≠ r := by
              rintro rfl
              have : s.heap z ≠ none := (w.alloc _).2 ⟨i, hi, by rw [hflat]; simp⟩
              exact this hr
            simp only [highOf, upd_other _ e3, upd_other _ e4]
        · apply List.map_congr_left
          intro g0 h0
          rw [hothers g0 (by simp [h0])]
    · intro h0
      simp only [List.flatMap_cons, List.flatMap_nil, List.append_nil]
      rw [slotsOf_eq hup, slotsOf_eq hur, slotsOf_eq hn, hslots h0]
    · intro hH
      subst hH
      obtain ⟨run, hrun⟩ := w.top
      rw [hrun] at hg
      have : G1 = [] ∧ G2 = [] ∧ g = (s.root, run) := by
        cases G1 with
        | nil => simp at hg; exact ⟨rfl, hg.2, hg.1.symm⟩
        | cons a G1 => simp at hg
      obtain ⟨rfl, rfl, rfl⟩ := this
      exact ⟨g'.2, by simp at h1; simp [← h1]⟩
  · refine w.modify_contents hi hflat hflat' hnew hoff ?_
    intro h0
    simp only [List.flatMap_cons, List.flatMap_nil, List.append_nil]
    rw [pairsOf_eq hup, pairsOf_eq hur, pairsOf_eq hn, hpairs h0]

/-- **A5** Merge a page with the pending page behind it. -/
theorem WF.mergePages (w : WF cfg s H gr) {i : Nat} (hi : i ≤ H) {G1 G2 : List Grp} {g g' : Grp}
    {R1 R2 : List Ptr} {p r : Ptr} {l rn m : Node K V} {lo : Bd K}
    (hg : gr i = G1 ++ g :: G2) (hR : g.1 :: g.2 = R1 ++ p :: r :: R2)
    (hR' : g'.1 :: g'.2 = R1 ++ p :: R2)
    (hat : At cfg s gr i p l lo) (hr : s.heap r = some rn)
    (hpage : ∀ nx, PageAt cfg i lo l (some r) → PageAt cfg i (hiB l.high) rn nx →
      PageAt cfg i lo m nx)
    (hhigh : m.high = rn.high)
    (hslots : 0 < i → slots m.recs m.high = slots l.recs l.high ++ slots rn.recs rn.high)
    (hpairs : i = 0 → pairs m.recs = pairs l.recs ++ pairs rn.recs) :
    WF cfg ⟨del (upd s.heap p m) r, s.fresh, s.root⟩ H (Function.update gr i (G1 ++ g' :: G2)) ∧
    contents ⟨del (upd s.heap p m) r, s.fresh, s.root⟩ (Function.update gr i (G1 ++ g' :: G2))
      = contents s gr := by
  have hl := hat.heap
  have hflat : flat (gr i) = (flat G1 ++ R1) ++ [p, r] ++ (R2 ++ flat G2) := by
    rw [hg, flat_append, flat_cons, ← List.cons_append, hR]; simp
  have hflat' : flat (G1 ++ g' :: G2) = (flat G1 ++ R1) ++ [p] ++ (R2 ++ flat G2) := by
    rw [flat_append, flat_cons, ← List.cons_append, hR']; simp
  have hnd := w.nodup hi
  rw [hflat] at hnd
  have hnd' := hnd
  rw [List.nodup_append] at hnd
  obtain ⟨hx, -, hz⟩ := hnd
  rw [List.nodup_append] at hx
  have hrp : p ≠ r := by
    have := hx.2.1
    simp at this
    exact this
  have h1 : g'.1 = g.1 := by
    cases R1 <;> simp at hR hR' <;> rw [hR.1, hR'.1]
  have hup : del (upd s.heap p m) r p = some m := by rw [del_other _ hrp]; simp
  have hur : del (upd s.heap p m) r r = none := by simp
  have hoff : ∀ q, q ∉ [p, r] → q ∉ [p] → del (upd s.heap p m) r q = s.heap q := by
    intro q hq hq'
    simp only [List.mem_cons, List.not_mem_nil, or_false, not_or] at hq
    rw [del_other _ hq.2, upd_other _ hq.1]
  have hnew : ∀ q ∈ [p], q ∈ [p, r] ∨ s.heap q = none := by
    intro q hq
    simp only [List.mem_cons, List.not_mem_nil, or_false] at hq
    simp [hq]
  constructor
  · refine w.modify hi hflat hflat' rfl (by simp) ?_ hnew ?_ hoff ?_ ?_ ?_ ?_
    · rintro a a' hA ⟨n0, e1, e2, n1, e3, e4, e5⟩
      rw [hl] at e1
      cases e1
      have := At.lo_eq w hi hat (by rw [hflat]; simp; rfl) hA
      subst this
      rw [hr] at e3
      cases e3
      refine ⟨m, hup, hpage _ (by simpa using e2) (by simpa using e4), ?_⟩
      rw [hhigh]
      exact e5
    · intro q hq hq'
      simp only [List.mem_cons, List.not_mem_nil, or_false] at hq hq'
      rcases hq with hq | hq
      · exact absurd hq hq'
      · rw [hq]; exact hur
    · intro q hq
      apply w.fresh
      by_cases e1 : q = r
      · subst e1; simp at hq
      · rw [del_other _ e1] at hq
        by_cases e2 : q = p
        · subst e2; simp [hl]
        · rwa [upd_other _ e2] at hq
    · have hothers : ∀ g0 ∈ G1 ++ G2, highOf (del (upd s.heap p m) r) (lastOf g0) = highOf s.heap (lastOf g0) := by
        intro g0 hg0
        have hm : lastOf g0 ∈ flat (G1 ++ G2) := last_mem_flat hg0
        rw [flat_append, List.mem_append] at hm
        have e1 : ∀ q ∈ [p, r], lastOf g0 ≠ q := by
          intro q hq e
          rw [e] at hm
          rcases hm with hm | hm
          · exact hx.2.2 q (by simp [hm]) q hq rfl
          · exact hz q (by simp at hq ⊢; tauto) q (by simp [hm]) rfl
        simp only [highOf, upd_other _ (e1 p (by simp)), del_other _ (e1 r (by simp))]
      rw [hg]
      simp only [List.map_append, List.map_cons]
      congr 1
      · apply List.map_congr_left
        intro g0 h0
        rw [hothers g0 (by simp [h0])]
      · congr 1
        · rw [h1]
          congr 1
          rcases List.eq_nil_or_concat' R2 with rfl | ⟨R3, z, rfl⟩
          · have e1 : lastOf g' = p := lastOf_eq (R := R1) (by rw [hR'])
            have e2 : lastOf g = r := lastOf_eq (R := R1 ++ [p]) (by rw [hR]; simp)
            rw [e1, e2, highOf_eq hup, highOf_eq hr, hhigh]
          · have e1 : lastOf g' = z := lastOf_eq (R := R1 ++ p :: R3) (by rw [hR']; simp)
            have e2 : lastOf g = z := lastOf_eq (R := R1 ++ p :: r :: R3) (by rw [hR]; simp)
            rw [e1, e2]
            have e3 : z ≠ p := by
              rintro rfl
              exact hz z (by simp) z (by simp) rfl
            have e4 : z ≠ r := by
              rintro rfl
              exact hz z (by simp) z (by simp) rfl
            simp only [highOf, upd_other _ e3, del_other _ e4]
        · apply List.map_congr_left
          intro g0 h0
          rw [hothers g0 (by simp [h0])]
    · intro h0
      simp only [List.flatMap_cons, List.flatMap_nil, List.append_nil]
      rw [slotsOf_eq hup, slotsOf_eq hl, slotsOf_eq hr, hslots h0]
    · intro hH
      subst hH
      obtain ⟨run, hrun⟩ := w.top
      rw [hrun] at hg
      have : G1 = [] ∧ G2 = [] ∧ g = (s.root, run) := by
        cases G1 with
        | nil => simp at hg; exact ⟨rfl, hg.2, hg.1.symm⟩
        | cons a G1 => simp at hg
      obtain ⟨rfl, rfl, rfl⟩ := this
      exact ⟨g'.2, by simp at h1; simp [← h1]⟩
  · refine w.modify_contents hi hflat hflat' hnew hoff ?_
    intro h0
    simp only [List.flatMap_cons, List.flatMap_nil, List.append_nil]
    rw [pairsOf_eq hup, pairsOf_eq hl, pairsOf_eq hr, hpairs h0]

/-- Regroup a level and change its parent page accordingly. -/
theorem WF.regroup (w : WF cfg s H gr) {i : Nat} (hi : i < H) {u : Ptr} {un un' : Node K V} {G' : List Grp}
    {lo : Bd K} (hat : At cfg s gr (i + 1) u un lo)
    (hpage : NodeOk cfg true lo un') (hnext : un'.next = un.next)
    (hhigh : un'.high = un.high) (hflat : flat G' = flat (gr i))
    (hkid : Kid (upd s.heap u un') (flat (gr (i + 1))) G') :
    WF cfg { s with heap := upd s.heap u un' } H (Function.update gr i G') ∧
    contents { s with heap := upd s.heap u un' } (Function.update gr i G') = contents s gr := by
  have hn := hat.heap
  have hu := hat.mem
  have hothers : ∀ j ≤ H, j ≠ i + 1 → ∀ p ∈ flat (gr j), upd s.heap u un' p = s.heap p := by
    intro j hj hne p hp
    apply upd_other
    rintro rfl
    exact hne (w.disj j hj (i + 1) hi p hp hu)
  have hhigh' : ∀ p, highOf (upd s.heap u un') p = highOf s.heap p := by
    intro p
    by_cases h : p = u
    · subst h; simp [highOf, hn, hhigh]
    · simp [highOf, upd_other _ h]
  have hflat' : ∀ j, flat (Function.update gr i G' j) = flat (gr j) := by
    intro j
    by_cases h : j = i
    · subst h; rw [Function.update_self, hflat]
    · rw [Function.update_of_ne h]
  constructor
  · refine ⟨?_, ?_, ?_, ?_, ?_, ?_⟩
    · rw [Function.update_of_ne (by omega)]; exact w.top
    · intro j hj
      rw [hflat' j]
      by_cases h : j = i + 1
      · subst h
        obtain ⟨A, B, hAB⟩ := List.append_of_mem hu
        have hc := w.chain (i + 1) hj
        have hnd := w.nodup (i := i + 1) hj
        rw [hAB, List.nodup_append] at hnd
        have e : flat (gr (i + 1)) = A ++ [u] ++ B := by simp [hAB]
        rw [e] at hc ⊢
        refine hc.replace rfl (by simp) ?_ ?_ ?_
        · rintro m m' hA ⟨n0, e1, e2, e3⟩
          rw [hn] at e1
          cases e1
          have := At.lo_eq w hj hat hAB hA
          subst this
          refine ⟨un', by simp, ⟨by simpa using hpage, ?_⟩, by rw [hhigh]; exact e3⟩
          intro hh
          rw [hnext]
          apply e2.2
          simp only [Node.hasNext] at hh ⊢
          rw [hat.okS.kind]
          rw [hpage.kind] at hh
          exact hh
        · intro q hq
          exact upd_other _ (fun h => hnd.2.2 q hq u (by simp) h)
        · intro q hq
          refine upd_other _ (fun h => ?_)
          subst h
          exact (List.nodup_cons.1 hnd.2.1).1 hq
      · exact (w.chain j hj).congr (hothers j hj h)
    · intro j hj
      by_cases h : j = i
      · subst h
        rw [hflat', Function.update_self]
        exact hkid
      · rw [hflat', Function.update_of_ne h]
        have hk := w.kid j hj
        unfold Kid at hk ⊢
        dsimp only
        simp only [hhigh']
        rw [← hk]
        apply List.flatMap_congr
        intro p hp
        have : p ≠ u := by
          rintro rfl
          have := w.disj (j + 1) hj (i + 1) hi p hp hu
          omega
        simp only [slotsOf, upd_other _ this]
    · intro j hj k hk p
      rw [hflat', hflat']
      exact w.disj j hj k hk p
    · intro p
      have : upd s.heap u un' p ≠ none ↔ s.heap p ≠ none := by
        by_cases h : p = u
        · subst h; simp [hn]
        · rw [upd_other _ h]
      dsimp only
      rw [this, w.alloc]
      simp only [hflat']
    · intro p hp
      apply w.fresh
      dsimp only at hp
      by_cases h : p = u
      · subst h; simp [hn]
      · rwa [upd_other _ h] at hp
  · unfold contents
    rw [hflat' 0]
    apply List.flatMap_congr
    intro p hp
    simp only [pairsOf, hothers 0 (by omega) (by omega) p hp]

/-- **A3** The parent learns about the pending page `q`. -/
theorem WF.attach (w : WF cfg s H gr) {i : Nat} (hi : i < H) {u : Ptr} {un un' : Node K V}
    {T D : List (Rec K V)} {r : Rec K V} {k : K} {q c : Ptr} {G1 G2 : List Grp} {A B : List Ptr}
    {lo : Bd K} (hat : At cfg s gr (i + 1) u un lo)
    (hrecs : un.recs = T ++ r :: D) (hc : r.toPtr = c)
    (hg : gr i = G1 ++ (c, A ++ q :: B) :: G2)
    (hk : highOf s.heap (lastOf (c, A)) = some k)
    (hpage : NodeOk cfg true lo un') (hnext : un'.next = un.next)
    (hhigh : un'.high = un.high) (hrecs' : un'.recs = T ++ r :: ⟨some k, .ptr q, false⟩ :: D) :
    WF cfg { s with heap := upd s.heap u un' } H (Function.update gr i (G1 ++ (c, A) :: (q, B) :: G2)) ∧
    contents { s with heap := upd s.heap u un' } (Function.update gr i (G1 ++ (c, A) :: (q, B) :: G2))
      = contents s gr := by
  have hn := hat.heap
  obtain ⟨U1, U2, hU⟩ := List.append_of_mem hat.mem
  refine w.regroup hi hat hpage hnext hhigh (by rw [hg]; simp) ?_
  have hkid := w.kid i hi
  rw [hU] at hkid
  have hsl : slotsOf s.heap u = slots T r.key ++ (c, hdKey D un.high) :: slots D un.high := by
    rw [slotsOf_eq hn, hrecs, slots_append, slots_cons, hc]; rfl
  obtain ⟨G1', run, G2', e1, e2, e3, e4⟩ := hkid.split hsl
  have hnd := w.fst_nodup (i := i) (by omega)
  rw [hg] at e1 hnd
  obtain ⟨rfl, rfl, rfl⟩ := align e1 hnd
  have hhigh' : ∀ p, highOf (upd s.heap u un') p = highOf s.heap p := by
    intro p
    by_cases h : p = u
    · subst h; simp [highOf, hn, hhigh]
    · simp [highOf, upd_other _ h]
  have hndU := w.nodup (i := i + 1) hi
  rw [hU, List.nodup_append] at hndU
  have hU1 : U1.flatMap (slotsOf (upd s.heap u un')) = U1.flatMap (slotsOf s.heap) := by
    apply List.flatMap_congr
    intro p hp
    have : p ≠ u := fun h => hndU.2.2 p hp u (by simp) h
    simp only [slotsOf, upd_other _ this]
  have hU2 : U2.flatMap (slotsOf (upd s.heap u un')) = U2.flatMap (slotsOf s.heap) := by
    apply List.flatMap_congr
    intro p hp
    have : p ≠ u := fun h => by subst h; exact (List.nodup_cons.1 hndU.2.1).1 hp
    simp only [slotsOf, upd_other _ this]
  unfold Kid
  rw [hU]
  simp only [List.flatMap_append, List.flatMap_cons, List.map_append, List.map_cons, hhigh']
  rw [hU1, hU2, e3, e4, hk]
  rw [slotsOf_eq (by simp : upd s.heap u un' u = some un'), hrecs', slots_append, slots_cons, slots_cons,
    hhigh, hc]
  rw [lastOf_append] at e2
  simp [hdKey, Rec.toPtr, ← e2]

/-- **A4** The parent forgets the child `q`, which becomes pending behind its left neighbour. -/
theorem WF.detach (w : WF cfg s H gr) {i : Nat} (hi : i < H) {u : Ptr} {un un' : Node K V}
    {T D : List (Rec K V)} {r d : Rec K V} {q c : Ptr} {G1 G2 : List Grp} {A : List Ptr}
    {lo : Bd K} (hat : At cfg s gr (i + 1) u un lo)
    (hrecs : un.recs = T ++ r :: d :: D) (hc : r.toPtr = c) (hq : d.toPtr = q)
    (hg : gr i = G1 ++ (c, A) :: G2)
    (hpage : NodeOk cfg true lo un') (hnext : un'.next = un.next)
    (hhigh : un'.high = un.high) (hrecs' : un'.recs = T ++ r :: D) :
    ∃ B G3, G2 = (q, B) :: G3 ∧ highOf s.heap (lastOf (c, A)) = d.key ∧
    WF cfg { s with heap := upd s.heap u un' } H (Function.update gr i (G1 ++ (c, A ++ q :: B) :: G3)) ∧
    contents { s with heap := upd s.heap u un' } (Function.update gr i (G1 ++ (c, A ++ q :: B) :: G3))
      = contents s gr := by
  have hn := hat.heap
  obtain ⟨U1, U2, hU⟩ := List.append_of_mem hat.mem
  have hkid := w.kid i hi
  rw [hU] at hkid
  have hsl : slotsOf s.heap u = slots T r.key ++ (c, d.key) :: (q, hdKey D un.high) :: slots D un.high := by
    rw [slotsOf_eq hn, hrecs, slots_append, slots_cons, slots_cons, hc, hq]; rfl
  obtain ⟨G1', run, G2', e1, e2, e3, e4⟩ := hkid.split hsl
  have hnd := w.fst_nodup (i := i) (by omega)
  rw [hg] at e1 hnd
  obtain ⟨rfl, rfl, rfl⟩ := align e1 hnd
  rw [List.cons_append] at e4
  obtain ⟨⟨q', B⟩, G3, rfl, e5, e6⟩ := List.map_eq_cons_iff.1 e4
  simp only [Prod.mk.injEq] at e5
  obtain ⟨rfl, e5⟩ := e5
  refine ⟨B, G3, rfl, e2.symm, ?_⟩
  refine w.regroup hi hat hpage hnext hhigh (by rw [hg]; simp) ?_
  have hhigh' : ∀ p, highOf (upd s.heap u un') p = highOf s.heap p := by
    intro p
    by_cases h : p = u
    · subst h; simp [highOf, hn, hhigh]
    · simp [highOf, upd_other _ h]
  have hndU := w.nodup (i := i + 1) hi
  rw [hU, List.nodup_append] at hndU
  have hU1 : U1.flatMap (slotsOf (upd s.heap u un')) = U1.flatMap (slotsOf s.heap) := by
    apply List.flatMap_congr
    intro p hp
    have : p ≠ u := fun h => hndU.2.2 p hp u (by simp) h
    simp only [slotsOf, upd_other _ this]
  have hU2 : U2.flatMap (slotsOf (upd s.heap u un')) = U2.flatMap (slotsOf s.heap) := by
    apply List.flatMap_congr
    intro p hp
    have : p ≠ u := fun h => by subst h; exact (List.nodup_cons.1 hndU.2.1).1 hp
    simp only [slotsOf, upd_other _ this]
  unfold Kid
  rw [hU]
  simp only [List.flatMap_append, List.flatMap_cons, List.map_append, List.map_cons, hhigh']
  rw [hU1, hU2, e3, e6, lastOf_append, e5]
  rw [slotsOf_eq (by simp : upd s.heap u un' u = some un'), hrecs', slots_append, slots_cons,
    hhigh, hc]
  simp [hdKey]

/-- The rightmost page of a level has no highest key. -/
theorem WF.last_high (w : WF cfg s H gr) {i : Nat} (hi : i ≤ H) {A : List Ptr} {p : Ptr}
    (h : flat (gr i) = A ++ [p]) : highOf s.heap p = none := by
  have hc := (w.chain i hi).end_eq
  rw [h] at hc
  simp only [List.getLast?_append, List.getLast?_singleton, Option.or] at hc
  cases hh : highOf s.heap p with
  | none => rfl
  | some k => rw [hh] at hc; cases hc

/-- **A6** A new root over the old root and a pending page. -/
theorem WF.growRoot (w : WF cfg s H gr) {A B : List Ptr} {q p : Ptr} {k : K} {n : Node K V} {fresh' : Ptr}
    (hg : gr H = [(s.root, A ++ q :: B)]) (hk : highOf s.heap (lastOf (s.root, A)) = some k)
    (hp : s.heap p = none) (hf : s.fresh ≤ fresh') (hpf : p < fresh')
    (hpage : PageAt cfg (H + 1) .bot n none) (hhigh : n.high = none)
    (hslots : slots n.recs n.high = [(s.root, some k), (q, none)]) :
    WF cfg ⟨upd s.heap p n, fresh', p⟩ (H + 1)
      (Function.update (Function.update gr (H + 1) [(p, [])]) H [(s.root, A), (q, B)]) ∧
    contents ⟨upd s.heap p n, fresh', p⟩
      (Function.update (Function.update gr (H + 1) [(p, [])]) H [(s.root, A), (q, B)]) = contents s gr := by
  generalize hgr' : Function.update (Function.update gr (H + 1) [(p, [])]) H [(s.root, A), (q, B)] = gr'
  have hpn : ∀ j ≤ H, ∀ x ∈ flat (gr j), x ≠ p := by
    rintro j hj x hx rfl
    exact (w.alloc x).2 ⟨j, hj, hx⟩ hp
  have hflat : ∀ j ≤ H, flat (gr' j) = flat (gr j) := by
    intro j hj
    subst hgr'
    by_cases h : j = H
    · subst h; rw [Function.update_self, hg]; simp
    · rw [Function.update_of_ne h, Function.update_of_ne (by omega)]
  have htop : gr' (H + 1) = [(p, [])] := by
    subst hgr'
    rw [Function.update_of_ne (by omega), Function.update_self]
  have hsame : ∀ j ≤ H, ∀ x ∈ flat (gr j), upd s.heap p n x = s.heap x :=
    fun j hj x hx => upd_other _ (hpn j hj x hx)
  constructor
  · refine ⟨⟨[], htop⟩, ?_, ?_, ?_, ?_, ?_⟩
    · intro j hj
      by_cases h : j = H + 1
      · subst h
        rw [htop]
        refine ⟨n, by simp, hpage, ?_⟩
        simp [hhigh, Chain, hiB]
      · rw [hflat j (by omega)]
        exact (w.chain j (by omega)).congr (hsame j (by omega))
    · intro j hj
      by_cases h : j = H
      · subst h
        rw [htop]
        have e : gr' j = [(s.root, A), (q, B)] := by
          subst hgr'
          rw [Function.update_self]
        rw [e]
        unfold Kid
        simp only [flat_cons, flat_nil, List.append_nil, List.flatMap_cons, List.flatMap_nil,
          List.map_cons, List.map_nil]
        rw [slotsOf_eq (by simp : upd s.heap p n p = some n), hslots]
        have e1 : highOf (upd s.heap p n) (lastOf (s.root, A)) = some k := by
          have : lastOf (s.root, A) ∈ flat (gr j) := by
            have := lastOf_mem (s.root, A)
            rw [hg]
            simp at this ⊢
            tauto
          simp only [highOf, hsame j (by omega) _ this]
          exact hk
        have e2 : highOf (upd s.heap p n) (lastOf (q, B)) = none := by
          have h1 : lastOf (q, B) ∈ flat (gr j) := by
            have := lastOf_mem (q, B)
            rw [hg]
            simp at this ⊢
            tauto
          simp only [highOf, hsame j (by omega) _ h1]
          rcases List.eq_nil_or_concat' B with rfl | ⟨B', z, rfl⟩
          · exact w.last_high (i := j) (by omega) (A := s.root :: A) (by rw [hg]; simp [lastOf])
          · have hz : lastOf (q, B' ++ [z]) = z := lastOf_eq (R := q :: B') (by simp)
            rw [hz]
            exact w.last_high (i := j) (by omega) (A := s.root :: (A ++ q :: B')) (by rw [hg]; simp)
        rw [e1, e2]
      · have hk' := w.kid j (by omega)
        have e : gr' j = gr j := by
          subst hgr'
          rw [Function.update_of_ne h, Function.update_of_ne (by omega)]
        rw [hflat (j + 1) (by omega), e]
        unfold Kid at hk' ⊢
        have e1 : (flat (gr (j + 1))).flatMap (slotsOf (upd s.heap p n))
            = (flat (gr (j + 1))).flatMap (slotsOf s.heap) := by
          apply List.flatMap_congr
          intro x hx
          simp only [slotsOf, hsame (j + 1) (by omega) x hx]
        dsimp only
        rw [e1, hk']
        apply List.map_congr_left
        intro g hg'
        simp only [highOf, hsame j (by omega) _ (last_mem_flat hg')]
    · intro i hi j hj x hxi hxj
      by_cases h1 : i = H + 1 <;> by_cases h2 : j = H + 1
      · omega
      · subst h1
        rw [htop] at hxi
        rw [hflat j (by omega)] at hxj
        simp at hxi
        exact absurd hxi (hpn j (by omega) x hxj)
      · subst h2
        rw [htop] at hxj
        rw [hflat i (by omega)] at hxi
        simp at hxj
        exact absurd hxj (hpn i (by omega) x hxi)
      · rw [hflat i (by omega)] at hxi
        rw [hflat j (by omega)] at hxj
        exact w.disj i (by omega) j (by omega) x hxi hxj
    · intro x
      dsimp only
      constructor
      · intro hx
        by_cases h : x = p
        · exact ⟨H + 1, le_refl _, by rw [htop]; simp [h]⟩
        · rw [upd_other _ h] at hx
          obtain ⟨j, hj, hxj⟩ := (w.alloc x).1 hx
          exact ⟨j, by omega, by rw [hflat j hj]; exact hxj⟩
      · rintro ⟨j, hj, hx⟩
        by_cases h : j = H + 1
        · subst h
          rw [htop] at hx
          simp at hx
          simp [hx]
        · rw [hflat j (by omega)] at hx
          rw [hsame j (by omega) x hx]
          exact (w.alloc x).2 ⟨j, by omega, hx⟩
    · intro x hx
      by_cases h : x = p
      · subst h; exact hpf
      · dsimp only at hx
        rw [upd_other _ h] at hx
        exact lt_of_lt_of_le (w.fresh x hx) hf
  · unfold contents
    rw [hflat 0 (by omega)]
    apply List.flatMap_congr
    intro x hx
    simp only [pairsOf, hsame 0 (by omega) x hx]

/-- **A7** Remove a root that has a single child. -/
theorem WF.shrinkRoot (w : WF cfg s (H + 1) gr) {n : Node K V} {r : Rec K V}
    (hg : gr (H + 1) = [(s.root, [])]) (hn : s.heap s.root = some n) (hrecs : n.recs = [r]) :
    WF cfg ⟨del s.heap s.root, s.fresh, r.toPtr⟩ H gr ∧
    contents ⟨del s.heap s.root, s.fresh, r.toPtr⟩ gr = contents s gr := by
  have hroot : s.root ∈ flat (gr (H + 1)) := by rw [hg]; simp
  have hne : ∀ j ≤ H, ∀ x ∈ flat (gr j), x ≠ s.root := by
    rintro j hj x hx rfl
    have := w.disj j (by omega) (H + 1) (le_refl _) _ hx hroot
    omega
  have hsame : ∀ j ≤ H, ∀ x ∈ flat (gr j), del s.heap s.root x = s.heap x :=
    fun j hj x hx => del_other _ (hne j hj x hx)
  constructor
  · refine ⟨?_, ?_, ?_, ?_, ?_, ?_⟩
    · have hk := w.kid H (by omega)
      rw [hg] at hk
      unfold Kid at hk
      simp only [flat_cons, flat_nil, List.append_nil, List.flatMap_cons, List.flatMap_nil] at hk
      rw [slotsOf_eq hn, hrecs] at hk
      simp only [slots_cons, slots_nil] at hk
      obtain ⟨⟨c, run⟩, G2, e1, e2, e3⟩ := List.map_eq_cons_iff.1 hk.symm
      rw [List.map_eq_nil_iff] at e3
      subst e3
      simp only [Prod.mk.injEq] at e2
      exact ⟨run, by rw [e1, e2.1]⟩
    · intro j hj
      exact (w.chain j (by omega)).congr (hsame j hj)
    · intro j hj
      have hk := w.kid j (by omega)
      unfold Kid at hk ⊢
      have e1 : (flat (gr (j + 1))).flatMap (slotsOf (del s.heap s.root))
          = (flat (gr (j + 1))).flatMap (slotsOf s.heap) := by
        apply List.flatMap_congr
        intro x hx
        simp only [slotsOf, hsame (j + 1) (by omega) x hx]
      dsimp only
      rw [e1, hk]
      apply List.map_congr_left
      intro g hg'
      simp only [highOf, hsame j (by omega) _ (last_mem_flat hg')]
    · intro i hi j hj x
      exact w.disj i (by omega) j (by omega) x
    · intro x
      dsimp only
      constructor
      · intro hx
        have hxr : x ≠ s.root := by rintro rfl; simp at hx
        rw [del_other _ hxr] at hx
        obtain ⟨j, hj, hxj⟩ := (w.alloc x).1 hx
        refine ⟨j, ?_, hxj⟩
        by_contra h
        have : j = H + 1 := by omega
        subst this
        rw [hg] at hxj
        simp at hxj
        exact hxr hxj
      · rintro ⟨j, hj, hx⟩
        rw [hsame j hj x hx]
        exact (w.alloc x).2 ⟨j, by omega, hx⟩
    · intro x hx
      dsimp only at hx
      by_cases h : x = s.root
      · subst h; simp at hx
      · rw [del_other _ h] at hx
        exact w.fresh x hx
  · unfold contents
    apply List.flatMap_congr
    intro x hx
    simp only [pairsOf, hsame 0 (by omega) x hx]

end wf
end BT
