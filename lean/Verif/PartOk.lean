import Verif.IterConc
import Verif.ScanOk
import Verif.SpecConc

/-!
# What a scan reads from one leaf is one part of its range
-/

set_option linter.unusedSectionVars false

namespace BT
variable {K V : Type} [LinearOrder K] {cfg : Cfg K} {s : St K V} {H : Nat} {gr : Nat → List Grp}

/-- The records delivered from one page. -/
theorem leafPart_ok {lo hi : Bd K} {recs : List (Rec K V)} (hl : LeafOk lo hi recs) :
    ∀ m pos, pos + m ≤ recs.length → leafPart recs m pos = .ok (pairs ((recs.drop pos).take m)) := by
  intro m
  induction m with
  | zero => intro pos _; simp [leafPart]
  | succ m ih =>
    intro pos hm
    have hlt : pos < recs.length := by omega
    have hr : recs[pos] ∈ recs := List.getElem_mem hlt
    obtain ⟨a, ha, -⟩ := hl.keyed _ hr
    obtain ⟨v, hv⟩ := hl.vals _ hr
    unfold leafPart
    rw [List.getElem?_eq_getElem hlt, List.drop_eq_getElem_cons hlt, List.take_succ_cons, pairs_cons, ih (pos + 1) (by omega)]
    generalize recs[pos] = r at ha hv hr
    obtain ⟨rk, rp, rd⟩ := r
    simp only at ha hv
    subst ha hv
    cases rd <;> simp [Rec.pair]

theorem leafPart_upto {lo hi : Bd K} {recs P Q : List (Rec K V)} (hl : LeafOk lo hi recs) (he : recs = P ++ Q)
    (pos : Nat) : leafPart recs (P.length - pos) pos = .ok (pairs (P.drop pos)) := by
  by_cases h : pos ≤ P.length
  · rw [leafPart_ok hl _ _ (by rw [he, List.length_append]; omega), he, List.drop_append_of_le_length h, List.take_left']
    rw [List.length_drop]
  · rw [show P.length - pos = 0 by omega, List.drop_eq_nil_of_le (by omega)]
    simp [leafPart]

theorem isRightmostOf_false {n : Node K V} {e : ScanKey K} {c : K} (hh : n.high = some c) (h : n.isRightmostOf e = false) :
    (∃ q, n.next = some q) ∧ ∀ k, k < c → Spec.BelowHi e k := by
  unfold Node.isRightmostOf at h
  cases hn : n.next with
  | none => rw [hn] at h; cases h
  | some q =>
    rw [hn] at h
    refine ⟨⟨q, rfl⟩, ?_⟩
    cases e with
    | none => intro k _; trivial
    | some kc =>
      obtain ⟨k', cl⟩ := kc
      dsimp only at h
      have h2 : ¬ (hiB n.high).gtKey k' := by
        intro h'
        rw [compHighKey_iff.2 h'] at h
        cases h
      rw [hh] at h2
      have h3 : c ≤ k' := not_lt.1 h2
      intro k hk
      cases cl <;> simp [Spec.BelowHi] <;> order

theorem searchEnd_flag {n : Node K V} {e : ScanKey K} {b : Bool} {m : Nat} (h : n.searchEndPositionFor e = .ok (b, m)) :
    n.isRightmostOf e = b := by
  unfold Node.searchEndPositionFor at h
  dsimp only at h
  cases hb : n.isRightmostOf e with
  | false =>
    rw [hb] at h
    cases h
    rfl
  | true =>
    rw [hb] at h
    cases e with
    | none => cases h; rfl
    | some kc =>
      obtain ⟨k, cl⟩ := kc
      dsimp only at h
      cases hs : n.searchRecord k with
      | ok x => rw [hs] at h; cases h; rfl
      | ub => rw [hs] at h; cases h
      | fuel => rw [hs] at h; cases h

/-- A scan whose range begins in leaf `p`, behind the slots `T`, reads one part of its range there. -/
theorem scan_leaf (w : WF cfg s H gr) {p : Ptr} {n : Node K V} {lo : Bd K} (hat : At cfg s gr 0 p n lo) {b e : ScanKey K}
    {acc : List (K × V)} {T D : List (Rec K V)} (hrec : n.recs = T ++ D) (hT : ∀ x ∈ pairs T, ¬ Spec.AboveLo b x.1)
    (hD : ∀ x ∈ pairs D, Spec.AboveLo b x.1) (hA : ∀ k, lo.gtKey k → ¬ Spec.AboveLo b k)
    (hB : ∀ k, (hiB n.high).leKey k → Spec.AboveLo b k) :
    ∃ isEnd m l, n.searchEndPositionFor e = .ok (isEnd, m) ∧ leafPart n.recs (m - T.length) T.length = .ok l ∧
      (isEnd = true → Spec.ScanStep (mapOf (contents s gr)) (.scanning b e acc) (.done (.recs (acc ++ l)))) ∧
      (isEnd = false → ∃ c q, n.high = some c ∧ n.next = some q ∧
        Spec.ScanStep (mapOf (contents s gr)) (.scanning b e acc) (.scanning (some (c, true)) e (acc ++ l))) := by
  have hok := hat.ok0
  obtain ⟨A, B, h1, h2, h3, h4, h5⟩ := hat
  obtain ⟨c1, -⟩ := w.leaf_contents h1 h2
  obtain ⟨isEnd, P, Q, e1, e2, e3, e4, e5, e6⟩ := searchEnd_ok h4 h5 e
  refine ⟨isEnd, P.length, pairs (P.drop T.length), e1, leafPart_upto (NodeOk.leaf hok) e2 _, ?_, ?_⟩
  · intro he
    refine .last _ ?_
    have := isScan_of (b := b) (e := e) w.sorted (X := A.flatMap (pairsOf s.heap) ++ pairs T) (Y := pairs D ++ B.flatMap (pairsOf s.heap))
      (by rw [c1, hrec]; simp) ?_ ?_
    · rw [below_append, below_none (e5 he), List.append_nil] at this
      rw [← below_drop e3 e4 T.length, ← e2, hrec, List.drop_left]
      exact this
    · intro x hx
      rcases List.mem_append.1 hx with hx | hx
      · exact hA _ (chain_pairs_lt h3 x hx)
      · exact hT x hx
    · intro x hx
      rcases List.mem_append.1 hx with hx | hx
      · exact hD x hx
      · exact hB _ (chain_pairs_ge h5 x hx)
  · intro he
    subst he
    obtain ⟨hne, hQ⟩ := e6 rfl
    subst hQ
    rw [List.append_nil] at e2
    obtain ⟨q, B', rfl⟩ := List.exists_cons_of_ne_nil hne
    cases hh : n.high with
    | none =>
      obtain ⟨qn, g1, g2, -⟩ := h5
      have := g2.lt
      rw [hh] at this
      exact absurd this (by simp [hiB, Bd.lt])
    | some c =>
      obtain ⟨⟨q', hq'⟩, hlt⟩ := isRightmostOf_false hh (searchEnd_flag e1)
      refine ⟨c, q', rfl, hq', ?_⟩
      have hge : ∀ x ∈ (q :: B').flatMap (pairsOf s.heap), c ≤ x.1 := by
        intro x hx
        have := chain_pairs_ge h5 x hx
        rw [hh] at this
        exact this
      refine Spec.ScanStep.part c false _ ?_ ?_ ?_
      · intro k hk
        exact hB k (by rw [hh]; exact hk)
      · exact hlt
      · have := isScan_of (b := b) (e := some (c, false)) w.sorted (X := A.flatMap (pairsOf s.heap) ++ pairs T)
          (Y := pairs D ++ (q :: B').flatMap (pairsOf s.heap)) (by rw [c1, hrec]; simp) ?_ ?_
        · rw [below_append, below_none (A := (q :: B').flatMap (pairsOf s.heap)), List.append_nil, below_all] at this
          · rw [← e2, hrec, List.drop_left]
            exact this
          · intro x hx
            obtain ⟨r, hr, hp⟩ := mem_pairs.1 hx
            have := (hok.pairs_range x (by rw [hrec, pairs_append]; exact List.mem_append_right _ hx)).2
            rw [hh] at this
            exact this
          · intro x hx
            exact not_lt.2 (hge x hx)
        · intro x hx
          rcases List.mem_append.1 hx with hx | hx
          · exact hA _ (chain_pairs_lt h3 x hx)
          · exact hT x hx
        · intro x hx
          rcases List.mem_append.1 hx with hx | hx
          · exact hD x hx
          · exact hB _ (chain_pairs_ge h5 x hx)

end BT
