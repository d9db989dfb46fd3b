import Verif.LeafScan
import Verif.LinPast

/-!
# What an optimistic scan has read

An optimistic iterator reads a page record by record and checks the version of the page after each of them.  When the version has changed it
looks for its place again, in a page that may begin further left than the one it has left.  `Cov`: everything up to the bound `H` has been read,
and the scan may go on at any border up to there.
-/

set_option linter.unusedSectionVars false

namespace BT
open Spec
variable {K V : Type} [LinearOrder K] {cfg : Cfg K}

theorem aboveLo_mono {b : ScanKey K} {j j' : K} (h : AboveLo b j) (hj : j ≤ j') : AboveLo b j' := by
  match b with
  | none => trivial
  | some (x, true) => exact le_trans h hj
  | some (x, false) => exact lt_of_lt_of_le h hj

theorem belowHi_mono {e : ScanKey K} {j j' : K} (h : BelowHi e j') (hj : j ≤ j') : BelowHi e j := by
  match e with
  | none => trivial
  | some (x, true) => exact le_trans hj h
  | some (x, false) => exact lt_of_le_of_lt hj h

/-- The end position found in a leaf, or in a page that was a leaf. -/
theorem searchEnd_any {n : Node K V} {lo : Bd K} (hok : NodeOk cfg false lo n) (hnx : n.next = none → n.high = none) (e : ScanKey K) :
    ∃ isEnd P Q, n.searchEndPositionFor e = .ok (isEnd, P.length) ∧ n.recs = P ++ Q ∧
      (∀ x ∈ pairs P, BelowHi e x.1) ∧ (∀ r ∈ P, ∀ a, r.key = some a → BelowHi e a) ∧ (∀ x ∈ pairs Q, ¬ BelowHi e x.1) ∧
      (isEnd = true → ∀ k, hiB n.high ≤ .key k → ¬ BelowHi e k) ∧
      (isEnd = false → Q = [] ∧ ∀ k, .key k < hiB n.high → BelowHi e k) := by
  cases hb : n.isRightmostOf e with
  | false =>
    have hlt : ∀ k, .key k < hiB n.high → BelowHi e k := by
      intro k hk
      unfold Node.isRightmostOf at hb
      cases hn : n.next with
      | none => rw [hn] at hb; cases hb
      | some q =>
        rw [hn] at hb
        match e with
        | none => trivial
        | some (k', cl) =>
          have h3 : ¬ n.compHighKey k' = true := by
            simp only at hb
            rw [hb]; simp
          rw [compHigh_iff, not_lt] at h3
          have h4 := Bd.key_lt_key.1 (lt_of_lt_of_le hk h3)
          cases cl <;> simp [BelowHi] <;> order
    refine ⟨false, n.recs, [], ?_, by simp, ?_, fun r hr a ha => ?_, by simp, by simp, fun _ => ⟨rfl, hlt⟩⟩
    · unfold Node.searchEndPositionFor
      rw [hb]; rfl
    · intro x hx
      exact hlt _ (Bd.gtKey_iff'.1 (hok.pairs_range x hx).2)
    · obtain ⟨a', e1, -, e2⟩ := (NodeOk.leaf hok).keyed r hr
      rw [ha] at e1; cases e1
      exact hlt _ (Bd.gtKey_iff'.1 e2)
  | true =>
    have hout : ∀ k, hiB n.high ≤ .key k → ¬ BelowHi e k := by
      intro k hk
      cases hn : n.next with
      | none =>
        rw [hnx hn] at hk
        exact absurd hk (not_le.2 (Bd.key_lt_top k))
      | some q =>
        simp only [Node.isRightmostOf, hn] at hb
        cases e with
        | none => cases hb
        | some kc =>
          obtain ⟨k', cl⟩ := kc
          have h3 := compHigh_iff.1 (show n.compHighKey k' = true from hb)
          have h4 := Bd.key_lt_key.1 (lt_of_lt_of_le h3 hk)
          cases cl <;> simp [BelowHi] <;> order
    cases e with
    | none =>
      refine ⟨true, n.recs, [], ?_, by simp, fun _ _ => trivial, fun _ _ _ _ => trivial, by simp, fun _ => hout, by simp⟩
      unfold Node.searchEndPositionFor
      rw [hb]; rfl
    | some kc =>
      obtain ⟨k, cl⟩ := kc
      obtain ⟨rc, pos, P, Q, e1, e2, e3, e4, e5, e6⟩ := endSearch_ok hok k cl
      refine ⟨true, P, Q, ?_, e3, e4, e6, e5, fun _ => hout, by simp⟩
      unfold Node.searchEndPositionFor
      rw [hb]
      dsimp only
      rw [e1, ← e2]
      rfl

/-- The slots before `pos` hold what has been read (`b`), the others what has not. -/
structure PosOk (b : ScanKey K) (n : Node K V) (pos : Nat) : Prop where
  split : ∃ T D, n.recs = T ++ D ∧ T.length = pos ∧ (∀ x ∈ pairs T, ¬ AboveLo b x.1) ∧ (∀ x ∈ pairs D, AboveLo b x.1) ∧
    ∀ r ∈ D, ∀ a, r.key = some a → ∀ j, a < j → AboveLo b j

theorem PosOk.zero (n : Node K V) : PosOk none n 0 :=
  ⟨[], n.recs, rfl, rfl, by simp, fun _ _ => trivial, fun _ _ _ _ _ _ => trivial⟩

/-- The position `ResetIterator` computes. -/
theorem seekPos_ok {n : Node K V} {lo : Bd K} (hok : NodeOk cfg false lo n) {k : K} {cl : Bool} {rc : NodeRC} {pos : Nat}
    (hs : n.searchRecord k = .ok (rc, pos)) : PosOk (some (k, cl)) n (if rc = .keyAlreadyInserted ∧ cl = false then pos + 1 else pos) := by
  have up : ∀ a j, k ≤ a → a < j → AboveLo (some (k, cl)) j := by
    intro a j h1 h2
    cases cl
    · exact lt_of_le_of_lt h1 h2
    · exact le_of_lt (lt_of_le_of_lt h1 h2)
  rcases hok.search_leaf k with ⟨T, D, h1, h2, h3, h4⟩ | ⟨T, r, D, h1, h2, h3, h4, h5⟩
  · rw [hs] at h2; cases h2
    refine ⟨T, D, h1, by simp, ?_, ?_, fun r hr a ha j hj => up a j (le_of_lt (h4 r hr a ha)) hj⟩
    · intro x hx
      have := h3.pairs x hx
      cases cl <;> simp [AboveLo] <;> order
    · intro x hx
      have := h4.pairs x hx
      cases cl <;> simp [AboveLo] <;> order
  · rw [hs] at h5; cases h5
    by_cases hc : r.del = false ∧ cl = false
    · obtain ⟨hd, rfl⟩ := hc
      refine ⟨T ++ [r], D, by simp [h1], by simp [hd], ?_, ?_, fun r hr a ha j hj => up a j (le_of_lt (h4 r hr a ha)) hj⟩
      · intro x hx
        rw [pairs_append, List.mem_append] at hx
        rcases hx with hx | hx
        · have := h3.pairs x hx
          simp [AboveLo]; order
        · obtain ⟨r', hr', hp'⟩ := mem_pairs.1 hx
          simp at hr'
          subst hr'
          have := (pair_key hp').1
          rw [h2] at this
          cases this
          simp [AboveLo]
      · intro x hx
        have := h4.pairs x hx
        simp [AboveLo]; order
    · refine ⟨T, r :: D, h1, ?_, ?_, ?_, fun r' hr a ha j hj => up a j ?_ hj⟩
      · cases hd : r.del <;> simp [hd] at hc ⊢
        simp [hc]
      · intro x hx
        have := h3.pairs x hx
        cases cl <;> simp [AboveLo] <;> order
      · intro x hx
        rw [pairs_cons, List.mem_append] at hx
        rcases hx with hx | hx
        · simp only [Option.mem_toList] at hx
          have hk := pair_key hx
          rw [h2] at hk
          obtain ⟨hk, -, hd⟩ := hk
          cases hk
          have : cl = true := by
            cases cl
            · exact absurd ⟨hd, rfl⟩ hc
            · rfl
          subst this
          exact le_refl _
        · have := h4.pairs x hx
          cases cl <;> simp [AboveLo] <;> order
      · rcases List.mem_cons.1 hr with rfl | hr
        · rw [h2] at ha; cases ha; exact le_refl _
        · exact le_of_lt (h4 r' hr a ha)

/-! ## Coverage -/

/-- Everything up to `H` has been read, up to `b` it has been reported (`acc`): the scan may go on at any border `B ≤ H`. -/
def Cov (maps : Nat → Map K V) (t0 : Nat) (op : Op K V) (σ : Nat) (b e : ScanKey K) (acc : List (K × V)) (H : Bd K) : Prop :=
  ∀ B : Bd K, B ≤ H → B ≠ .top → ∃ b1 i, i ≤ σ ∧ Walk maps t0 (.waiting op) i (.scanning b1 e acc) ∧
    (∀ j, .key j < B → ¬ AboveLo b1 j) ∧ ∀ j, B ≤ .key j → (AboveLo b1 j ↔ AboveLo b j)

section
variable {maps maps' : Nat → Map K V} {t0 σ τ : Nat} {op : Op K V} {b e : ScanKey K} {acc : List (K × V)} {H : Bd K}

theorem Cov.congr (h : Cov maps t0 op σ b e acc H) (hm : ∀ l, l ≤ σ → maps' l = maps l) : Cov maps' t0 op σ b e acc H := by
  intro B hB hB'
  obtain ⟨b1, i, a1, a2, a3⟩ := h B hB hB'
  exact ⟨b1, i, a1, a2.congr fun l hl => hm l (le_trans hl a1), a3⟩

/-- Where a scan begins. -/
def startB : ScanKey K → Bd K
  | none => .bot
  | some (k, _) => .key k

theorem Cov.start (b e : ScanKey K) : Cov maps t0 (.scan b e) t0 b e [] (startB b) := by
  intro B hB _
  refine ⟨b, t0, le_refl _, Walk.step Walk.refl (le_refl _) (ScanStep.start b e), fun j hj => ?_, fun _ _ => Iff.rfl⟩
  have hj' := lt_of_lt_of_le hj hB
  match b with
  | none => exact absurd hj' (not_lt.2 (Bd.bot_le _))
  | some (k, true) => exact not_le.2 (Bd.key_lt_key.1 hj')
  | some (k, false) => exact not_lt.2 (le_of_lt (Bd.key_lt_key.1 hj'))

variable {n : Node K V} {lo : Bd K}

theorem NodeOk.lo_ne_top {i : Bool} (hok : NodeOk cfg i lo n) : lo ≠ .top := by
  rintro rfl
  exact absurd (Bd.lt_iff.1 hok.lt) (not_lt.2 (Bd.le_top _))

/-- The record at the position is read. -/
theorem Cov.rec (h : Cov maps t0 op σ b e acc H) (hlo : lo ≤ H) (hτ : σ ≤ τ) (hok : NodeOk cfg false lo n) (hag : Agrees (maps τ) lo n)
    {pos endPos : Nat} {isEnd : Bool} (hp : PosOk b n pos) (hnx : n.next = none → n.high = none)
    (he : n.searchEndPositionFor e = .ok (isEnd, endPos)) (hlt : pos < endPos) :
    ∃ r k, n.recs[pos]? = some r ∧ r.key = some k ∧ (∃ v, r.pay = .val v) ∧
      Cov maps t0 op τ (some (k, false)) e (acc ++ r.pair.toList) (.key k) ∧ PosOk (some (k, false)) n (pos + 1) := by
  obtain ⟨T, D0, d1, d2, d3, d4, d5⟩ := hp.split
  obtain ⟨isEnd', P, Q, p1, p2, -, p3, -⟩ := searchEnd_any hok hnx e
  rw [he] at p1
  obtain ⟨rfl, rfl⟩ : isEnd = isEnd' ∧ endPos = P.length := by simpa using p1
  cases hD : D0 with
  | nil =>
    exfalso
    have := congrArg List.length p2
    rw [d1, hD] at this
    simp at this
    omega
  | cons r D =>
    subst hD
    have hrm : r ∈ n.recs := by rw [d1]; simp
    obtain ⟨k, hk, k1, k2⟩ := (NodeOk.leaf hok).keyed r hrm
    have k1' := Bd.leKey_iff'.1 k1
    have k2' := Bd.gtKey_iff'.1 k2
    obtain ⟨sT, sD⟩ : AllLt T k ∧ AllGt D k := by
      have hs := (NodeOk.leaf hok).sorted
      rw [d1] at hs
      obtain ⟨-, s2, s3⟩ := List.pairwise_append.1 hs
      exact ⟨fun r' hr' a ha => s3 r' hr' r List.mem_cons_self a ha k hk,
        fun r' hr' a ha => (List.pairwise_cons.1 s2).1 r' hr' k hk a ha⟩
    have hget : n.recs[pos]? = some r := by rw [d1, ← d2]; simp
    have hrP : r ∈ P := by
      rw [p2, List.getElem?_append_left hlt] at hget
      exact List.mem_of_getElem? hget
    have hbe := p3 r hrP k hk
    obtain ⟨b1, i, c1, c2, c3, c4⟩ := h lo hlo hok.lo_ne_top
    have inr : ∀ x ∈ pairs n.recs, lo ≤ .key x.1 := fun x hx => Bd.leKey_iff'.1 (hok.pairs_range x hx).1
    have hpr : pairs [r] = r.pair.toList := by rw [pairs_cons]; simp [pairs]
    have hsc : IsScan (maps τ) b1 (some (k, true)) (pairs ((T ++ [r]).drop T.length)) := by
      refine isScan_page hok hag d1 ?_ ?_ c3 (P := T ++ [r]) (Q := D) (by rw [d1]; simp) ?_ ?_ ?_
      · intro x hx
        rw [c4 _ (inr x (by rw [d1, pairs_append]; exact List.mem_append_left _ hx))]
        exact d3 x hx
      · intro x hx
        rw [c4 _ (inr x (by rw [d1, pairs_append]; exact List.mem_append_right _ hx))]
        exact d4 x hx
      · intro x hx
        rw [pairs_append, List.mem_append] at hx
        rcases hx with hx | hx
        · exact le_of_lt (sT.pairs x hx)
        · obtain ⟨r', hr', hp'⟩ := mem_pairs.1 hx
          simp at hr'
          subst hr'
          have := (pair_key hp').1
          rw [hk] at this
          cases this
          exact le_refl _
      · intro x hx
        exact not_le.2 (sD.pairs x hx)
      · intro j hj
        exact not_le.2 (Bd.key_lt_key.1 (lt_of_lt_of_le k2' hj))
    rw [List.drop_left, hpr] at hsc
    have hst : ScanStep (maps τ) (.scanning b1 e acc) (.scanning (some (k, false)) e (acc ++ r.pair.toList)) := by
      refine ScanStep.part k true _ (fun j hj => ?_) (fun j hj => ?_) hsc
      · have hj' : k < j := hj
        rw [c4 j (le_trans k1' (Bd.key_le_key.2 (le_of_lt hj')))]
        exact d5 r List.mem_cons_self k hk j hj'
      · exact belowHi_mono hbe hj
    refine ⟨r, k, hget, hk, (NodeOk.leaf hok).vals r hrm, fun B hB _ => ?_, T ++ [r], D, by rw [d1]; simp, by simp [d2], ?_, ?_, ?_⟩
    · refine ⟨some (k, false), τ, le_refl _, Walk.step c2 (le_trans c1 hτ) hst, fun j hj => ?_, fun _ _ => Iff.rfl⟩
      exact not_lt.2 (le_of_lt (Bd.key_lt_key.1 (lt_of_lt_of_le hj hB)))
    · intro x hx
      rw [pairs_append, List.mem_append] at hx
      rcases hx with hx | hx
      · exact not_lt.2 (le_of_lt (sT.pairs x hx))
      · obtain ⟨r', hr', hp'⟩ := mem_pairs.1 hx
        simp at hr'
        subst hr'
        have := (pair_key hp').1
        rw [hk] at this
        cases this
        exact lt_irrefl _
    · intro x hx
      exact sD.pairs x hx
    · intro r' hr' a ha j hj
      exact lt_trans (sD r' hr' a ha) hj

/-- The rest of the range is in this page, and it is empty. -/
theorem Cov.last (h : Cov maps t0 op σ b e acc H) (hlo : lo ≤ H) (hτ : σ ≤ τ) (hok : NodeOk cfg false lo n) (hag : Agrees (maps τ) lo n)
    {pos endPos : Nat} (hp : PosOk b n pos) (hnx : n.next = none → n.high = none)
    (he : n.searchEndPositionFor e = .ok (true, endPos)) (hle : endPos ≤ pos) : Walk maps t0 (.waiting op) τ (.done (.recs acc)) := by
  obtain ⟨T, D, d1, d2, d3, d4, -⟩ := hp.split
  obtain ⟨isEnd', P, Q, p1, p2, p3, -, p4, p5, -⟩ := searchEnd_any hok hnx e
  rw [he] at p1
  obtain ⟨rfl, rfl⟩ : isEnd' = true ∧ endPos = P.length := by simpa [eq_comm] using p1
  obtain ⟨b1, i, c1, c2, c3, c4⟩ := h lo hlo hok.lo_ne_top
  have inr : ∀ x ∈ pairs n.recs, lo ≤ .key x.1 := fun x hx => Bd.leKey_iff'.1 (hok.pairs_range x hx).1
  have hsc : IsScan (maps τ) b1 e (pairs (P.drop T.length)) := by
    refine isScan_page hok hag d1 ?_ ?_ c3 p2 p3 p4 (p5 rfl)
    · intro x hx
      rw [c4 _ (inr x (by rw [d1, pairs_append]; exact List.mem_append_left _ hx))]
      exact d3 x hx
    · intro x hx
      rw [c4 _ (inr x (by rw [d1, pairs_append]; exact List.mem_append_right _ hx))]
      exact d4 x hx
  rw [List.drop_eq_nil_of_le (by omega)] at hsc
  have := ScanStep.last (acc := acc) _ hsc
  simp only [show pairs ([] : List (Rec K V)) = [] from rfl, List.append_nil] at this
  exact Walk.step c2 (le_trans c1 hτ) this

/-- The page has been read to its end. -/
theorem Cov.page (h : Cov maps t0 op σ b e acc H) (hlo : lo ≤ H) (hτ : σ ≤ τ) (hok : NodeOk cfg false lo n) (hag : Agrees (maps τ) lo n)
    {pos endPos : Nat} (hp : PosOk b n pos) (hnx : n.next = none → n.high = none)
    (he : n.searchEndPositionFor e = .ok (false, endPos)) (hle : endPos ≤ pos) : Cov maps t0 op τ b e acc (max H (hiB n.high)) := by
  obtain ⟨T, D, d1, d2, d3, d4, -⟩ := hp.split
  obtain ⟨isEnd', P, Q, p1, p2, p3, -, p4, -, p5⟩ := searchEnd_any hok hnx e
  rw [he] at p1
  obtain ⟨rfl, rfl⟩ : isEnd' = false ∧ endPos = P.length := by simpa [eq_comm] using p1
  obtain ⟨rfl, p6⟩ := p5 rfl
  rw [List.append_nil] at p2
  have hD : D = [] := by
    have := congrArg List.length d1
    rw [p2] at this
    simp at this
    exact List.length_eq_zero_iff.1 (by omega)
  subst hD
  rw [List.append_nil] at d1
  intro B hB hBt
  have old : B ≤ H → _ := fun hB' => h B hB' hBt
  by_cases hB1 : B ≤ H
  · obtain ⟨b1, i, c1, c2, c3⟩ := old hB1
    exact ⟨b1, i, le_trans c1 hτ, c2, c3⟩
  · have hB2 : B ≤ hiB n.high := (le_max_iff.1 hB).resolve_left hB1
    have hlB : lo ≤ B := le_trans hlo (le_of_not_ge hB1)
    obtain ⟨b1, i, c1, c2, c3, c4⟩ := h lo hlo hok.lo_ne_top
    match B with
    | .top => exact absurd rfl hBt
    | .bot => exact absurd (Bd.bot_le _) hB1
    | .key c =>
      by_cases hj : ∃ j, j < c ∧ AboveLo b1 j
      · obtain ⟨j0, j1, j2⟩ := hj
        have hsc : IsScan (maps τ) b1 (some (c, false)) [] := by
          refine ⟨List.Pairwise.nil, fun j v => ⟨fun h => by simp at h, ?_⟩⟩
          rintro ⟨g1, g2, g3⟩
          have g4 : lo ≤ .key j := not_lt.1 fun h => c3 j h g2
          have g5 : Bd.key j < hiB n.high := lt_of_lt_of_le (Bd.key_lt_key.2 g3) hB2
          have g6 := (hag j g4 g5 v).1 g1
          rw [d1] at g6
          exact absurd ((c4 j g4).1 g2) (d3 _ g6)
        have := ScanStep.part (e := e) (acc := acc) c false [] (fun j hj => aboveLo_mono j2 (le_trans (le_of_lt j1) hj))
          (fun j hj => p6 j (lt_of_lt_of_le (Bd.key_lt_key.2 hj) hB2)) hsc
        rw [List.append_nil] at this
        refine ⟨_, τ, le_refl _, Walk.step c2 (le_trans c1 hτ) this, fun j hj => not_le.2 (Bd.key_lt_key.1 hj), fun j hj => ?_⟩
        have hcj := Bd.key_le_key.1 hj
        refine ⟨fun _ => (c4 j (le_trans hlB hj)).1 (aboveLo_mono j2 (le_trans (le_of_lt j1) hcj)), fun _ => hcj⟩
      · refine ⟨b1, i, le_trans c1 hτ, c2, fun j hj' h' => hj ⟨j, Bd.key_lt_key.1 hj', h'⟩, fun j hj' => c4 j (le_trans hlB hj')⟩

end
end BT
