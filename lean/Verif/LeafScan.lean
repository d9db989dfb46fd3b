import Verif.PartOk
import Verif.ConcInv

/-!
# What a scan reads from one leaf, given only that leaf

`scan_page`: a leaf that agrees with the map in its range yields the part of a scan that lies in this range.
-/

set_option linter.unusedSectionVars false

namespace BT
open Spec
variable {K V : Type} [LinearOrder K] {cfg : Cfg K}

/-- The end position for an end key separates the slots in range from those out of range. -/
theorem endSearch_ok {n : Node K V} {lo : Bd K} (hok : NodeOk cfg false lo n) (k : K) (cl : Bool) :
    ∃ rc pos P Q, n.searchRecord k = .ok (rc, pos) ∧ (if rc = .keyAlreadyInserted ∧ cl = true then pos + 1 else pos) = P.length ∧
      n.recs = P ++ Q ∧ (∀ x ∈ pairs P, BelowHi (some (k, cl)) x.1) ∧ (∀ x ∈ pairs Q, ¬ BelowHi (some (k, cl)) x.1) ∧
      ∀ r ∈ P, ∀ a, r.key = some a → BelowHi (some (k, cl)) a := by
  rcases hok.search_leaf k with ⟨T, D, h1, h2, h3, h4⟩ | ⟨T, r, D, h1, h2, h3, h4, h5⟩
  · refine ⟨_, _, T, D, h2, by simp, h1, ?_, ?_, fun r hr a ha => ?_⟩
    on_goal 3 =>
      have := h3 r hr a ha
      cases cl <;> simp [BelowHi] <;> order
    · intro x hx
      have := h3.pairs x hx
      cases cl <;> simp [BelowHi] <;> order
    · intro x hx
      have := h4.pairs x hx
      cases cl <;> simp [BelowHi] <;> order
  · by_cases hc1 : r.del = false ∧ cl = true
    · obtain ⟨hd, rfl⟩ := hc1
      refine ⟨_, _, T ++ [r], D, h5, by simp [hd], by simp [h1], ?_, ?_, fun r' hr a ha => ?_⟩
      on_goal 3 =>
        rcases List.mem_append.1 hr with hr | hr
        · exact le_of_lt (h3 r' hr a ha)
        · cases List.mem_singleton.1 hr
          rw [h2] at ha; cases ha
          exact le_refl _
      · intro x hx
        rw [pairs_append, List.mem_append] at hx
        rcases hx with hx | hx
        · have := h3.pairs x hx
          simp [BelowHi]; order
        · obtain ⟨r', hr', hp'⟩ := mem_pairs.1 hx
          simp at hr'
          subst hr'
          have := (pair_key hp').1
          rw [h2] at this
          cases this
          simp [BelowHi]
      · intro x hx
        have := h4.pairs x hx
        simp [BelowHi]; order
    · refine ⟨_, _, T, r :: D, h5, ?_, h1, ?_, ?_, fun r hr a ha => ?_⟩
      on_goal 4 =>
        have := h3 r hr a ha
        cases cl <;> simp [BelowHi] <;> order
      · cases hd : r.del <;> simp [hd] at hc1 ⊢
        simp [hc1]
      · intro x hx
        have := h3.pairs x hx
        cases cl <;> simp [BelowHi] <;> order
      · intro x hx
        rw [pairs_cons, List.mem_append] at hx
        rcases hx with hx | hx
        · simp only [Option.mem_toList] at hx
          have hk := pair_key hx
          rw [h2] at hk
          obtain ⟨hk, -, hd⟩ := hk
          cases hk
          have : cl = false := by
            cases cl
            · rfl
            · exact absurd ⟨hd, rfl⟩ hc1
          subst this
          simp [BelowHi]
        · have := h4.pairs x hx
          cases cl <;> simp [BelowHi] <;> order

/-- The end position found in a leaf. -/
theorem searchEnd_page {n : Node K V} {lo : Bd K} (hok : NodeOk cfg false lo n)
    (hnx : (n.high = none ∧ n.next = none) ∨ ∃ h q, n.high = some h ∧ n.next = some q) (e : ScanKey K) :
    ∃ isEnd P Q, n.searchEndPositionFor e = .ok (isEnd, P.length) ∧ n.recs = P ++ Q ∧
      (∀ x ∈ pairs P, BelowHi e x.1) ∧ (∀ x ∈ pairs Q, ¬ BelowHi e x.1) ∧
      (isEnd = true → ∀ k, hiB n.high ≤ .key k → ¬ BelowHi e k) ∧
      (isEnd = false → Q = [] ∧ ∃ c q, n.high = some c ∧ n.next = some q ∧ ∀ k, k < c → BelowHi e k) := by
  cases hb : n.isRightmostOf e with
  | false =>
    rcases hnx with ⟨h1, h2⟩ | ⟨h, q, h1, h2⟩
    · simp [Node.isRightmostOf, h2] at hb
    · obtain ⟨-, hlt⟩ := isRightmostOf_false h1 hb
      refine ⟨false, n.recs, [], ?_, by simp, ?_, by simp, by simp, fun _ => ⟨rfl, h, q, h1, h2, hlt⟩⟩
      · unfold Node.searchEndPositionFor
        rw [hb]; rfl
      · intro x hx
        refine hlt _ ?_
        have := (hok.pairs_range x hx).2
        rw [h1] at this
        exact this
  | true =>
    have hout : ∀ k, hiB n.high ≤ .key k → ¬ BelowHi e k := by
      intro k hk
      rcases hnx with ⟨h1, h2⟩ | ⟨h, q, h1, h2⟩
      · rw [h1] at hk
        exact absurd hk (not_le.2 (Bd.key_lt_top k))
      · simp only [Node.isRightmostOf, h2] at hb
        cases e with
        | none => cases hb
        | some kc =>
          obtain ⟨k', cl⟩ := kc
          have h3 := compHigh_iff.1 (show n.compHighKey k' = true from hb)
          have h4 := Bd.key_lt_key.1 (lt_of_lt_of_le h3 hk)
          cases cl <;> simp [BelowHi] <;> order
    cases e with
    | none =>
      refine ⟨true, n.recs, [], ?_, by simp, fun _ _ => trivial, by simp, fun _ => hout, by simp⟩
      unfold Node.searchEndPositionFor
      rw [hb]; rfl
    | some kc =>
      obtain ⟨k, cl⟩ := kc
      obtain ⟨rc, pos, P, Q, e1, e2, e3, e4, e5, -⟩ := endSearch_ok hok k cl
      refine ⟨true, P, Q, ?_, e3, e4, e5, fun _ => hout, by simp⟩
      unfold Node.searchEndPositionFor
      rw [hb]
      dsimp only
      rw [e1, ← e2]
      rfl

/-- The records of a leaf from `T` on and up to `P` are a scan of a map that agrees with the leaf. -/
theorem isScan_page {n : Node K V} {lo : Bd K} {m : Map K V} (hok : NodeOk cfg false lo n) (hag : Agrees m lo n) {b e : ScanKey K}
    {T D P Q : List (Rec K V)} (hrec : n.recs = T ++ D) (hT : ∀ x ∈ pairs T, ¬ AboveLo b x.1) (hD : ∀ x ∈ pairs D, AboveLo b x.1)
    (hA : ∀ k, .key k < lo → ¬ AboveLo b k) (hpq : n.recs = P ++ Q) (hP : ∀ x ∈ pairs P, BelowHi e x.1)
    (hQ : ∀ x ∈ pairs Q, ¬ BelowHi e x.1) (hB : ∀ k, hiB n.high ≤ .key k → ¬ BelowHi e k) :
    IsScan m b e (pairs (P.drop T.length)) := by
  have h0 : pairs (P.drop T.length) = below e (pairs D) := by
    rw [← below_drop hP hQ T.length, ← hpq, hrec, List.drop_left]
  refine ⟨?_, fun k v => ?_⟩
  · rw [h0]
    have hs := hok.pairs_sorted
    rw [hrec, pairs_append, List.pairwise_append] at hs
    exact hs.2.1.sublist List.filter_sublist
  · rw [h0]
    simp only [below, List.mem_filter, decide_eq_true_eq]
    constructor
    · rintro ⟨h1, h2⟩
      have h3 : (k, v) ∈ pairs n.recs := by rw [hrec, pairs_append]; exact List.mem_append_right _ h1
      obtain ⟨h4, h5⟩ := hok.pairs_range _ h3
      exact ⟨(hag k (Bd.leKey_iff'.1 h4) (Bd.gtKey_iff'.1 h5) v).2 h3, hD _ h1, h2⟩
    · rintro ⟨h1, h2, h3⟩
      have h4 : lo ≤ .key k := not_lt.1 fun h => hA k h h2
      have h5 : .key k < hiB n.high := not_le.1 fun h => hB k h h3
      have h6 := (hag k h4 h5 v).1 h1
      rw [hrec, pairs_append, List.mem_append] at h6
      rcases h6 with h6 | h6
      · exact absurd h2 (hT _ h6)
      · exact ⟨h6, h3⟩

/-- A scan whose range begins in a leaf, behind the slots `T`, reads one part of its range there. -/
theorem scan_page {n : Node K V} {lo : Bd K} {m : Map K V} (hok : NodeOk cfg false lo n) (hag : Agrees m lo n)
    (hnx : (n.high = none ∧ n.next = none) ∨ ∃ h q, n.high = some h ∧ n.next = some q) {b e : ScanKey K}
    {acc : List (K × V)} {T D : List (Rec K V)} (hrec : n.recs = T ++ D) (hT : ∀ x ∈ pairs T, ¬ AboveLo b x.1)
    (hD : ∀ x ∈ pairs D, AboveLo b x.1) (hA : ∀ k, .key k < lo → ¬ AboveLo b k) (hB : ∀ k, hiB n.high ≤ .key k → AboveLo b k) :
    ∃ isEnd m' l, n.searchEndPositionFor e = .ok (isEnd, m') ∧ leafPart n.recs (m' - T.length) T.length = .ok l ∧
      (isEnd = true → ScanStep m (.scanning b e acc) (.done (.recs (acc ++ l)))) ∧
      (isEnd = false → ∃ c q, n.high = some c ∧ n.next = some q ∧
        ScanStep m (.scanning b e acc) (.scanning (some (c, true)) e (acc ++ l))) := by
  obtain ⟨isEnd, P, Q, e1, e2, e3, e4, e5, e6⟩ := searchEnd_page hok hnx e
  refine ⟨isEnd, P.length, pairs (P.drop T.length), e1, leafPart_upto (NodeOk.leaf hok) e2 _, fun he => ?_, fun he => ?_⟩
  · exact .last _ (isScan_page hok hag hrec hT hD hA e2 e3 e4 (e5 he))
  · obtain ⟨hq, c, q, h1, h2, h3⟩ := e6 he
    refine ⟨c, q, h1, h2, ?_⟩
    refine ScanStep.part c false _ (fun k hk => hB k ?_) h3 (isScan_page hok hag hrec hT hD hA e2 ?_ (by rw [hq]; simp) ?_)
    · rw [h1]; exact Bd.key_le_key.2 hk
    · intro x hx
      have := (hok.pairs_range x (by rw [e2, pairs_append]; exact List.mem_append_left _ hx)).2
      rw [h1] at this
      exact this
    · intro k hk
      rw [h1] at hk
      exact not_lt.2 (Bd.key_le_key.1 hk)

/-- The first leaf of a scan. -/
def FirstLeaf (b : ScanKey K) (n : Node K V) (lo : Bd K) : Prop :=
  match b with
  | none => lo = .bot
  | some (k, _) => lo ≤ .key k ∧ .key k < hiB n.high

theorem firstPos_ok {b : ScanKey K} {n : Node K V} {lo : Bd K} (hok : NodeOk cfg false lo n) (hf : FirstLeaf b n lo) :
    ∃ T D, CScan.beginPos b n = .ok T.length ∧ n.recs = T ++ D ∧ (∀ x ∈ pairs T, ¬ AboveLo b x.1) ∧ (∀ x ∈ pairs D, AboveLo b x.1) ∧
      (∀ k, .key k < lo → ¬ AboveLo b k) ∧ (∀ k, hiB n.high ≤ .key k → AboveLo b k) := by
  cases b with
  | none =>
    refine ⟨[], n.recs, rfl, rfl, by simp, fun _ _ => trivial, ?_, fun _ _ => trivial⟩
    intro k hk
    rw [show lo = .bot from hf] at hk
    exact absurd hk (not_lt.2 (Bd.bot_le _))
  | some kc =>
    obtain ⟨k, cl⟩ := kc
    obtain ⟨T, D, t1, t2, t3, t4⟩ := scanBegin_ok hok k cl
    refine ⟨T, D, t1, t2, t3, t4, ?_, ?_⟩
    · intro x hx
      have := Bd.key_lt_key.1 (lt_of_lt_of_le hx hf.1)
      cases cl <;> simp [AboveLo] <;> order
    · intro x hx
      have := Bd.key_lt_key.1 (lt_of_lt_of_le hf.2 hx)
      cases cl <;> simp [AboveLo] <;> order

end BT
