import Verif.Scan
import Verif.PmlOk

/-!
# Scans return exactly the records in range, in order
-/

set_option linter.unusedSectionVars false

namespace BT
variable {K V : Type} [LinearOrder K]

instance (e : ScanKey K) (k : K) : Decidable (Spec.BelowHi e k) := by
  unfold Spec.BelowHi; split <;> infer_instance
instance (e : ScanKey K) (k : K) : Decidable (Spec.AboveLo e k) := by
  unfold Spec.AboveLo; split <;> infer_instance

/-- keep the pairs below the upper bound -/
def below (e : ScanKey K) (l : List (K × V)) : List (K × V) := l.filter (fun x => decide (Spec.BelowHi e x.1))

theorem below_append (e : ScanKey K) (A B : List (K × V)) : below e (A ++ B) = below e A ++ below e B := by
  simp [below]
theorem below_all {e : ScanKey K} {A : List (K × V)} (h : ∀ x ∈ A, Spec.BelowHi e x.1) : below e A = A := by
  simpa [below, List.filter_eq_self] using h
theorem below_none {e : ScanKey K} {A : List (K × V)} (h : ∀ x ∈ A, ¬ Spec.BelowHi e x.1) : below e A = [] := by
  simpa [below, List.filter_eq_nil_iff] using h

theorem Bd.le_of_not_gt {a : Bd K} {k : K} (h : ¬ a.gtKey k) : a.leKey k := by
  cases a <;> simp_all

section wf
variable {cfg : Cfg K} {s : St K V} {H : Nat} {gr : Nat → List Grp}

/-- The end position found in a leaf separates the slots in range from those out of range. -/
theorem searchEnd_ok {n : Node K V} {lo : Bd K} {B : List Ptr} (hp : PageAt cfg 0 lo n B.head?)
    (hc : Chain (PageAt cfg 0) s.heap (hiB n.high) B .top none) (e : ScanKey K) :
    ∃ isEnd P Q, n.searchEndPositionFor e = .ok (isEnd, P.length) ∧ n.recs = P ++ Q ∧
      (∀ x ∈ pairs P, Spec.BelowHi e x.1) ∧ (∀ x ∈ pairs Q, ¬ Spec.BelowHi e x.1) ∧
      (isEnd = true → ∀ x ∈ B.flatMap (pairsOf s.heap), ¬ Spec.BelowHi e x.1) ∧
      (isEnd = false → B ≠ [] ∧ Q = []) := by
  have hok : NodeOk cfg false lo n := hp.1
  have hnext : n.next = B.head? := hp.2 (by simp [Node.hasNext, hok.kind])
  unfold Node.searchEndPositionFor Node.isRightmostOf
  cases B with
  | nil =>
    simp only [List.head?_nil] at hnext
    rw [hnext]
    cases e with
    | none =>
      exact ⟨true, n.recs, [], rfl, by simp, by simp [Spec.BelowHi], by simp, by simp, by simp⟩
    | some kc =>
      obtain ⟨k, cl⟩ := kc
      dsimp only
      rcases hok.search_leaf k with ⟨T, D, h1, h2, h3, h4⟩ | ⟨T, r, D, h1, h2, h3, h4, h5⟩
      · refine ⟨true, T, D, by rw [h2]; rfl, h1, ?_, ?_, by simp, by simp⟩
        · intro x hx
          have := h3.pairs x hx
          cases cl <;> simp [Spec.BelowHi] <;> order
        · intro x hx
          have := h4.pairs x hx
          cases cl <;> simp [Spec.BelowHi] <;> order
      · by_cases hc1 : r.del = false ∧ cl = true
        · obtain ⟨hd, rfl⟩ := hc1
          refine ⟨true, T ++ [r], D, by rw [h5, hd]; simp, by simp [h1], ?_, ?_, by simp, by simp⟩
          · intro x hx
            rw [pairs_append, List.mem_append] at hx
            rcases hx with hx | hx
            · have := h3.pairs x hx
              simp [Spec.BelowHi]; order
            · obtain ⟨r', hr', hp'⟩ := mem_pairs.1 hx
              simp at hr'
              subst hr'
              have := (pair_key hp').1
              rw [h2] at this
              cases this
              simp [Spec.BelowHi]
          · intro x hx
            have := h4.pairs x hx
            simp [Spec.BelowHi]; order
        · refine ⟨true, T, r :: D, ?_, h1, ?_, ?_, by simp, by simp⟩
          · rw [h5]
            cases hd : r.del <;> simp [hd] at hc1 ⊢
            simp [hc1]
          · intro x hx
            have := h3.pairs x hx
            cases cl <;> simp [Spec.BelowHi] <;> order
          · intro x hx
            rw [pairs_cons, List.mem_append] at hx
            rcases hx with hx | hx
            · simp only [Option.mem_toList] at hx
              have hk := pair_key hx
              rw [h2] at hk
              obtain ⟨hk, -, hd⟩ := hk
              cases hk
              have : cl = false := by
                cases cl
                · rfl
                · exact absurd ⟨hd, rfl⟩ hc1
              subst this
              simp [Spec.BelowHi]
            · have := h4.pairs x hx
              cases cl <;> simp [Spec.BelowHi] <;> order
  | cons q B =>
    simp only [List.head?_cons] at hnext
    rw [hnext]
    cases e with
    | none =>
      exact ⟨false, n.recs, [], rfl, by simp, by simp [Spec.BelowHi], by simp, by simp, by simp⟩
    | some kc =>
      obtain ⟨k, cl⟩ := kc
      dsimp only
      by_cases hh : n.compHighKey k = true
      · have hrest : ∀ x ∈ (q :: B).flatMap (pairsOf s.heap), ¬ Spec.BelowHi (some (k, cl)) x.1 := by
          intro x hx
          have h1 := chain_pairs_ge hc x hx
          have h2 := compHighKey_iff.1 hh
          have h3 := Bd.leKey_of_gtKey_lt h1 h2
          cases cl <;> simp [Spec.BelowHi] <;> order
        rw [hh]
        dsimp only
        rcases hok.search_leaf k with ⟨T, D, h1, h2, h3, h4⟩ | ⟨T, r, D, h1, h2, h3, h4, h5⟩
        · refine ⟨true, T, D, by rw [h2]; rfl, h1, ?_, ?_, fun _ => hrest, by simp⟩
          · intro x hx
            have := h3.pairs x hx
            cases cl <;> simp [Spec.BelowHi] <;> order
          · intro x hx
            have := h4.pairs x hx
            cases cl <;> simp [Spec.BelowHi] <;> order
        · by_cases hc1 : r.del = false ∧ cl = true
          · obtain ⟨hd, rfl⟩ := hc1
            refine ⟨true, T ++ [r], D, by rw [h5, hd]; simp, by simp [h1], ?_, ?_, fun _ => hrest, by simp⟩
            · intro x hx
              rw [pairs_append, List.mem_append] at hx
              rcases hx with hx | hx
              · have := h3.pairs x hx
                simp [Spec.BelowHi]; order
              · obtain ⟨r', hr', hp'⟩ := mem_pairs.1 hx
                simp at hr'
                subst hr'
                have := (pair_key hp').1
                rw [h2] at this
                cases this
                simp [Spec.BelowHi]
            · intro x hx
              have := h4.pairs x hx
              simp [Spec.BelowHi]; order
          · refine ⟨true, T, r :: D, ?_, h1, ?_, ?_, fun _ => hrest, by simp⟩
            · rw [h5]
              cases hd : r.del <;> simp [hd] at hc1 ⊢
              simp [hc1]
            · intro x hx
              have := h3.pairs x hx
              cases cl <;> simp [Spec.BelowHi] <;> order
            · intro x hx
              rw [pairs_cons, List.mem_append] at hx
              rcases hx with hx | hx
              · simp only [Option.mem_toList] at hx
                have hk := pair_key hx
                rw [h2] at hk
                obtain ⟨hk, -, hd⟩ := hk
                cases hk
                have : cl = false := by
                  cases cl
                  · rfl
                  · exact absurd ⟨hd, rfl⟩ hc1
                subst this
                simp [Spec.BelowHi]
              · have := h4.pairs x hx
                cases cl <;> simp [Spec.BelowHi] <;> order
      · rw [Bool.not_eq_true] at hh
        rw [hh]
        refine ⟨false, n.recs, [], rfl, by simp, ?_, by simp, by simp, by simp⟩
        intro x hx
        have h1 := (hok.pairs_range x hx).2
        have h2 : ¬ (hiB n.high).gtKey k := by
          intro h
          rw [compHighKey_iff.2 h] at hh
          cases hh
        have h3 := Bd.leKey_of_gtKey_lt (Bd.le_of_not_gt h2) h1
        cases cl <;> simp [Spec.BelowHi] <;> order

/-- The iterator stands in leaf `p` and `B` are the leaves right of it. -/
structure ItOk (cfg : Cfg K) (s : St K V) (it : Iter K) (p : Ptr) (n : Node K V) (B : List Ptr) : Prop where
  node : it.node = some p
  heap : s.heap p = some n
  page : ∃ lo, PageAt cfg 0 lo n B.head?
  rest : Chain (PageAt cfg 0) s.heap (hiB n.high) B .top none
  endp : n.searchEndPositionFor it.endKey = .ok (it.isEnd, it.endPos)

/-- What is still to come. -/
def pending (s : St K V) (it : Iter K) (n : Node K V) (B : List Ptr) : List (K × V) :=
  below it.endKey (pairs (n.recs.drop it.pos) ++ B.flatMap (pairsOf s.heap))

theorem skipDeleted_ok {recs : List (Rec K V)} {endPos : Nat} (he : endPos ≤ recs.length) :
    ∀ m pos, m = endPos - pos → ∃ pos', skipDeleted recs endPos m pos = .ok pos' ∧ pos ≤ pos' ∧
      pairs (recs.drop pos) = pairs (recs.drop pos') ∧
      (pos' < endPos → ∃ r, recs[pos']? = some r ∧ r.del = false) := by
  intro m
  induction m with
  | zero => intro pos hm; exact ⟨pos, rfl, le_refl _, rfl, by omega⟩
  | succ m ih =>
    intro pos hm
    have hlt : pos < endPos := by omega
    have hlen : pos < recs.length := by omega
    unfold skipDeleted
    rw [if_pos hlt, List.getElem?_eq_getElem hlen]
    dsimp only
    cases hd : recs[pos].del
    · exact ⟨pos, by simp, le_refl _, rfl, fun _ => ⟨_, List.getElem?_eq_getElem hlen, hd⟩⟩
    · obtain ⟨pos', h1, h2, h3, h4⟩ := ih (pos + 1) (by omega)
      refine ⟨pos', by simpa using h1, by omega, ?_, h4⟩
      rw [← h3, List.drop_eq_getElem_cons hlen, pairs_cons]
      simp [Rec.pair, hd]

theorem below_drop {P Q : List (Rec K V)} {e : ScanKey K}
    (hP : ∀ x ∈ pairs P, Spec.BelowHi e x.1) (hQ : ∀ x ∈ pairs Q, ¬ Spec.BelowHi e x.1) (pos : Nat) :
    below e (pairs ((P ++ Q).drop pos)) = pairs (P.drop pos) := by
  rw [List.drop_append, pairs_append, below_append, below_all, below_none, List.append_nil]
  · intro x hx
    obtain ⟨r, hr, hp⟩ := mem_pairs.1 hx
    exact hQ x (mem_pairs.2 ⟨r, List.mem_of_mem_drop hr, hp⟩)
  · intro x hx
    obtain ⟨r, hr, hp⟩ := mem_pairs.1 hx
    exact hP x (mem_pairs.2 ⟨r, List.mem_of_mem_drop hr, hp⟩)

/-- `HasRecord` finds the next record in range, or reports that there is none. -/
theorem hasRecord_ok : ∀ (B : List Ptr) (it : Iter K) (p : Ptr) (n : Node K V),
    ItOk cfg s it p n B → ∀ fuel, B.length + 1 ≤ fuel →
    (∃ it', hasRecord fuel it s = .ok ((false, it'), s) ∧ pending s it n B = []) ∨
    (∃ it' p' n' B' x, hasRecord fuel it s = .ok ((true, it'), s) ∧ ItOk cfg s it' p' n' B' ∧
      it'.endKey = it.endKey ∧ getRecord it' s = .ok (x, s) ∧ B'.length ≤ B.length ∧
      pending s it n B = x :: pending s { it' with pos := it'.pos + 1 } n' B') := by
  intro B
  induction B with
  | nil =>
    intro it p n ok fuel hf
    obtain ⟨f, rfl⟩ : ∃ f, fuel = f + 1 := ⟨fuel - 1, by omega⟩
    obtain ⟨lo, hp⟩ := ok.page
    obtain ⟨isEnd, P, Q, e1, e2, e3, e4, e5, e6⟩ := searchEnd_ok hp ok.rest it.endKey
    have e7 := ok.endp
    rw [e1] at e7
    simp only [Res.ok.injEq, Prod.mk.injEq] at e7
    have hle : it.endPos ≤ n.recs.length := by rw [← e7.2, e2]; simp
    obtain ⟨pos', h1, h2, h3, h4⟩ := skipDeleted_ok hle (it.endPos - it.pos) it.pos rfl
    have hend : it.isEnd = true := by
      rw [← e7.1]
      cases isEnd
      · exact absurd rfl (e6 rfl).1
      · rfl
    have hpend : pending s it n [] = pairs (P.drop pos') := by
      unfold pending
      simp only [List.flatMap_nil, List.append_nil]
      rw [h3, e2, below_drop e3 e4]
    unfold hasRecord
    rw [ok.node]
    dsimp only
    rw [M.bind_ok (M.load_ok ok.heap), M.bind_ok (M.lift_of _ h1)]
    by_cases hlt : pos' < it.endPos
    · right
      rw [if_pos hlt]
      obtain ⟨r, r1, r2⟩ := h4 hlt
      have hltP : pos' < P.length := by rw [e7.2]; exact hlt
      have hrP : P[pos']'hltP = r := by
        have : n.recs[pos']? = some P[pos'] := by
          rw [e2, List.getElem?_append_left hltP, List.getElem?_eq_getElem hltP]
        rw [this] at r1
        exact Option.some.inj r1
      have hrmem : r ∈ n.recs := List.mem_of_getElem? r1
      obtain ⟨a, ka, -⟩ := NodeOk.leaf hp.1 |>.keyed r hrmem
      obtain ⟨v, va⟩ := NodeOk.leaf hp.1 |>.vals r hrmem
      refine ⟨{ it with node := some p, pos := pos' }, p, n, [], (a, v), rfl,
        ⟨rfl, ok.heap, ok.page, ok.rest, ok.endp⟩, rfl, ?_, le_refl _, ?_⟩
      · unfold getRecord
        dsimp only
        rw [M.bind_ok (M.load_ok ok.heap), r1]
        obtain ⟨rk, rp, rd⟩ := r
        simp only at ka va r2
        subst ka va
        rfl
      · rw [hpend]
        unfold pending
        simp only [List.flatMap_nil, List.append_nil]
        rw [e2, below_drop e3 e4, List.drop_eq_getElem_cons hltP, pairs_cons, hrP]
        have : r.pair = some (a, v) := by simp [Rec.pair, r2, ka, va]
        rw [this]; rfl
    · left
      rw [if_neg hlt, hend]
      refine ⟨_, rfl, ?_⟩
      rw [hpend, List.drop_eq_nil_of_le (by rw [e7.2]; omega)]
      rfl
  | cons q B ih =>
    intro it p n ok fuel hf
    obtain ⟨f, rfl⟩ : ∃ f, fuel = f + 1 := ⟨fuel - 1, by omega⟩
    obtain ⟨lo, hp⟩ := ok.page
    obtain ⟨isEnd, P, Q, e1, e2, e3, e4, e5, e6⟩ := searchEnd_ok hp ok.rest it.endKey
    have e7 := ok.endp
    rw [e1] at e7
    simp only [Res.ok.injEq, Prod.mk.injEq] at e7
    have hle : it.endPos ≤ n.recs.length := by rw [← e7.2, e2]; simp
    obtain ⟨pos', h1, h2, h3, h4⟩ := skipDeleted_ok hle (it.endPos - it.pos) it.pos rfl
    have hpend : pending s it n (q :: B) = pairs (P.drop pos') ++
        below it.endKey ((q :: B).flatMap (pairsOf s.heap)) := by
      unfold pending
      rw [h3, e2, below_append, below_drop e3 e4]
    unfold hasRecord
    rw [ok.node]
    dsimp only
    rw [M.bind_ok (M.load_ok ok.heap), M.bind_ok (M.lift_of _ h1)]
    by_cases hlt : pos' < it.endPos
    · right
      rw [if_pos hlt]
      obtain ⟨r, r1, r2⟩ := h4 hlt
      have hltP : pos' < P.length := by rw [e7.2]; exact hlt
      have hrP : P[pos']'hltP = r := by
        have : n.recs[pos']? = some P[pos'] := by
          rw [e2, List.getElem?_append_left hltP, List.getElem?_eq_getElem hltP]
        rw [this] at r1
        exact Option.some.inj r1
      have hrmem : r ∈ n.recs := List.mem_of_getElem? r1
      obtain ⟨a, ka, -⟩ := NodeOk.leaf hp.1 |>.keyed r hrmem
      obtain ⟨v, va⟩ := NodeOk.leaf hp.1 |>.vals r hrmem
      refine ⟨{ it with node := some p, pos := pos' }, p, n, q :: B, (a, v), rfl,
        ⟨rfl, ok.heap, ok.page, ok.rest, ok.endp⟩, rfl, ?_, le_refl _, ?_⟩
      · unfold getRecord
        dsimp only
        rw [M.bind_ok (M.load_ok ok.heap), r1]
        obtain ⟨rk, rp, rd⟩ := r
        simp only at ka va r2
        subst ka va
        rfl
      · rw [hpend]
        unfold pending
        rw [below_append, e2, below_drop e3 e4, List.drop_eq_getElem_cons hltP, pairs_cons, hrP]
        have : r.pair = some (a, v) := by simp [Rec.pair, r2, ka, va]
        rw [this]; rfl
    · rw [if_neg hlt]
      have hnil : P.drop pos' = [] := List.drop_eq_nil_of_le (by rw [e7.2]; omega)
      rw [hnil] at hpend
      simp only [pairs_nil, List.nil_append] at hpend
      cases hend : it.isEnd
      · -- go on to the next leaf
        have hnext : n.next = some q := by
          have := hp.2 (by simp [Node.hasNext, NodeOk.kind hp.1])
          simpa using this
        rw [if_neg (by simp), hnext]
        dsimp only
        obtain ⟨qn, q1, q2, q3⟩ := ok.rest
        obtain ⟨isEnd', P', Q', d1, -⟩ := searchEnd_ok (s := s) (by simpa using q2) q3 it.endKey
        rw [M.bind_ok (M.load_ok q1), M.bind_ok (M.lift_of _ d1)]
        dsimp only
        have hpend' : pending s it n (q :: B) = pending s
            { it with node := some q, pos := 0, isEnd := isEnd', endPos := P'.length } qn B := by
          rw [hpend]
          unfold pending
          simp [pairsOf_eq q1]
        rw [hpend']
        rcases ih { it with node := some q, pos := 0, isEnd := isEnd', endPos := P'.length } q qn
          ⟨rfl, q1, ⟨_, by simpa using q2⟩, q3, d1⟩ f (by simp at hf; omega) with h | h
        · exact Or.inl h
        · obtain ⟨it', p', n', B', x, y1, y2, y3, y4, y5, y6⟩ := h
          exact Or.inr ⟨it', p', n', B', x, y1, y2, y3, y4, by simp; omega, y6⟩
      · left
        rw [if_pos rfl]
        refine ⟨_, rfl, ?_⟩
        rw [hpend, below_none (e5 (by rw [e7.1]; exact hend))]

theorem collect_ok : ∀ (l : List (K × V)) (it : Iter K) (p : Ptr) (n : Node K V) (B : List Ptr),
    ItOk cfg s it p n B → pending s it n B = l → ∀ fuel, B.length + l.length + 1 ≤ fuel →
    collect fuel it s = .ok (l, s) := by
  intro l
  induction l with
  | nil =>
    intro it p n B ok hl fuel hf
    obtain ⟨f, rfl⟩ : ∃ f, fuel = f + 1 := ⟨fuel - 1, by omega⟩
    rcases hasRecord_ok B it p n ok (f + 1) (by omega) with ⟨it', h1, -⟩ | ⟨_, _, _, _, _, _, _, _, _, _, h6⟩
    · unfold collect
      rw [M.bind_ok h1]
      rfl
    · rw [hl] at h6; cases h6
  | cons x l ih =>
    intro it p n B ok hl fuel hf
    obtain ⟨f, rfl⟩ : ∃ f, fuel = f + 1 := ⟨fuel - 1, by omega⟩
    rcases hasRecord_ok B it p n ok (f + 1) (by omega) with ⟨it', h1, h2⟩ | ⟨it', p', n', B', x', h1, h2, h3, h4, h5, h6⟩
    · rw [hl] at h2; cases h2
    · rw [hl] at h6
      simp only [List.cons.injEq] at h6
      obtain ⟨rfl, h6⟩ := h6
      have := ih { it' with pos := it'.pos + 1 } p' n' B' ⟨h2.node, h2.heap, h2.page, h2.rest, h2.endp⟩ h6.symm
        f (by simp at hf; omega)
      unfold collect
      rw [M.bind_ok h1]
      dsimp only
      rw [if_pos rfl, M.bind_ok h4, M.bind_ok this]
      rfl

theorem mapOf_eq_some {l : List (K × V)} (hs : l.Pairwise (fun x y => x.1 < y.1)) {k : K} {v : V} :
    mapOf l k = some v ↔ (k, v) ∈ l := by
  induction l with
  | nil => simp [mapOf]
  | cons x l ih =>
    obtain ⟨a, b⟩ := x
    rw [List.pairwise_cons] at hs
    have := ih hs.2
    by_cases h : a = k
    · subst h
      simp only [mapOf, List.find?_cons_of_pos, decide_true, Option.map_some, Option.some.injEq, List.mem_cons,
        Prod.mk.injEq, true_and]
      constructor
      · exact fun h => Or.inl h.symm
      · rintro (h | h)
        · exact h.symm
        · exact absurd (hs.1 _ h) (lt_irrefl _)
    · have hne : mapOf ((a, b) :: l) k = mapOf l k := by simp [mapOf, h]
      rw [hne, this]
      simp only [List.mem_cons, Prod.mk.injEq]
      constructor
      · exact Or.inr
      · rintro (h' | h')
        · exact absurd h'.1.symm h
        · exact h'

/-- A suffix of the contents that contains exactly the records above the lower bound. -/
theorem isScan_of {l X Y : List (K × V)} {b e : ScanKey K} (hs : l.Pairwise (fun x y => x.1 < y.1))
    (hl : l = X ++ Y) (hX : ∀ x ∈ X, ¬ Spec.AboveLo b x.1) (hY : ∀ x ∈ Y, Spec.AboveLo b x.1) :
    Spec.IsScan (mapOf l) b e (below e Y) := by
  refine ⟨?_, ?_⟩
  · rw [hl, List.pairwise_append] at hs
    exact hs.2.1.sublist List.filter_sublist
  · intro k v
    rw [mapOf_eq_some hs, hl]
    simp only [below, List.mem_filter, decide_eq_true_eq, List.mem_append]
    constructor
    · rintro ⟨h1, h2⟩
      exact ⟨Or.inr h1, hY _ h1, h2⟩
    · rintro ⟨h1 | h1, h2, h3⟩
      · exact absurd h2 (hX _ h1)
      · exact ⟨h1, h3⟩

/-- First position in the first leaf. -/
theorem scanBegin_ok {n : Node K V} {lo : Bd K} (hok : NodeOk cfg false lo n) (k : K) (cl : Bool) :
    ∃ T D, scanBegin n k cl = .ok T.length ∧ n.recs = T ++ D ∧
      (∀ x ∈ pairs T, ¬ Spec.AboveLo (some (k, cl)) x.1) ∧ (∀ x ∈ pairs D, Spec.AboveLo (some (k, cl)) x.1) := by
  unfold scanBegin
  rcases hok.search_leaf k with ⟨T, D, h1, h2, h3, h4⟩ | ⟨T, r, D, h1, h2, h3, h4, h5⟩
  · refine ⟨T, D, by rw [h2]; simp, h1, ?_, ?_⟩
    · intro x hx
      have := h3.pairs x hx
      cases cl <;> simp [Spec.AboveLo] <;> order
    · intro x hx
      have := h4.pairs x hx
      cases cl <;> simp [Spec.AboveLo] <;> order
  · by_cases hc : r.del = false ∧ cl = false
    · obtain ⟨hd, rfl⟩ := hc
      refine ⟨T ++ [r], D, by rw [h5]; simp [hd], by simp [h1], ?_, ?_⟩
      · intro x hx
        rw [pairs_append, List.mem_append] at hx
        rcases hx with hx | hx
        · have := h3.pairs x hx
          simp [Spec.AboveLo]; order
        · obtain ⟨r', hr', hp'⟩ := mem_pairs.1 hx
          simp at hr'
          subst hr'
          have := (pair_key hp').1
          rw [h2] at this
          cases this
          simp [Spec.AboveLo]
      · intro x hx
        have := h4.pairs x hx
        simp [Spec.AboveLo]; order
    · refine ⟨T, r :: D, ?_, h1, ?_, ?_⟩
      · rw [h5]
        cases hd : r.del <;> simp [hd] at hc ⊢
        simp [hc]
      · intro x hx
        have := h3.pairs x hx
        cases cl <;> simp [Spec.AboveLo] <;> order
      · intro x hx
        rw [pairs_cons, List.mem_append] at hx
        rcases hx with hx | hx
        · simp only [Option.mem_toList] at hx
          have hk := pair_key hx
          rw [h2] at hk
          obtain ⟨hk, -, hd⟩ := hk
          cases hk
          have : cl = true := by
            cases cl
            · exact absurd ⟨hd, rfl⟩ hc
            · rfl
          subst this
          simp [Spec.AboveLo]
        · have := h4.pairs x hx
          cases cl <;> simp [Spec.AboveLo] <;> order

/-- Scanning from a leaf that lies at or left of the first record in range. -/
theorem scanFrom_ok (w : WF cfg s H gr) {leaf : Ptr} {n : Node K V} {lo : Bd K} (hat : At cfg s gr 0 leaf n lo)
    {b e : ScanKey K} (hb : match b with
      | none => lo = .bot
      | some (k, _) => lo.leKey k ∧ (hiB n.high).gtKey k)
    {fuel : Nat} (hf : (flat (gr 0)).length + (contents s gr).length + 1 ≤ fuel) :
    ∃ l, scanFrom fuel b e leaf s = .ok (l, s) ∧ Spec.IsScan (mapOf (contents s gr)) b e l := by
  have hat' := hat
  obtain ⟨A, B, h1, h2, h3, h4, h5⟩ := hat'
  obtain ⟨c1, -⟩ := w.leaf_contents h1 h2
  obtain ⟨isEnd, P, Q, e1, -⟩ := searchEnd_ok h4 h5 e
  have key : ∀ T D : List (Rec K V), n.recs = T ++ D →
      (∀ x ∈ pairs T, ¬ Spec.AboveLo b x.1) → (∀ x ∈ pairs D, Spec.AboveLo b x.1) →
      (∀ x ∈ A.flatMap (pairsOf s.heap), ¬ Spec.AboveLo b x.1) →
      (∀ x ∈ B.flatMap (pairsOf s.heap), Spec.AboveLo b x.1) →
      ∃ l, collect fuel ⟨some leaf, T.length, P.length, e, isEnd⟩ s = .ok (l, s) ∧
        Spec.IsScan (mapOf (contents s gr)) b e l := by
    intro T D r1 r2 r3 r4 r5
    refine ⟨_, collect_ok _ _ leaf n B ⟨rfl, h2, ⟨lo, h4⟩, h5, e1⟩ rfl fuel ?_, ?_⟩
    · have hlen : (below e (pairs (n.recs.drop T.length) ++ B.flatMap (pairsOf s.heap))).length
          ≤ (contents s gr).length := by
        refine le_trans (List.length_filter_le _ _) ?_
        rw [c1, r1]
        simp
        omega
      have : B.length ≤ (flat (gr 0)).length := by rw [h1]; simp; omega
      unfold pending
      dsimp only
      omega
    · have hpd : pending s ⟨some leaf, T.length, P.length, e, isEnd⟩ n B
          = below e (pairs D ++ B.flatMap (pairsOf s.heap)) := by
        unfold pending
        rw [r1]
        simp
      rw [hpd]
      refine isScan_of w.sorted (X := A.flatMap (pairsOf s.heap) ++ pairs T) (by rw [c1, r1]; simp) ?_ ?_
      · intro x hx
        rcases List.mem_append.1 hx with hx | hx
        · exact r4 x hx
        · exact r2 x hx
      · intro x hx
        rcases List.mem_append.1 hx with hx | hx
        · exact r3 x hx
        · exact r5 x hx
  unfold scanFrom
  rw [M.bind_ok (M.load_ok h2)]
  cases b with
  | none =>
    dsimp only at hb ⊢
    subst hb
    have hA : A.flatMap (pairsOf s.heap) = [] := by
      rw [List.eq_nil_iff_forall_not_mem]
      intro x hx
      have := chain_pairs_lt h3 x hx
      exact this
    obtain ⟨l, l1, l2⟩ := key [] n.recs rfl (by simp) (fun _ _ => trivial) (by simp [hA]) (fun _ _ => trivial)
    refine ⟨l, ?_, l2⟩
    rw [M.bind_ok (M.lift_of _ rfl), M.bind_ok (M.lift_of _ e1)]
    exact l1
  | some kc =>
    obtain ⟨k, cl⟩ := kc
    dsimp only at hb ⊢
    obtain ⟨T, D, t1, t2, t3, t4⟩ := scanBegin_ok hat.ok0 k cl
    obtain ⟨l, l1, l2⟩ := key T D t2 t3 t4
      (by
        intro x hx
        have h := Bd.leKey_of_gtKey_lt hb.1 (chain_pairs_lt h3 x hx)
        cases cl <;> simp [Spec.AboveLo] <;> order)
      (by
        intro x hx
        have h := Bd.leKey_of_gtKey_lt (chain_pairs_ge h5 x hx) hb.2
        cases cl <;> simp [Spec.AboveLo] <;> order)
    refine ⟨l, ?_, l2⟩
    rw [M.bind_ok (M.lift_of _ t1), M.bind_ok (M.lift_of _ e1)]
    exact l1

theorem Pml.descendLeft_ok (g : Good cfg s H gr) :
    ∀ (i fuel : Nat), i + 1 ≤ fuel → ∀ (p : Ptr) (n : Node K V), i ≤ H → At cfg s gr i p n .bot →
    ∃ leaf n', Pml.descendLeft fuel p s = .ok (leaf, s) ∧ At cfg s gr 0 leaf n' .bot := by
  intro i
  induction i with
  | zero =>
    intro fuel hf p n _ hat
    obtain ⟨f, rfl⟩ : ∃ f, fuel = f + 1 := ⟨fuel - 1, by omega⟩
    refine ⟨p, n, ?_, hat⟩
    unfold Pml.descendLeft
    rw [M.bind_ok (M.load_ok hat.heap)]
    simp [hat.ok0.kind]
  | succ i ih =>
    intro fuel hf p n hle hat
    obtain ⟨f, rfl⟩ : ∃ f, fuel = f + 1 := ⟨fuel - 1, by omega⟩
    obtain ⟨r, D, hrecs⟩ := List.exists_cons_of_ne_nil hat.okS.inner.ne
    obtain ⟨c, hc⟩ := hat.okS.inner.ptrs r (by simp [hrecs])
    have hch : n.getChild 0 = .ok r.toPtr := by
      obtain ⟨a, b, d⟩ := r
      simp only at hc
      subst hc
      simp [Node.getChild, hrecs, Rec.toPtr]
    obtain ⟨G1, run, G2, lo', f1, f2, f3, f4⟩ := g.wf.follow (by omega) hat (T := []) hrecs
    have : run = [] := g.np i (by omega) (r.toPtr, run) (by rw [f1]; simp)
    subst this
    obtain ⟨cn, lo'', a1, a2⟩ := g.wf.at_of_append (i := i) (by omega) (A := flat G1) (B := flat G2) (p := r.toPtr)
      (by rw [f1]; simp)
    have : lo'' = .bot := by rw [a2.endB_eq, ← f3.endB_eq, f4]; simp
    subst this
    obtain ⟨leaf, n', q1, q2⟩ := ih f (by omega) r.toPtr cn (by omega) a1
    refine ⟨leaf, n', ?_, q2⟩
    unfold Pml.descendLeft
    rw [M.bind_ok (M.load_ok hat.heap)]
    rw [if_pos hat.okS.kind, M.bind_ok (M.lift_of _ hch)]
    exact q1

theorem Pml.scan_ok (g : Good cfg s H gr) (b e : ScanKey K) {fuel : Nat} (hf : H + 1 ≤ fuel)
    (hf' : (flat (gr 0)).length + (contents s gr).length + 1 ≤ fuel) :
    ∃ l, Pml.scan fuel b e s = .ok (l, s) ∧ Spec.IsScan (mapOf (contents s gr)) b e l := by
  obtain ⟨n, hat, hh⟩ := g.wf.root_at g.np
  unfold Pml.scan
  rw [M.bind_ok (a := s.root) (s' := s) rfl]
  cases b with
  | none =>
    obtain ⟨leaf, n', q1, q2⟩ := Pml.descendLeft_ok g H fuel hf s.root n (le_refl _) hat
    dsimp only
    rw [M.bind_ok q1]
    exact scanFrom_ok g.wf q2 (b := none) rfl hf'
  | some kc =>
    obtain ⟨k, cl⟩ := kc
    obtain ⟨leaf, n', lo', q1, q2, q3, q4⟩ := Pml.descendForRead_ok g k H fuel hf s.root n .bot (le_refl _) hat
      trivial (by rw [hh]; trivial)
    dsimp only
    rw [M.bind_ok q1]
    exact scanFrom_ok g.wf q2 (b := some (k, cl)) ⟨q3, q4⟩ hf'

end wf
end BT
