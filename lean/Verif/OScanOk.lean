import Verif.OScan
import Verif.ScanOk

/-!
# The optimistic iterator returns exactly the records in range (single iterator, no concurrent writes)
-/

set_option linter.unusedSectionVars false

namespace BT
variable {K V : Type} [LinearOrder K]

section wf
variable {cfg : Cfg K} {s : St K V} {H : Nat} {gr : Nat → List Grp}

theorem checkKeyRange_ok {k : K} {p : Ptr} {n : Node K V} (hp : s.heap p = some n) (hr : n.removed = false)
    (hh : (hiB n.high).gtKey k) {fuel : Nat} (hf : 1 ≤ fuel) : checkKeyRange k fuel p s = .ok (p, s) := by
  obtain ⟨f, rfl⟩ : ∃ f, fuel = f + 1 := ⟨fuel - 1, by omega⟩
  unfold checkKeyRange
  rw [M.bind_ok (M.load_ok hp), if_pos ⟨hr, compHighKey_iff.2 hh⟩]
  rfl

/-- The iterator stands in leaf `p`, `B` are the leaves right of it, and the key cell holds a key below the
upper bound of `p`. -/
structure OItOk (cfg : Cfg K) (s : St K V) (key : Option K) (it : OIter K V) (p : Ptr) (n : Node K V)
    (B : List Ptr) : Prop where
  node : it.node = some p
  heap : s.heap p = some n
  page : ∃ lo, PageAt cfg 0 lo n B.head?
  rest : Chain (PageAt cfg 0) s.heap (hiB n.high) B .top none
  endp : n.searchEndPositionFor it.endKey = .ok (it.isEnd, it.endPos)
  key : it.hasKey = true → ∃ k, key = some k ∧ (hiB n.high).gtKey k

/-- What is still to come. -/
def opending (s : St K V) (e : ScanKey K) (pos : Nat) (n : Node K V) (B : List Ptr) : List (K × V) :=
  below e (pairs (n.recs.drop pos) ++ B.flatMap (pairsOf s.heap))

/-- Moving to the next leaf. -/
theorem oreset_next {key : Option K} {it : OIter K V} {p : Ptr} {n : Node K V} {q : Ptr} {B : List Ptr}
    (ok : OItOk cfg s key it p n (q :: B)) :
    ∃ qn it', (∀ fuel, 1 ≤ fuel → OIter.reset fuel key { it with node := some q } s = .ok (it', s)) ∧
      OItOk cfg s key it' q qn B ∧ it'.pos = 0 ∧ it'.endKey = it.endKey ∧ s.heap q = some qn := by
  obtain ⟨qn, q1, q2, q3⟩ := ok.rest
  have q2' : PageAt cfg 0 (hiB n.high) qn B.head? := by simpa using q2
  have hok : NodeOk cfg false (hiB n.high) qn := q2'.1
  obtain ⟨isEnd', P', Q', d1, -⟩ := searchEnd_ok (s := s) q2' q3 it.endKey
  by_cases hk : it.hasKey = true
  · obtain ⟨k, rfl, hkk⟩ := ok.key hk
    have hkq : (hiB qn.high).gtKey k := Bd.gtKey_of_lt' hkk (Or.inr hok.lt)
    have hsearch : qn.searchRecord k = .ok (.keyNotInserted, 0) := by
      rcases hok.search_leaf k with ⟨T, D, h1, h2, h3, h4⟩ | ⟨T, r, D, h1, h2, h3, h4, h5⟩
      · cases T with
        | nil => simpa using h2
        | cons t T =>
          exfalso
          obtain ⟨a, ha, hb⟩ := hok.leaf.keyed t (by rw [h1]; simp)
          have hlt := h3 t (by simp) a ha
          have := Bd.leKey_of_gtKey_lt hb.1 hkk
          order
      · exfalso
        obtain ⟨a, ha, hb⟩ := hok.leaf.keyed r (by rw [h1]; simp)
        rw [h2] at ha
        cases ha
        exact Bd.not_gt_le hkk hb.1
    refine ⟨qn, { it with node := some q, pos := 0, isEnd := isEnd', endPos := P'.length }, ?_,
      ⟨rfl, q1, ⟨_, q2'⟩, q3, d1, fun _ => ⟨k, rfl, hkq⟩⟩, rfl, rfl, q1⟩
    intro fuel hf
    unfold OIter.reset
    dsimp only
    rw [if_pos hk, M.bind_ok (checkKeyRange_ok q1 hok.notRemoved hkq hf), M.bind_ok (M.load_ok q1),
      M.bind_ok (M.lift_of _ hsearch)]
    dsimp only
    rw [M.bind_ok (M.lift_of _ d1)]
    simp
  · refine ⟨qn, { it with node := some q, pos := 0, isEnd := isEnd', endPos := P'.length }, ?_,
      ⟨rfl, q1, ⟨_, q2'⟩, q3, d1, fun h => absurd h hk⟩, rfl, rfl, q1⟩
    intro fuel hf
    unfold OIter.reset
    dsimp only
    rw [if_neg hk, M.bind_ok (M.load_ok q1), M.bind_ok (M.lift_of _ d1)]
    rfl

theorem ohasRecord_ok : ∀ (B : List Ptr) (m : Nat) (it : OIter K V) (key : Option K) (p : Ptr) (n : Node K V),
    m = it.endPos - it.pos → OItOk cfg s key it p n B → ∃ N : Nat,
    (∃ it' key', (∀ fuel, N ≤ fuel → OIter.hasRecord fuel key it s = .ok ((false, it', key'), s)) ∧
      opending s it.endKey it.pos n B = []) ∨
    (∃ it' key' p' n' B' x, (∀ fuel, N ≤ fuel → OIter.hasRecord fuel key it s = .ok ((true, it', key'), s)) ∧
      OItOk cfg s key' it' p' n' B' ∧ it'.endKey = it.endKey ∧ OIter.get key' it' s = .ok (x, s) ∧
      opending s it.endKey it.pos n B = x :: opending s it.endKey (it'.pos + 1) n' B') := by
  intro B
  induction B with
  | nil =>
    intro m
    induction m with
    | zero =>
      intro it key p n hm ok
      refine ⟨1, Or.inl ⟨{ it with node := none }, key, ?_, ?_⟩⟩
      · intro fuel hf
        obtain ⟨f, rfl⟩ : ∃ f, fuel = f + 1 := ⟨fuel - 1, by omega⟩
        obtain ⟨lo, hp⟩ := ok.page
        obtain ⟨isEnd, P, Q, e1, e2, e3, e4, e5, e6⟩ := searchEnd_ok hp ok.rest it.endKey
        have e7 := ok.endp
        rw [e1] at e7
        simp only [Res.ok.injEq, Prod.mk.injEq] at e7
        have hend : it.isEnd = true := by
          rw [← e7.1]
          cases isEnd
          · exact absurd rfl (e6 rfl).1
          · rfl
        unfold OIter.hasRecord
        rw [ok.node]
        dsimp only
        rw [M.bind_ok (M.load_ok ok.heap), if_neg (by omega), if_pos hend]
        rfl
      · obtain ⟨lo, hp⟩ := ok.page
        obtain ⟨isEnd, P, Q, e1, e2, e3, e4, e5, e6⟩ := searchEnd_ok hp ok.rest it.endKey
        have e7 := ok.endp
        rw [e1] at e7
        simp only [Res.ok.injEq, Prod.mk.injEq] at e7
        unfold opending
        rw [below_append, e2, below_drop e3 e4, List.drop_eq_nil_of_le (by omega)]
        simp [below]
    | succ m ih =>
      intro it key p n hm ok
      exact ohasRecord_step it key p n [] m hm ok ih
  | cons q B ihB =>
    intro m
    induction m with
    | zero =>
      intro it key p n hm ok
      obtain ⟨lo, hp⟩ := ok.page
      obtain ⟨isEnd, P, Q, e1, e2, e3, e4, e5, e6⟩ := searchEnd_ok hp ok.rest it.endKey
      have e7 := ok.endp
      rw [e1] at e7
      simp only [Res.ok.injEq, Prod.mk.injEq] at e7
      have hnil : opending s it.endKey it.pos n (q :: B) = below it.endKey ((q :: B).flatMap (pairsOf s.heap)) := by
        unfold opending
        rw [below_append, e2, below_drop e3 e4, List.drop_eq_nil_of_le (by omega)]
        rfl
      cases hend : it.isEnd
      · have hnext : n.next = some q := by
          have := hp.2 (by simp [Node.hasNext, NodeOk.kind hp.1])
          simpa using this
        obtain ⟨qn, it1, r1, r2, r3, r4, r5⟩ := oreset_next ok
        have hpd : opending s it.endKey it.pos n (q :: B) = opending s it1.endKey it1.pos qn B := by
          rw [hnil, r3, r4]
          simp [opending, pairsOf_eq r5]
        obtain ⟨N, h⟩ := ihB _ it1 key q qn rfl r2
        refine ⟨N + 2, ?_⟩
        have hstep : ∀ fuel, N + 2 ≤ fuel → ∃ f, N ≤ f ∧
            OIter.hasRecord fuel key it s = OIter.hasRecord f key it1 s := by
          intro fuel hf
          obtain ⟨f, rfl⟩ : ∃ f, fuel = f + 1 := ⟨fuel - 1, by omega⟩
          refine ⟨f, by omega, ?_⟩
          conv => lhs; unfold OIter.hasRecord
          rw [ok.node]
          dsimp only
          rw [M.bind_ok (M.load_ok ok.heap), if_neg (by omega), if_neg (by simp [hend]), hnext]
          dsimp only
          rw [M.bind_ok (r1 f (by omega))]
        rcases h with ⟨it', key', h1, h2⟩ | ⟨it', key', p', n', B', x, h1, h2, h3, h4, h5⟩
        · refine Or.inl ⟨it', key', ?_, by rw [hpd, h2]⟩
          intro fuel hf
          obtain ⟨f, hf', he⟩ := hstep fuel hf
          rw [he, h1 f hf']
        · refine Or.inr ⟨it', key', p', n', B', x, ?_, h2, by rw [h3, r4], h4, by rw [hpd, h5, r4]⟩
          intro fuel hf
          obtain ⟨f, hf', he⟩ := hstep fuel hf
          rw [he, h1 f hf']
      · refine ⟨1, Or.inl ⟨{ it with node := none }, key, ?_, ?_⟩⟩
        · intro fuel hf
          obtain ⟨f, rfl⟩ : ∃ f, fuel = f + 1 := ⟨fuel - 1, by omega⟩
          unfold OIter.hasRecord
          rw [ok.node]
          dsimp only
          rw [M.bind_ok (M.load_ok ok.heap), if_neg (by omega), if_pos hend]
          rfl
        · rw [hnil, below_none (e5 (by rw [e7.1]; exact hend))]
    | succ m ih =>
      intro it key p n hm ok
      exact ohasRecord_step it key p n (q :: B) m hm ok ih
where
  ohasRecord_step (it : OIter K V) (key : Option K) (p : Ptr) (n : Node K V) (B : List Ptr) (m : Nat)
      (hm : m + 1 = it.endPos - it.pos) (ok : OItOk cfg s key it p n B)
      (ih : ∀ (it : OIter K V) (key : Option K) (p : Ptr) (n : Node K V),
        m = it.endPos - it.pos → OItOk cfg s key it p n B → ∃ N : Nat,
        (∃ it' key', (∀ fuel, N ≤ fuel → OIter.hasRecord fuel key it s = .ok ((false, it', key'), s)) ∧
          opending s it.endKey it.pos n B = []) ∨
        (∃ it' key' p' n' B' x, (∀ fuel, N ≤ fuel → OIter.hasRecord fuel key it s = .ok ((true, it', key'), s)) ∧
          OItOk cfg s key' it' p' n' B' ∧ it'.endKey = it.endKey ∧ OIter.get key' it' s = .ok (x, s) ∧
          opending s it.endKey it.pos n B = x :: opending s it.endKey (it'.pos + 1) n' B')) :
      ∃ N : Nat,
        (∃ it' key', (∀ fuel, N ≤ fuel → OIter.hasRecord fuel key it s = .ok ((false, it', key'), s)) ∧
          opending s it.endKey it.pos n B = []) ∨
        (∃ it' key' p' n' B' x, (∀ fuel, N ≤ fuel → OIter.hasRecord fuel key it s = .ok ((true, it', key'), s)) ∧
          OItOk cfg s key' it' p' n' B' ∧ it'.endKey = it.endKey ∧ OIter.get key' it' s = .ok (x, s) ∧
          opending s it.endKey it.pos n B = x :: opending s it.endKey (it'.pos + 1) n' B') := by
    obtain ⟨lo, hp⟩ := ok.page
    obtain ⟨isEnd, P, Q, e1, e2, e3, e4, e5, e6⟩ := searchEnd_ok hp ok.rest it.endKey
    have e7 := ok.endp
    rw [e1] at e7
    simp only [Res.ok.injEq, Prod.mk.injEq] at e7
    have hltP : it.pos < P.length := by omega
    have hlen : it.pos < n.recs.length := by rw [e2]; simp; omega
    obtain ⟨r, hr⟩ : ∃ r, r = n.recs[it.pos] := ⟨_, rfl⟩
    have hrP : P[it.pos] = r := by
      rw [hr]
      simp only [e2]
      rw [List.getElem_append_left]
    have hr? : n.recs[it.pos]? = some r := by rw [hr, List.getElem?_eq_getElem hlen]
    have hok : NodeOk cfg false lo n := hp.1
    have hrmem : r ∈ n.recs := by rw [hr]; exact List.getElem_mem _
    obtain ⟨a, ka, kb⟩ := hok.leaf.keyed r hrmem
    obtain ⟨v, va⟩ := hok.leaf.vals r hrmem
    have hdrop : n.recs.drop it.pos = r :: n.recs.drop (it.pos + 1) := by
      rw [List.drop_eq_getElem_cons hlen, hr]
    have hbe : r.del = false → Spec.BelowHi it.endKey a := by
      intro hd
      have : (a, v) ∈ pairs P := mem_pairs.2 ⟨r, by rw [← hrP]; exact List.getElem_mem _, by simp [Rec.pair, hd, ka, va]⟩
      exact e3 _ this
    cases hd : r.del
    · refine ⟨1, Or.inr ⟨{ it with payload := some v, hasKey := true, closed := false }, some a, p, n, B, (a, v), ?_,
        ⟨ok.node, ok.heap, ok.page, ok.rest, ok.endp, fun _ => ⟨a, rfl, kb.2⟩⟩, rfl, rfl, ?_⟩⟩
      · intro fuel hf
        obtain ⟨f, rfl⟩ : ∃ f, fuel = f + 1 := ⟨fuel - 1, by omega⟩
        unfold OIter.hasRecord
        rw [ok.node]
        dsimp only
        rw [M.bind_ok (M.load_ok ok.heap), if_pos (by omega), hr?]
        dsimp only
        rw [ka]
        dsimp only
        rw [hd, va]
        simp
      · unfold opending
        rw [hdrop, pairs_cons]
        have : r.pair = some (a, v) := by simp [Rec.pair, hd, ka, va]
        rw [this]
        have hb := hbe hd
        simp [below, hb]
    · obtain ⟨N, h⟩ := ih { it with pos := it.pos + 1, hasKey := true, closed := false } (some a) p n
        (by dsimp only; omega) ⟨ok.node, ok.heap, ok.page, ok.rest, ok.endp, fun _ => ⟨a, rfl, kb.2⟩⟩
      have hpd : opending s it.endKey it.pos n B = opending s it.endKey (it.pos + 1) n B := by
        unfold opending
        rw [hdrop, pairs_cons]
        simp [Rec.pair, hd]
      have hstep : ∀ fuel, N + 1 ≤ fuel → ∃ f, N ≤ f ∧ OIter.hasRecord fuel key it s =
          OIter.hasRecord f (some a) { it with pos := it.pos + 1, hasKey := true, closed := false } s := by
        intro fuel hf
        obtain ⟨f, rfl⟩ : ∃ f, fuel = f + 1 := ⟨fuel - 1, by omega⟩
        refine ⟨f, by omega, ?_⟩
        conv => lhs; unfold OIter.hasRecord
        rw [ok.node]
        dsimp only
        rw [M.bind_ok (M.load_ok ok.heap), if_pos (by omega), hr?]
        dsimp only
        rw [ka]
        dsimp only
        rw [hd, if_pos rfl]
      refine ⟨N + 1, ?_⟩
      rw [hpd]
      rcases h with ⟨it', key', h1, h2⟩ | ⟨it', key', p', n', B', x, h1, h2, h3, h4, h5⟩
      · refine Or.inl ⟨it', key', ?_, h2⟩
        intro fuel hf
        obtain ⟨f, hf', he⟩ := hstep fuel hf
        rw [he, h1 f hf']
      · refine Or.inr ⟨it', key', p', n', B', x, ?_, h2, h3, h4, h5⟩
        intro fuel hf
        obtain ⟨f, hf', he⟩ := hstep fuel hf
        rw [he, h1 f hf']

theorem ocollect_ok : ∀ (l : List (K × V)) (it : OIter K V) (key : Option K) (p : Ptr) (n : Node K V) (B : List Ptr),
    OItOk cfg s key it p n B → opending s it.endKey it.pos n B = l →
    ∃ N : Nat, ∀ fuel, N ≤ fuel → OIter.collect fuel key it s = .ok (l, s) := by
  intro l
  induction l with
  | nil =>
    intro it key p n B ok hl
    obtain ⟨N, h⟩ := ohasRecord_ok B _ it key p n rfl ok
    rcases h with ⟨it', key', h1, -⟩ | ⟨_, _, _, _, _, _, _, _, _, _, h6⟩
    · refine ⟨N + 1, fun fuel hf => ?_⟩
      obtain ⟨f, rfl⟩ : ∃ f, fuel = f + 1 := ⟨fuel - 1, by omega⟩
      unfold OIter.collect
      rw [M.bind_ok (h1 (f + 1) (by omega))]
      rfl
    · rw [hl] at h6; cases h6
  | cons x l ih =>
    intro it key p n B ok hl
    obtain ⟨N, h⟩ := ohasRecord_ok B _ it key p n rfl ok
    rcases h with ⟨it', key', h1, h2⟩ | ⟨it', key', p', n', B', x', h1, h2, h3, h4, h6⟩
    · rw [hl] at h2; cases h2
    · rw [hl] at h6
      simp only [List.cons.injEq] at h6
      obtain ⟨rfl, h6⟩ := h6
      obtain ⟨N', h7⟩ := ih { it' with pos := it'.pos + 1 } key' p' n' B'
        ⟨h2.node, h2.heap, h2.page, h2.rest, h2.endp, h2.key⟩ (by dsimp only; rw [h3, h6])
      refine ⟨max N N' + 1, fun fuel hf => ?_⟩
      obtain ⟨f, rfl⟩ : ∃ f, fuel = f + 1 := ⟨fuel - 1, by omega⟩
      unfold OIter.collect
      rw [M.bind_ok (h1 (f + 1) (by omega))]
      dsimp only
      rw [if_pos rfl, M.bind_ok h4, M.bind_ok (h7 f (by omega))]
      rfl

/-- Scanning with the optimistic iterator from a leaf that lies at or left of the first record in range. -/
theorem oscanFrom_ok (w : WF cfg s H gr) {leaf : Ptr} {n : Node K V} {lo : Bd K} (hat : At cfg s gr 0 leaf n lo)
    (key : Option K) {b e : ScanKey K} (hb : match b with
      | none => lo = .bot
      | some (k, _) => lo.leKey k ∧ (hiB n.high).gtKey k) :
    ∃ l, (∃ N : Nat, ∀ fuel, N ≤ fuel → oscanFrom fuel key b e leaf s = .ok (l, s)) ∧
      Spec.IsScan (mapOf (contents s gr)) b e l := by
  have hat' := hat
  obtain ⟨A, B, h1, h2, h3, h4, h5⟩ := hat'
  obtain ⟨c1, -⟩ := w.leaf_contents h1 h2
  obtain ⟨isEnd, P, Q, e1, -⟩ := searchEnd_ok h4 h5 e
  have hok := hat.ok0
  have key' : ∀ T D : List (Rec K V), n.recs = T ++ D →
      (∀ x ∈ pairs T, ¬ Spec.AboveLo b x.1) → (∀ x ∈ pairs D, Spec.AboveLo b x.1) →
      (∀ x ∈ A.flatMap (pairsOf s.heap), ¬ Spec.AboveLo b x.1) →
      (∀ x ∈ B.flatMap (pairsOf s.heap), Spec.AboveLo b x.1) →
      Spec.IsScan (mapOf (contents s gr)) b e (opending s e T.length n B) := by
    intro T D r1 r2 r3 r4 r5
    have hpd : opending s e T.length n B = below e (pairs D ++ B.flatMap (pairsOf s.heap)) := by
      unfold opending
      rw [r1]
      simp
    rw [hpd]
    refine isScan_of w.sorted (X := A.flatMap (pairsOf s.heap) ++ pairs T) (by rw [c1, r1]; simp) ?_ ?_
    · intro x hx
      rcases List.mem_append.1 hx with hx | hx
      · exact r4 x hx
      · exact r2 x hx
    · intro x hx
      rcases List.mem_append.1 hx with hx | hx
      · exact r3 x hx
      · exact r5 x hx
  cases b with
  | none =>
    dsimp only at hb
    subst hb
    have hA : A.flatMap (pairsOf s.heap) = [] := by
      rw [List.eq_nil_iff_forall_not_mem]
      intro x hx
      exact chain_pairs_lt h3 x hx
    have hsc := key' [] n.recs rfl (by simp) (fun _ _ => trivial) (by simp [hA]) (fun _ _ => trivial)
    obtain ⟨N, hN⟩ := ocollect_ok _ (⟨some leaf, 0, P.length, e, isEnd, false, false, none⟩ : OIter K V) key leaf n B
      ⟨rfl, h2, ⟨_, h4⟩, h5, e1, by simp⟩ rfl
    refine ⟨_, ⟨N, fun fuel hf => ?_⟩, hsc⟩
    unfold oscanFrom OIter.make
    dsimp only
    have : OIter.reset fuel key (⟨some leaf, 0, 0, e, false, (none : ScanKey K).isSome, false, none⟩ : OIter K V) s
        = .ok (⟨some leaf, 0, P.length, e, isEnd, false, false, none⟩, s) := by
      unfold OIter.reset
      dsimp only
      rw [if_neg (by simp), M.bind_ok (M.load_ok h2), M.bind_ok (M.lift_of _ e1)]
      rfl
    rw [M.bind_ok (a := (⟨some leaf, 0, P.length, e, isEnd, false, false, none⟩, key)) (s' := s)
      (by rw [M.bind_ok this]; rfl)]
    exact hN fuel hf
  | some kc =>
    obtain ⟨k, cl⟩ := kc
    dsimp only at hb
    obtain ⟨T, D, t1, t2, t3, t4⟩ := scanBegin_ok hok k cl
    have hsc := key' T D t2 t3 t4
      (by
        intro x hx
        have h := Bd.leKey_of_gtKey_lt hb.1 (chain_pairs_lt h3 x hx)
        cases cl <;> simp [Spec.AboveLo] <;> order)
      (by
        intro x hx
        have h := Bd.leKey_of_gtKey_lt (chain_pairs_ge h5 x hx) hb.2
        cases cl <;> simp [Spec.AboveLo] <;> order)
    obtain ⟨N, hN⟩ := ocollect_ok _ (⟨some leaf, T.length, P.length, e, isEnd, true, cl, none⟩ : OIter K V) (some k)
      leaf n B ⟨rfl, h2, ⟨lo, h4⟩, h5, e1, fun _ => ⟨k, rfl, hb.2⟩⟩ rfl
    refine ⟨_, ⟨N + 1, fun fuel hf => ?_⟩, hsc⟩
    have : OIter.reset fuel (some k) (⟨some leaf, 0, 0, e, false, (some (k, cl) : ScanKey K).isSome, cl, none⟩ : OIter K V) s
        = .ok (⟨some leaf, T.length, P.length, e, isEnd, true, cl, none⟩, s) := by
      unfold OIter.reset
      dsimp only
      unfold scanBegin at t1
      rw [if_pos (by simp), M.bind_ok (checkKeyRange_ok h2 hok.notRemoved hb.2 (by omega)), M.bind_ok (M.load_ok h2)]
      cases hsr : n.searchRecord k with
      | ok x =>
        obtain ⟨rc, pos⟩ := x
        rw [hsr] at t1
        simp only [Res.ok_bind, Res.pure_eq, Res.ok.injEq] at t1
        rw [M.bind_ok (M.lift_of _ rfl)]
        dsimp only
        rw [M.bind_ok (M.lift_of _ e1)]
        simp [t1]
      | ub => rw [hsr] at t1; cases t1
      | fuel => rw [hsr] at t1; cases t1
    unfold oscanFrom OIter.make
    dsimp only
    rw [M.bind_ok (a := (⟨some leaf, T.length, P.length, e, isEnd, true, cl, none⟩, some k)) (s' := s)
      (by rw [M.bind_ok this]; rfl)]
    exact hN fuel (by omega)

end wf
end BT
