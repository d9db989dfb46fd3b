import Verif.PmlOk
import Verif.Blink
import Verif.Osl

/-!
# Node operations of the B-link trees
-/

set_option linter.unusedSectionVars false

namespace BT
variable {K V : Type} [LinearOrder K]
variable {cfg : Cfg K} {L : Nat} {b : Bool} {lo : Bd K} {n : Node K V} {k : K} {v : V}

theorem cleanUpIfNeeded_ok (hr : Roomy cfg L) (h : NodeOk cfg b lo n) {len : Nat} (hlen : len ≤ L + cfg.maxPayLen) :
    ∃ n', Blink.cleanUpIfNeeded cfg n len = .ok n' ∧ NodeOk cfg b lo n' ∧ SamePage n n' ∧
      (Blink.needSplit cfg n' len = true → Big cfg n') ∧
      (Blink.needSplit cfg n' len = false → n'.fitsOne cfg len = true) := by
  have hL := hr.le
  have hmr : cfg.maxRecLen = cfg.maxKeyLen + cfg.maxPayLen + cfg.mlen := rfl
  have hrc : ∀ n : Node K V, n.rc = n.recs.length := fun _ => rfl
  cases hlay : cfg.layout
  · refine ⟨n, by simp only [Blink.cleanUpIfNeeded, hlay], h, SamePage.refl n, ?_, ?_⟩
    · intro hn
      rw [big_fix hlay]
      simp only [Blink.needSplit, hlay, decide_eq_true_eq, usedSize_fix hlay] at hn
      omega
    · intro hn
      rw [fitsOne_fix hlay]
      simp only [Blink.needSplit, hlay, decide_eq_false_iff_not, usedSize_fix hlay] at hn
      omega
  · have hm : cfg.mlen = cfg.metaLen := by simp [Cfg.mlen, hlay]
    have hns : ∀ n' : Node K V, Blink.needSplit cfg n' len
        = decide (cfg.metaLen * (n'.recs.length + 1) + n'.block + len > cfg.cap) := by
      intro n'; simp only [Blink.needSplit, hlay, hrc]
    have hfit : ∀ n' : Node K V, Blink.needSplit cfg n' len = false → n'.fitsOne cfg len = true := by
      intro n' hn
      rw [hns, decide_eq_false_iff_not] at hn
      rw [fitsOne_var hlay]
      omega
    simp only [Blink.cleanUpIfNeeded, hlay, hrc]
    by_cases h1 : cfg.metaLen * (n.recs.length + 1) + n.block + len ≤ cfg.cap
    · rw [if_pos (Or.inl h1)]
      refine ⟨n, rfl, h, SamePage.refl n, ?_, hfit n⟩
      intro hn
      rw [hns, decide_eq_true_eq] at hn
      omega
    · by_cases h2 : cfg.metaLen * (n.recs.length + 1) + n.block + len - n.dead > cfg.maxUsed
      · rw [if_pos (Or.inr h2)]
        refine ⟨n, rfl, h, SamePage.refl n, ?_, hfit n⟩
        intro _
        rw [big_var hlay]
        rw [Nat.mul_succ] at h2
        omega
      · rw [if_neg (by omega)]
        obtain ⟨n', e1, e2, e3, e4, e5, e6⟩ := cleanUp_ok hr hlay h
        refine ⟨n', e1, e2, e3, ?_, hfit n'⟩
        intro hn
        rw [hns, decide_eq_true_eq] at hn
        have : cfg.maxUsed ≤ cfg.cap := by simp only [Cfg.maxUsed, Cfg.cap]; omega
        rw [Nat.mul_succ] at hn h2
        omega

theorem cleanUpIfNeeded_room (hr : Roomy cfg L) (h : Room cfg L n) {len : Nat} (hlen : len ≤ L + cfg.maxPayLen) :
    Blink.cleanUpIfNeeded cfg n len = .ok n ∧ Blink.needSplit cfg n len = false := by
  have hL := hr.le
  have hrc : n.rc = n.recs.length := rfl
  cases hlay : cfg.layout
  · rw [room_fix hlay] at h
    simp only [Blink.cleanUpIfNeeded, Blink.needSplit, hlay, usedSize_fix hlay, decide_eq_false_iff_not,
      true_and]
    omega
  · rw [room_var hlay] at h
    simp only [Blink.cleanUpIfNeeded, Blink.needSplit, hlay, hrc, decide_eq_false_iff_not, Nat.mul_succ]
    rw [if_pos (by omega)]
    exact ⟨rfl, by omega⟩

theorem leafLen_le (hr : Roomy cfg L) (k : K) : cfg.klen k + cfg.payLen ≤ L + cfg.maxPayLen := by
  have := hr.key k
  have := plen_le cfg false
  simp only [Cfg.plen] at this
  simp at this
  omega

theorem childLen_le (hr : Roomy cfg L) (k : K) : cfg.klen k + cfg.ptrLen ≤ L + cfg.maxPayLen := by
  have := hr.key k
  have := plen_le cfg true
  simp only [Cfg.plen] at this
  simp at this
  omega

theorem blinkNeedMerge_ok (hr : Roomy cfg L) (h : NodeOk cfg b lo n) :
    ∃ need n', Blink.needMerge cfg n = .ok (need, n') ∧ NodeOk cfg b lo n' ∧ SamePage n n' := by
  cases hlay : cfg.layout
  · exact ⟨_, n, by simp only [Blink.needMerge, Pml.needMerge, hlay]; rfl, h, SamePage.refl n⟩
  · simp only [Blink.needMerge, Pml.needMerge, hlay]
    by_cases h1 : n.usedSize cfg < cfg.minUsed
    · rw [if_pos h1]; exact ⟨_, n, rfl, h, SamePage.refl n⟩
    · rw [if_neg h1]
      by_cases h2 : n.dead ≤ cfg.maxDeleted
      · rw [if_pos h2]; exact ⟨_, n, rfl, h, SamePage.refl n⟩
      · rw [if_neg h2]
        obtain ⟨n', e1, e2, e3, e4, e5, e6⟩ := cleanUp_ok hr hlay h
        exact ⟨false, n', by rw [e1]; rfl, e2, e3⟩

theorem absent_of_search (h : NodeOk cfg b lo n) (hb : b = false) {pos : Nat}
    (hs : n.searchRecord k = .ok (.keyNotInserted, pos)) :
    ∃ A B, Around k (pairs n.recs) A none B := by
  subst hb
  rcases h.search_leaf k with ⟨T, D, hrecs, hs', h1, h2⟩ | ⟨T, r, D, hrecs, hk, h1, h2, hs'⟩
  · exact ⟨pairs T, pairs D, by rw [hrecs]; simp, h1.pairs, h2.pairs⟩
  · rw [hs'] at hs
    cases hd : r.del <;> simp [hd] at hs

theorem Blink.leafWrite_ok (hr : Roomy cfg L) (h : NodeOk cfg false lo n)
    (hlo : lo.leKey k) (hhi : (hiB n.high).gtKey k) (v : V) :
    ∃ rc n', Blink.leafWrite cfg n k v = .ok (rc, n') ∧ NodeOk cfg false lo n' ∧
      ((rc = .needSplit ∧ SamePage n n' ∧ Big cfg n' ∧ ∃ A B, Around k (pairs n.recs) A none B) ∨
       (rc = .completed ∧ SameFrame n n' ∧ ∃ A C B, Around k (pairs n.recs) A C B ∧
          Around k (pairs n'.recs) A (some v) B)) := by
  obtain ⟨n1, c1, c2, c3, c4, c5⟩ := cleanUpIfNeeded_ok hr h (leafLen_le hr k)
  by_cases hsp : ∃ pos, n1.searchRecord k = .ok (.keyNotInserted, pos) ∧
      Blink.needSplit cfg n1 (cfg.klen k + cfg.payLen) = true
  · obtain ⟨pos, s1, s2⟩ := hsp
    refine ⟨.needSplit, n1, ?_, c2, Or.inl ⟨rfl, c3, c4 s2, ?_⟩⟩
    · simp [Blink.leafWrite, c1, s1, s2]
    · rw [← c3.pairs]
      exact absent_of_search c2 rfl s1
  · have hroom : ∀ pos, n1.searchRecord k = .ok (.keyNotInserted, pos) →
        Blink.needSplit cfg n1 (cfg.klen k + cfg.payLen) = false := by
      intro pos hp
      cases hh : Blink.needSplit cfg n1 (cfg.klen k + cfg.payLen)
      · rfl
      · exact (hsp ⟨pos, hp, hh⟩).elim
    obtain ⟨n', A, C, B, e1, e2, e3, e4, e5⟩ := leafWrite_ok' c2 (fun pos hp => c5 (hroom pos hp)) hlo
      (by rw [c3.frame.high]; exact hhi) v
    refine ⟨.completed, n', ?_, e2, Or.inr ⟨rfl, c3.frame.trans e3, A, C, B, by rw [← c3.pairs]; exact e4, e5⟩⟩
    simp only [Blink.leafWrite, c1, Res.ok_bind]
    simp only [Node.leafWrite] at e1
    cases hs : n1.searchRecord k with
    | ub => rw [hs] at e1; simp at e1
    | fuel => rw [hs] at e1; simp at e1
    | ok x =>
      obtain ⟨rc, pos⟩ := x
      rw [hs] at e1
      simp only [Res.ok_bind] at e1 ⊢
      by_cases h1 : rc = .keyNotInserted
      · subst h1
        rw [if_pos rfl] at e1 ⊢
        rw [hroom pos hs, e1]
        rfl
      · rw [if_neg h1] at e1 ⊢
        by_cases h2 : rc = .keyAlreadyDeleted ∧ cfg.layout = .var
        · rw [if_pos h2] at e1 ⊢
          rw [e1]; rfl
        · rw [if_neg h2] at e1 ⊢
          rw [e1]; rfl

theorem Blink.leafInsert_ok (hr : Roomy cfg L) (h : NodeOk cfg false lo n)
    (hlo : lo.leKey k) (hhi : (hiB n.high).gtKey k) (v : V) :
    ∃ rc n', Blink.leafInsert cfg n k v = .ok (rc, n') ∧ NodeOk cfg false lo n' ∧
      ((rc = .needSplit ∧ SamePage n n' ∧ Big cfg n' ∧ ∃ A B, Around k (pairs n.recs) A none B) ∨
       (rc = .completed ∧ SameFrame n n' ∧ ∃ A B, Around k (pairs n.recs) A none B ∧
          Around k (pairs n'.recs) A (some v) B) ∨
       (rc = .keyAlreadyInserted ∧ SamePage n n' ∧ ∃ A C B, Around k (pairs n.recs) A C B ∧ C ≠ none)) := by
  obtain ⟨n1, c1, c2, c3, c4, c5⟩ := cleanUpIfNeeded_ok hr h (leafLen_le hr k)
  by_cases hsp : ∃ pos, n1.searchRecord k = .ok (.keyNotInserted, pos) ∧
      Blink.needSplit cfg n1 (cfg.klen k + cfg.payLen) = true
  · obtain ⟨pos, s1, s2⟩ := hsp
    refine ⟨.needSplit, n1, ?_, c2, Or.inl ⟨rfl, c3, c4 s2, ?_⟩⟩
    · simp [Blink.leafInsert, c1, s1, s2]
    · rw [← c3.pairs]
      exact absent_of_search c2 rfl s1
  · have hroom : ∀ pos, n1.searchRecord k = .ok (.keyNotInserted, pos) →
        Blink.needSplit cfg n1 (cfg.klen k + cfg.payLen) = false := by
      intro pos hp
      cases hh : Blink.needSplit cfg n1 (cfg.klen k + cfg.payLen)
      · rfl
      · exact (hsp ⟨pos, hp, hh⟩).elim
    obtain ⟨n', rc', A, C, B, e1, e2, e3, e4, e5⟩ := leafInsert_ok' c2 (fun pos hp => c5 (hroom pos hp)) hlo
      (by rw [c3.frame.high]; exact hhi) v
    have e0 : Blink.leafInsert cfg n k v
        = .ok (if rc' = .success then .completed else .keyAlreadyInserted, n') := by
      simp only [Blink.leafInsert, c1, Res.ok_bind]
      simp only [Node.leafInsert] at e1
      cases hs : n1.searchRecord k with
      | ub => rw [hs] at e1; simp at e1
      | fuel => rw [hs] at e1; simp at e1
      | ok x =>
        obtain ⟨rc, pos⟩ := x
        rw [hs] at e1
        simp only [Res.ok_bind] at e1 ⊢
        by_cases h1 : rc = .keyNotInserted
        · subst h1
          rw [if_pos rfl] at e1 ⊢
          rw [hroom pos hs]
          cases hi : n1.insertRecord cfg k (.val v) pos <;> rw [hi] at e1 <;> simp at e1
          obtain ⟨rfl, rfl⟩ := e1
          rfl
        · rw [if_neg h1] at e1 ⊢
          by_cases h2 : rc = .keyAlreadyDeleted ∧ cfg.layout = .var
          · rw [if_pos h2] at e1 ⊢
            cases hi : n1.reuseRecord cfg pos v <;> rw [hi] at e1 <;> simp at e1
            obtain ⟨rfl, rfl⟩ := e1
            rfl
          · rw [if_neg h2] at e1 ⊢
            simp at e1
            obtain ⟨rfl, rfl⟩ := e1
            rfl
    refine ⟨_, n', e0, e2, Or.inr ?_⟩
    rw [c3.pairs] at e4
    rcases e5 with ⟨rfl, rfl, e5⟩ | ⟨x1, rfl, rfl⟩
    · exact Or.inl ⟨rfl, c3.frame.trans e3, A, B, e4, e5⟩
    · exact Or.inr ⟨rfl, c3, A, C, B, e4, x1⟩

theorem Blink.leafDelete_ok (hr : Roomy cfg L) (h : NodeOk cfg false lo n) (k : K) :
    ∃ rc n', Blink.leafDelete cfg n k = .ok (rc, n') ∧ NodeOk cfg false lo n' ∧ SameFrame n n' ∧
      ∃ A C B, Around k (pairs n.recs) A C B ∧
      (((rc = .needMerge ∨ rc = .completed) ∧ C ≠ none ∧ Around k (pairs n'.recs) A none B) ∨
       (rc = .keyNotInserted ∧ C = none ∧ n' = n)) := by
  obtain ⟨n1, rc', A, C, B, e1, e2, e3, e4, e5⟩ := BT.leafDelete_ok h k
  simp only [Node.leafDelete] at e1
  simp only [Blink.leafDelete]
  cases hs : n.searchRecord k with
  | ub => rw [hs] at e1; simp at e1
  | fuel => rw [hs] at e1; simp at e1
  | ok x =>
    obtain ⟨rc, pos⟩ := x
    rw [hs] at e1
    simp only [Res.ok_bind] at e1 ⊢
    by_cases h1 : rc = .keyAlreadyInserted
    · rw [if_pos h1] at e1 ⊢
      cases hi : n.removeRecord cfg pos with
      | ub => rw [hi] at e1; simp at e1
      | fuel => rw [hi] at e1; simp at e1
      | ok m =>
        rw [hi] at e1
        simp at e1
        obtain ⟨rfl, rfl⟩ := e1
        obtain ⟨need, n2, d1, d2, d3⟩ := blinkNeedMerge_ok hr e2
        refine ⟨if need then .needMerge else .completed, n2, by simp [d1], d2, e3.trans d3.frame, A, C, B, e4, ?_⟩
        rcases e5 with ⟨x1, -, x3⟩ | ⟨-, x2, -⟩
        · refine Or.inl ⟨by cases need <;> simp, x1, by rw [d3.pairs]; exact x3⟩
        · cases x2
    · rw [if_neg h1] at e1 ⊢
      simp at e1
      obtain ⟨rfl, rfl⟩ := e1
      rcases e5 with ⟨-, x2, -⟩ | ⟨x1, -, -⟩
      · cases x2
      · exact ⟨.keyNotInserted, n, rfl, h, e3, A, C, B, e4, Or.inr ⟨rfl, x1, rfl⟩⟩

/-- OSL's insertion after a split. -/
theorem Osl.insertInto_ok (h : NodeOk cfg false lo n) (hlive : ∀ x ∈ n.recs, x.del = false)
    (hroom : n.fitsOne cfg (cfg.klen k + cfg.payLen) = true)
    (hlo : lo.leKey k) (hhi : (hiB n.high).gtKey k) (v : V) (habs : ∀ x ∈ pairs n.recs, x.1 ≠ k) :
    ∃ n' A B, Osl.insertInto cfg n k v = .ok n' ∧ NodeOk cfg false lo n' ∧ SameFrame n n' ∧
      Around k (pairs n.recs) A none B ∧ Around k (pairs n'.recs) A (some v) B := by
  rcases h.search_leaf k with ⟨T, D, hrecs, hs, h1, h2⟩ | ⟨T, r, D, hrecs, hk, h1, h2, hs⟩
  · obtain ⟨n', e1, e2, e3, e4⟩ := insertRecord_leaf (v := v) h hroom hlo hhi hrecs h1 h2
    refine ⟨n', pairs T, pairs D, by simp [Osl.insertInto, hs, e1], e2, e3, ⟨by rw [hrecs]; simp, h1.pairs, h2.pairs⟩,
      ⟨by rw [e4]; simp [pairs, Rec.pair], h1.pairs, h2.pairs⟩⟩
  · exfalso
    obtain ⟨w, hw⟩ := (hrecs ▸ h.leaf : LeafOk lo (hiB n.high) (T ++ r :: D)).val_at
    have hd := hlive r (by rw [hrecs]; simp)
    refine habs (k, w) ?_ rfl
    rw [mem_pairs]
    refine ⟨r, by rw [hrecs]; simp, ?_⟩
    obtain ⟨a, p, d⟩ := r
    simp only at hk hw hd
    subst hk hw hd
    rfl

end BT
