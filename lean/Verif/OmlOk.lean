import Verif.OmlMono
import Verif.OScanOk
import Verif.PmlSeq

/-!
# OML refines the map specification (single thread)
-/

set_option linter.unusedSectionVars false

namespace BT
variable {K V : Type} [LinearOrder K]

section node
variable {cfg : Cfg K} {L : Nat} {b : Bool} {lo : Bd K} {n : Node K V}

theorem Oml.needSplit_eq (cfg : Cfg K) (n : Node K V) :
    Oml.needSplit cfg n (cfg.maxKeyLen + cfg.maxPayLen) = Pml.needSplit cfg n cfg.maxRecLen := by
  unfold Oml.needSplit Pml.needSplit
  cases hlay : cfg.layout
  · simp [Cfg.maxRecLen, Cfg.mlen, hlay]
  · have : cfg.metaLen * (n.rc + 1) + n.block + (cfg.maxKeyLen + cfg.maxPayLen) =
      cfg.metaLen * n.rc + n.block + cfg.maxRecLen := by
      simp only [Cfg.maxRecLen, Cfg.mlen, hlay]; ring_nf
    simp only [this]

theorem Oml.needMerge_eq (cfg : Cfg K) (n : Node K V) : Oml.needMerge cfg n = Pml.needMerge cfg n := rfl

/-- What `CheckSMOs` does to a page. -/
theorem Oml.checkSMOs_ok (hr : Roomy cfg L) (h : NodeOk cfg b lo n) :
    ∃ rc n', Oml.checkSMOs cfg n (cfg.maxKeyLen + cfg.maxPayLen) = .ok (rc, n') ∧ NodeOk cfg b lo n' ∧
      SamePage n n' ∧ ((rc = .needSplit ∧ Big cfg n') ∨ ((rc = .needMerge ∨ rc = .completed) ∧ Room cfg L n')) := by
  obtain ⟨need, n1, h1, h2, h3, h4, h5⟩ := Pml.needSplit_ok hr h
  unfold Oml.checkSMOs
  rw [Oml.needSplit_eq, h1]
  cases need
  · obtain ⟨need, n2, g1, g2, g3, g4⟩ := Pml.needMerge_ok hr h2 (h5 rfl)
    refine ⟨if need then .needMerge else .completed, n2, ?_, g2, h3.trans g3, Or.inr ⟨?_, g4⟩⟩
    · simp only [Res.ok_bind]
      rw [Oml.needMerge_eq, g1]
      rfl
    · cases need <;> simp
  · exact ⟨.needSplit, n1, rfl, h2, h3, Or.inl ⟨rfl, h4 rfl⟩⟩

theorem Oml.checkNodeStatus_ok (hr : Roomy cfg L) (h : NodeOk cfg b lo n) :
    ∃ rc n', Oml.checkNodeStatus cfg n (cfg.maxKeyLen + cfg.maxPayLen) = .ok (rc, n') ∧ NodeOk cfg b lo n' ∧
      SamePage n n' ∧ ((rc = .needSplit ∧ Big cfg n') ∨ ((rc = .needMerge ∨ rc = .completed) ∧ Room cfg L n')) := by
  unfold Oml.checkNodeStatus
  rw [if_neg (by simp [h.notRemoved])]
  exact Oml.checkSMOs_ok hr h

/-- On a page with room the leaf-level check never asks for a split. -/
theorem Oml.checkSMOs_room (hr : Roomy cfg L) (h : NodeOk cfg b lo n) (hroom : Room cfg L n) (k : K) :
    ∃ rc n', Oml.checkSMOs cfg n (cfg.klen k + cfg.payLen) = .ok (rc, n') ∧ rc ≠ .needSplit ∧ NodeOk cfg b lo n' ∧
      SamePage n n' ∧ Room cfg L n' := by
  have hfit := hroom.fitsOne_leaf hr k
  have h1 : Oml.needSplit cfg n (cfg.klen k + cfg.payLen) = .ok (false, n) := by
    unfold Oml.needSplit
    cases hlay : cfg.layout
    · rw [fitsOne_fix hlay] at hfit
      dsimp only
      rw [usedSize_fix hlay]
      simp only [Res.ok.injEq, Prod.mk.injEq, and_true, decide_eq_false_iff_not]
      omega
    · rw [fitsOne_var hlay] at hfit
      dsimp only
      rw [if_pos (by simpa [Node.rc] using hfit)]
  obtain ⟨need, n2, g1, g2, g3, g4⟩ := Pml.needMerge_ok hr h hroom
  refine ⟨if need then .needMerge else .completed, n2, ?_, by cases need <;> simp, g2, g3, g4⟩
  unfold Oml.checkSMOs
  rw [h1]
  simp only [Res.ok_bind]
  rw [Oml.needMerge_eq, g1]
  rfl

end node

section wf
variable {cfg : Cfg K} {L : Nat} {s : St K V} {H : Nat} {gr : Nat → List Grp}

theorem Oml.getRootForWrite_ok (hr : Roomy cfg L) (g : Good cfg s H gr) (k : K) :
    ∀ fuel, H + 1 ≤ fuel → ∃ p s' H' gr' i n lo, i ≤ H ∧ Oml.getRootForWrite cfg k fuel s = .ok (p, s') ∧
      Ready cfg L s' H' gr' i k p n lo ∧ contents s' gr' = contents s gr := by
  induction H generalizing s with
  | zero =>
    intro fuel hf
    obtain ⟨f, rfl⟩ : ∃ f, fuel = f + 1 := ⟨fuel - 1, by omega⟩
    obtain ⟨n, hat, hh⟩ := g.wf.root_at g.np
    obtain ⟨rc, n', n1, n2, n3, n4⟩ := Oml.checkNodeStatus_ok hr hat.ok
    obtain ⟨w2, c2, a2, -⟩ := g.wf.samePage (le_refl _) hat n2 n3
    have hk : n'.isInner = false := by rw [a2.ok.kind]; rfl
    unfold Oml.getRootForWrite
    rw [M.bind_ok (a := s.root) (s' := s) rfl, M.bind_ok (M.load_ok hat.heap), M.bind_ok (M.lift_of _ n1)]
    dsimp only
    rw [M.bind_ok (M.store_ok hat.heap)]
    rcases n4 with ⟨rfl, hbig⟩ | ⟨hrc, hroom⟩
    · rw [if_neg (by simp), if_pos rfl]
      obtain ⟨p, s', gr', m, lo, e1, e2, e3⟩ := Pml.rootSplit_ok hr ⟨w2, g.np⟩ a2 (by rw [n3.frame.high, hh]) hbig k
      exact ⟨p, s', _, gr', 0, m, lo, le_refl _, e1, e2, by rw [e3, c2]⟩
    · refine ⟨s.root, _, 0, gr, 0, n', .bot, le_refl _, ?_,
        ⟨⟨w2, g.np⟩, le_refl _, a2, trivial, by rw [n3.frame.high, hh]; trivial, hroom⟩, c2⟩
      rcases hrc with rfl | rfl
      · rw [if_neg (by simp), if_neg (by simp), if_pos rfl, if_pos (Or.inr hk)]; rfl
      · rw [if_neg (by simp), if_neg (by simp), if_neg (by simp)]; rfl
  | succ H ih =>
    intro fuel hf
    obtain ⟨f, rfl⟩ : ∃ f, fuel = f + 1 := ⟨fuel - 1, by omega⟩
    obtain ⟨n, hat, hh⟩ := g.wf.root_at g.np
    obtain ⟨rc, n', n1, n2, n3, n4⟩ := Oml.checkNodeStatus_ok hr hat.ok
    obtain ⟨w2, c2, a2, -⟩ := g.wf.samePage (le_refl _) hat n2 n3
    have hk : n'.isInner = true := a2.okS.kind
    unfold Oml.getRootForWrite
    rw [M.bind_ok (a := s.root) (s' := s) rfl, M.bind_ok (M.load_ok hat.heap), M.bind_ok (M.lift_of _ n1)]
    dsimp only
    rw [M.bind_ok (M.store_ok hat.heap)]
    rcases n4 with ⟨rfl, hbig⟩ | ⟨hrc, hroom⟩
    · rw [if_neg (by simp), if_pos rfl]
      obtain ⟨p, s', gr', m, lo, e1, e2, e3⟩ := Pml.rootSplit_ok hr ⟨w2, g.np⟩ a2 (by rw [n3.frame.high, hh]) hbig k
      exact ⟨p, s', _, gr', H + 1, m, lo, le_refl _, e1, e2, by rw [e3, c2]⟩
    · have rd : Ready cfg L { s with heap := upd s.heap s.root n' } (H + 1) gr (H + 1) k s.root n' .bot :=
        ⟨⟨w2, g.np⟩, le_refl _, a2, trivial, by rw [n3.frame.high, hh]; trivial, hroom⟩
      rcases hrc with rfl | rfl
      · rw [if_neg (by simp), if_neg (by simp), if_pos rfl]
        by_cases h1 : n'.rc > 1
        · rw [if_pos (Or.inl h1)]
          exact ⟨s.root, _, H + 1, gr, H + 1, n', .bot, le_refl _, rfl, rd, c2⟩
        · rw [if_neg (by simp [h1, hk])]
          have hne := a2.okS.inner.ne
          have hlen : n'.recs.length = 1 := by
            have := List.length_pos_iff.2 hne
            simp only [Node.rc] at h1
            omega
          obtain ⟨r, hrec⟩ : ∃ r, n'.recs = [r] := List.length_eq_one_iff.1 hlen
          obtain ⟨c, hc⟩ := a2.okS.inner.ptrs r (by simp [hrec])
          have hch : n'.getChild 0 = .ok r.toPtr := by
            obtain ⟨a, b, d⟩ := r
            simp only at hc
            subst hc
            simp [Node.getChild, hrec, Rec.toPtr]
          have htop : gr (H + 1) = [(s.root, [])] := by
            obtain ⟨run, hrun⟩ := w2.top
            have : run = [] := g.np (H + 1) (le_refl _) (s.root, run) (by rw [hrun]; simp)
            rw [hrun, this]
          obtain ⟨w', c'⟩ := w2.shrinkRoot htop a2.heap hrec
          rw [M.bind_ok (M.lift_of _ hch), M.bind_ok (M.free_ok a2.heap)]
          rw [M.bind_ok (a := ()) (s' := ⟨del (upd s.heap s.root n') s.root, s.fresh, r.toPtr⟩) rfl]
          obtain ⟨p, s', H', gr', i, m, lo, h2, h3, h4, h5⟩ := ih ⟨w', fun j hj => g.np j (by omega)⟩ f (by omega)
          exact ⟨p, s', H', gr', i, m, lo, by omega, h3, h4, by rw [h5, c', c2]⟩
      · rw [if_neg (by simp), if_neg (by simp), if_neg (by simp)]
        exact ⟨s.root, _, H + 1, gr, H + 1, n', .bot, le_refl _, rfl, rd, c2⟩

theorem Oml.descend_ok (hr : Roomy cfg L) (hmf : L + cfg.maxPayLen + cfg.mlen ≤ cfg.minFree) (k : K) :
    ∀ (i fuel : Nat), i + 1 ≤ fuel → ∀ (s : St K V) (gr : Nat → List Grp) (p : Ptr) (n : Node K V) (lo : Bd K),
      Ready cfg L s H gr i k p n lo →
    ∃ leaf s' gr' n' lo', Oml.descendForWrite cfg k fuel p s = .ok (leaf, s') ∧
      Ready cfg L s' H gr' 0 k leaf n' lo' ∧ contents s' gr' = contents s gr := by
  intro i
  induction i with
  | zero =>
    intro fuel hf s gr p n lo rd
    obtain ⟨f, rfl⟩ : ∃ f, fuel = f + 1 := ⟨fuel - 1, by omega⟩
    refine ⟨p, s, gr, n, lo, ?_, rd, rfl⟩
    unfold Oml.descendForWrite
    rw [M.bind_ok (M.load_ok rd.at'.heap)]
    simp [rd.at'.ok0.kind]
  | succ i ih =>
    intro fuel hf s gr p n lo rd
    obtain ⟨f, rfl⟩ : ∃ f, fuel = f + 1 := ⟨fuel - 1, by omega⟩
    have hi : i < H := rd.le
    have w := rd.good.wf
    have np := rd.good.np
    obtain ⟨T, r, D, rc, c, h1, h2, h3, h4, h5, h6, h7, h8⟩ := rd.at'.okS.search_inner k rd.hi
    obtain ⟨G1, G2, cn, lo', g1, g2, g3, g4, g5, g6⟩ := w.child np hi rd.at' rd.lo h1 h7 h6
    have hc := toPtr_of h3
    rw [hc] at g1 g2
    obtain ⟨rc', cn1, n1, n2, n3, n4⟩ := Oml.checkNodeStatus_ok hr g2.ok
    obtain ⟨w1, c1, a1, a1'⟩ := w.samePage (by omega) g2 n2 n3
    have hpc : p ≠ c := by
      rintro rfl
      have := w.disj i (by omega) (i + 1) (by omega) p g2.mem rd.at'.mem
      omega
    have hatp1 := a1' (i + 1) (by omega) p n lo hpc rd.at'
    have hcmp : n.compHighKey k = true := compHighKey_iff.2 rd.hi
    unfold Oml.descendForWrite
    rw [M.bind_ok (M.load_ok rd.at'.heap)]
    rw [if_pos rd.at'.okS.kind, if_neg (by simp [rd.at'.okS.notRemoved, hcmp])]
    rw [M.bind_ok (M.lift_of _ h2)]
    dsimp only
    rw [M.bind_ok (M.lift_of _ h4), M.bind_ok (M.load_ok g2.heap), M.bind_ok (M.lift_of _ n1)]
    dsimp only
    rw [M.bind_ok (M.store_ok g2.heap)]
    have hhigh1 : cn1.high = hdKey D n.high := by rw [n3.frame.high, g3]
    rcases n4 with ⟨rfl, hbig⟩ | ⟨rfl | rfl, hroom⟩
    · rw [if_neg (by simp), if_pos rfl]
      obtain ⟨q, s2, gr2, l, rn, sep, e1, e2, e3, e4, e5, e6⟩ := Pml.split_ok hr ⟨w1, np⟩ hi hatp1 rd.room h1 hc g1
        a1 hhigh1 g6 hbig
      unfold Oml.trySplit
      by_cases hk : l.compHighKey k = true
      · rw [M.bind_ok (a := c) (s' := s2) (by
          rw [M.bind_ok e1, M.bind_ok (M.load_ok e4.heap)]
          simp [Pml.validSplitNode, hk])]
        obtain ⟨leaf, s', gr', n', lo'', q1, q2, q3⟩ := ih f (by omega) _ gr2 c l lo'
          ⟨e2, by omega, e4, g4, compHighKey_iff.1 hk, e6.roomL⟩
        exact ⟨leaf, s', gr', n', lo'', q1, q2, by rw [q3, e3, c1]⟩
      · rw [M.bind_ok (a := q) (s' := s2) (by
          rw [M.bind_ok e1, M.bind_ok (M.load_ok e4.heap)]
          simp [Pml.validSplitNode, hk])]
        obtain ⟨leaf, s', gr', n', lo'', q1, q2, q3⟩ := ih f (by omega) _ gr2 q rn (.key sep)
          ⟨e2, by omega, e5, by rw [compHighKey_iff, e6.lhigh] at hk; simpa [hiB] using hk,
            by rw [e6.rhigh, n3.frame.high]; exact g5, e6.roomR⟩
        exact ⟨leaf, s', gr', n', lo'', q1, q2, by rw [q3, e3, c1]⟩
    · rw [if_neg (by simp), if_neg (by simp), if_pos rfl]
      obtain ⟨s3, gr3, cn3, e1, e2, e3, e4, e5, e6⟩ := Pml.merge_ok hr hmf ⟨w1, np⟩ hi hatp1 h1 hc g1 a1
        hhigh1 hroom
      unfold Oml.tryMerge
      rw [M.bind_ok e1]
      obtain ⟨leaf, s', gr', n', lo'', q1, q2, q3⟩ := ih f (by omega) _ gr3 c cn3 lo'
        ⟨e2, by omega, e4, g4, e6 k (by rw [hhigh1]; exact h6), e5⟩
      exact ⟨leaf, s', gr', n', lo'', q1, q2, by rw [q3, e3, c1]⟩
    · rw [if_neg (by simp), if_neg (by simp), if_neg (by simp)]
      obtain ⟨leaf, s', gr', n', lo'', q1, q2, q3⟩ := ih f (by omega) _ gr c cn1 lo'
        ⟨⟨w1, np⟩, by omega, a1, g4, by rw [hhigh1]; exact h6, hroom⟩
      exact ⟨leaf, s', gr', n', lo'', q1, q2, by rw [q3, c1]⟩

theorem Oml.searchLeafForWrite_ok (hr : Roomy cfg L) (hmf : L + cfg.maxPayLen + cfg.mlen ≤ cfg.minFree)
    (g : Good cfg s H gr) (k : K) {fuel : Nat} (hf : H + 1 ≤ fuel) :
    ∃ leaf s' H' gr' n lo, Oml.searchLeafForWrite cfg fuel k s = .ok (leaf, s') ∧
      Ready cfg L s' H' gr' 0 k leaf n lo ∧ contents s' gr' = contents s gr := by
  obtain ⟨p, s1, H1, gr1, i, n1, lo1, h1, h2, h3, h4⟩ := Oml.getRootForWrite_ok hr g k fuel hf
  obtain ⟨leaf, s', gr', n', lo', e1, e2, e3⟩ := Oml.descend_ok hr hmf k i fuel (by omega) s1 gr1 p n1 lo1 h3
  refine ⟨leaf, s', H1, gr', n', lo', ?_, e2, by rw [e3, h4]⟩
  unfold Oml.searchLeafForWrite
  rw [M.bind_ok h2]
  exact e1

theorem Ready.checkKeyRange {k : K} {p : Ptr} {n : Node K V} {lo : Bd K} (rd : Ready cfg L s H gr 0 k p n lo)
    {fuel : Nat} (hf : 1 ≤ fuel) : BT.checkKeyRange k fuel p s = .ok (p, s) :=
  checkKeyRange_ok rd.at'.heap rd.at'.ok0.notRemoved rd.hi hf

/-- Cleaning the leaf up before using it. -/
theorem Ready.samePage {k : K} {p : Ptr} {n n' : Node K V} {lo : Bd K} (rd : Ready cfg L s H gr 0 k p n lo)
    (h1 : NodeOk cfg false lo n') (h2 : SamePage n n') (h3 : Room cfg L n') :
    Ready cfg L { s with heap := upd s.heap p n' } H gr 0 k p n' lo ∧
      contents { s with heap := upd s.heap p n' } gr = contents s gr := by
  obtain ⟨w1, c1, a1, -⟩ := rd.good.wf.samePage (Nat.zero_le _) rd.at' h1 h2
  exact ⟨⟨⟨w1, rd.good.np⟩, rd.le, a1, rd.lo, by rw [h2.frame.high]; exact rd.hi, h3⟩, c1⟩

theorem Oml.write_ok (hr : Roomy cfg L) (hmf : L + cfg.maxPayLen + cfg.mlen ≤ cfg.minFree)
    (g : Good cfg s H gr) (k : K) (v : V) {fuel : Nat} (hf : H + 1 ≤ fuel) :
    ∃ s' H' gr', Oml.write cfg k v fuel s = .ok (.success, s') ∧ Good cfg s' H' gr' ∧
      mapOf (contents s' gr') = Spec.set (mapOf (contents s gr)) k (some v) := by
  obtain ⟨f, rfl⟩ : ∃ f, fuel = f + 1 := ⟨fuel - 1, by omega⟩
  obtain ⟨leaf, s1, H1, gr1, n, lo, h1, rd, h3⟩ := Oml.searchLeafForWrite_ok hr hmf g k hf
  obtain ⟨rc, n1, c1, c2, c3, c4, c5⟩ := Oml.checkSMOs_room hr rd.at'.ok0 rd.room k
  obtain ⟨rd1, c6⟩ := rd.samePage c3 c4 c5
  obtain ⟨n', A, C, B, e1, e2, e3, e4, e5⟩ := leafWrite_ok rd1.at'.ok0 (rd1.room.fitsOne_leaf hr k) rd1.lo rd1.hi v
  obtain ⟨g', -, c'⟩ := rd1.commit e4 e2 e3
  refine ⟨_, H1, gr1, ?_, g', by rw [c' _ e5, c6, h3]⟩
  unfold Oml.write
  rw [M.bind_ok h1, M.bind_ok (rd.checkKeyRange (by omega)), M.bind_ok (M.load_ok rd.at'.heap), M.bind_ok (M.lift_of _ c1)]
  dsimp only
  rw [M.bind_ok (M.store_ok rd.at'.heap), if_neg c2, M.bind_ok (M.lift_of _ e1), M.bind_ok (M.store_ok rd1.at'.heap)]
  rfl

theorem Oml.insert_ok (hr : Roomy cfg L) (hmf : L + cfg.maxPayLen + cfg.mlen ≤ cfg.minFree)
    (g : Good cfg s H gr) (k : K) (v : V) {fuel : Nat} (hf : H + 1 ≤ fuel) :
    ∃ rc s' H' gr', Oml.insert cfg k v fuel s = .ok (rc, s') ∧ Good cfg s' H' gr' ∧
      ((mapOf (contents s gr) k = none ∧ rc = .success ∧
          mapOf (contents s' gr') = Spec.set (mapOf (contents s gr)) k (some v)) ∨
       (mapOf (contents s gr) k ≠ none ∧ rc = .keyExist ∧ mapOf (contents s' gr') = mapOf (contents s gr))) := by
  obtain ⟨f, rfl⟩ : ∃ f, fuel = f + 1 := ⟨fuel - 1, by omega⟩
  obtain ⟨leaf, s1, H1, gr1, n, lo, h1, rd, h3⟩ := Oml.searchLeafForWrite_ok hr hmf g k hf
  obtain ⟨rc0, n1, c1, c2, c3, c4, c5⟩ := Oml.checkSMOs_room hr rd.at'.ok0 rd.room k
  obtain ⟨rd1, c6⟩ := rd.samePage c3 c4 c5
  obtain ⟨n', rc, A, C, B, e1, e2, e3, e4, e5⟩ :=
    leafInsert_ok rd1.at'.ok0 (rd1.room.fitsOne_leaf hr k) rd1.lo rd1.hi v
  obtain ⟨g', hm, c'⟩ := rd1.commit e4 e2 e3
  refine ⟨rc, _, H1, gr1, ?_, g', ?_⟩
  · unfold Oml.insert
    rw [M.bind_ok h1, M.bind_ok (rd.checkKeyRange (by omega)), M.bind_ok (M.load_ok rd.at'.heap), M.bind_ok (M.lift_of _ c1)]
    dsimp only
    rw [M.bind_ok (M.store_ok rd.at'.heap), if_neg c2, M.bind_ok (M.lift_of _ e1)]
    dsimp only
    rw [M.bind_ok (M.store_ok rd1.at'.heap)]
    rfl
  · rw [← h3, ← c6, hm]
    rcases e5 with ⟨x1, x2, x3⟩ | ⟨x1, x2, x3⟩
    · exact Or.inl ⟨x1, x2, c' _ x3⟩
    · subst x3
      rw [upd_self rd1.at'.heap]
      exact Or.inr ⟨x1, x2, rfl⟩

theorem Oml.update_ok (hr : Roomy cfg L) (hmf : L + cfg.maxPayLen + cfg.mlen ≤ cfg.minFree)
    (g : Good cfg s H gr) (k : K) (v : V) {fuel : Nat} (hf : H + 1 ≤ fuel) :
    ∃ rc s' H' gr', Oml.update cfg fuel k v s = .ok (rc, s') ∧ Good cfg s' H' gr' ∧
      ((mapOf (contents s gr) k ≠ none ∧ rc = .success ∧
          mapOf (contents s' gr') = Spec.set (mapOf (contents s gr)) k (some v)) ∨
       (mapOf (contents s gr) k = none ∧ rc = .keyNotExist ∧ mapOf (contents s' gr') = mapOf (contents s gr))) := by
  obtain ⟨leaf, s1, H1, gr1, n, lo, h1, rd, h3⟩ := Oml.searchLeafForWrite_ok hr hmf g k hf
  obtain ⟨n', rc, A, C, B, e1, e2, e3, e4, e5⟩ := leafUpdate_ok rd.at'.ok0 k v
  obtain ⟨g', hm, c'⟩ := rd.commit e4 e2 e3
  refine ⟨rc, _, H1, gr1, ?_, g', ?_⟩
  · unfold Oml.update
    rw [M.bind_ok h1, M.bind_ok (rd.checkKeyRange (by omega)), M.bind_ok (M.load_ok rd.at'.heap), M.bind_ok (M.lift_of _ e1)]
    dsimp only
    rw [M.bind_ok (M.store_ok rd.at'.heap)]
    rfl
  · rw [← h3, hm]
    rcases e5 with ⟨x1, x2, x3⟩ | ⟨x1, x2, x3⟩
    · exact Or.inl ⟨x1, x2, c' _ x3⟩
    · subst x3
      rw [upd_self rd.at'.heap]
      exact Or.inr ⟨x1, x2, rfl⟩

theorem Oml.delete_ok (hr : Roomy cfg L) (hmf : L + cfg.maxPayLen + cfg.mlen ≤ cfg.minFree)
    (g : Good cfg s H gr) (k : K) {fuel : Nat} (hf : H + 1 ≤ fuel) :
    ∃ rc s' H' gr', Oml.delete cfg fuel k s = .ok (rc, s') ∧ Good cfg s' H' gr' ∧
      ((mapOf (contents s gr) k ≠ none ∧ rc = .success ∧
          mapOf (contents s' gr') = Spec.set (mapOf (contents s gr)) k none) ∨
       (mapOf (contents s gr) k = none ∧ rc = .keyNotExist ∧ mapOf (contents s' gr') = mapOf (contents s gr))) := by
  obtain ⟨leaf, s1, H1, gr1, n, lo, h1, rd, h3⟩ := Oml.searchLeafForWrite_ok hr hmf g k hf
  obtain ⟨n', rc, A, C, B, e1, e2, e3, e4, e5⟩ := leafDelete_ok rd.at'.ok0 k
  obtain ⟨g', hm, c'⟩ := rd.commit e4 e2 e3
  refine ⟨rc, _, H1, gr1, ?_, g', ?_⟩
  · unfold Oml.delete
    rw [M.bind_ok h1, M.bind_ok (rd.checkKeyRange (by omega)), M.bind_ok (M.load_ok rd.at'.heap), M.bind_ok (M.lift_of _ e1)]
    dsimp only
    rw [M.bind_ok (M.store_ok rd.at'.heap)]
    rfl
  · rw [← h3, hm]
    rcases e5 with ⟨x1, x2, x3⟩ | ⟨x1, x2, x3⟩
    · exact Or.inl ⟨x1, x2, c' _ x3⟩
    · subst x3
      rw [upd_self rd.at'.heap]
      exact Or.inr ⟨x1, x2, rfl⟩

theorem Oml.descendForRead_ok (g : Good cfg s H gr) (k : K) :
    ∀ (i fuel : Nat), i + 1 ≤ fuel → ∀ (p : Ptr) (n : Node K V) (lo : Bd K), i ≤ H →
      At cfg s gr i p n lo → lo.leKey k → (hiB n.high).gtKey k →
    ∃ leaf n' lo', Oml.descendForRead k fuel p s = .ok (leaf, s) ∧
      At cfg s gr 0 leaf n' lo' ∧ lo'.leKey k ∧ (hiB n'.high).gtKey k := by
  intro i
  induction i with
  | zero =>
    intro fuel hf p n lo _ hat hlo hhi
    obtain ⟨f, rfl⟩ : ∃ f, fuel = f + 1 := ⟨fuel - 1, by omega⟩
    refine ⟨p, n, lo, ?_, hat, hlo, hhi⟩
    unfold Oml.descendForRead
    rw [M.bind_ok (M.load_ok hat.heap)]
    simp [hat.ok0.kind]
  | succ i ih =>
    intro fuel hf p n lo hle hat hlo hhi
    obtain ⟨f, rfl⟩ : ∃ f, fuel = f + 1 := ⟨fuel - 1, by omega⟩
    obtain ⟨T, r, D, rc, c, h1, h2, h3, h4, h5, h6, h7, h8⟩ := hat.okS.search_inner k hhi
    obtain ⟨G1, G2, cn, lo', g1, g2, g3, g4, g5, g6⟩ := g.wf.child g.np (by omega) hat hlo h1 h7 h6
    rw [toPtr_of h3] at g2
    obtain ⟨leaf, n', lo'', q1, q2⟩ := ih f (by omega) c cn lo' (by omega) g2 g4 g5
    refine ⟨leaf, n', lo'', ?_, q2⟩
    unfold Oml.descendForRead
    rw [M.bind_ok (M.load_ok hat.heap)]
    rw [if_pos hat.okS.kind, if_neg (by simp [hat.okS.notRemoved, compHighKey_iff.2 hhi]), M.bind_ok (M.lift_of _ h2)]
    dsimp only
    rw [M.bind_ok (M.lift_of _ h4)]
    exact q1

theorem Oml.descendLeft_ok (g : Good cfg s H gr) :
    ∀ (i fuel : Nat), i + 1 ≤ fuel → ∀ (p : Ptr) (n : Node K V), i ≤ H → At cfg s gr i p n .bot →
    ∃ leaf n', Oml.descendLeft fuel p s = .ok (leaf, s) ∧ At cfg s gr 0 leaf n' .bot := by
  intro i
  induction i with
  | zero =>
    intro fuel hf p n _ hat
    obtain ⟨f, rfl⟩ : ∃ f, fuel = f + 1 := ⟨fuel - 1, by omega⟩
    refine ⟨p, n, ?_, hat⟩
    unfold Oml.descendLeft
    rw [M.bind_ok (M.load_ok hat.heap)]
    simp [hat.ok0.kind]
  | succ i ih =>
    intro fuel hf p n hle hat
    obtain ⟨f, rfl⟩ : ∃ f, fuel = f + 1 := ⟨fuel - 1, by omega⟩
    obtain ⟨r, D, hrecs⟩ := List.exists_cons_of_ne_nil hat.okS.inner.ne
    obtain ⟨c, hc⟩ := hat.okS.inner.ptrs r (by simp [hrecs])
    have hch : n.getChild 0 = .ok r.toPtr := by
      obtain ⟨a, b, d⟩ := r
      simp only at hc
      subst hc
      simp [Node.getChild, hrecs, Rec.toPtr]
    obtain ⟨G1, run, G2, lo', f1, f2, f3, f4⟩ := g.wf.follow (by omega) hat (T := []) hrecs
    have : run = [] := g.np i (by omega) (r.toPtr, run) (by rw [f1]; simp)
    subst this
    obtain ⟨cn, lo'', a1, a2⟩ := g.wf.at_of_append (i := i) (by omega) (A := flat G1) (B := flat G2) (p := r.toPtr)
      (by rw [f1]; simp)
    have : lo'' = .bot := by rw [a2.endB_eq, ← f3.endB_eq, f4]; simp
    subst this
    obtain ⟨leaf, n', q1, q2⟩ := ih f (by omega) r.toPtr cn (by omega) a1
    refine ⟨leaf, n', ?_, q2⟩
    unfold Oml.descendLeft
    rw [M.bind_ok (M.load_ok hat.heap)]
    rw [if_pos hat.okS.kind, if_neg (by simp [hat.okS.notRemoved]), M.bind_ok (M.lift_of _ hch)]
    exact q1

theorem Oml.read_ok (g : Good cfg s H gr) (k : K) {fuel : Nat} (hf : H + 1 ≤ fuel) :
    Oml.read fuel k s = .ok (mapOf (contents s gr) k, s) := by
  obtain ⟨n, hat, hh⟩ := g.wf.root_at g.np
  obtain ⟨leaf, n', lo', q1, q2, q3, q4⟩ := Oml.descendForRead_ok g k H fuel hf s.root n .bot (le_refl _) hat
    trivial (by rw [hh]; trivial)
  obtain ⟨A, C, B, a1, a2⟩ := leafRead_ok q2.ok0 k
  obtain ⟨A', B', h1, -⟩ := g.wf.around q2 q3 q4 a1
  unfold Oml.read
  rw [M.bind_ok (a := s.root) (s' := s) rfl, M.bind_ok q1,
    M.bind_ok (checkKeyRange_ok q2.heap q2.ok0.notRemoved q4 (by omega)), M.bind_ok (M.load_ok q2.heap), h1.map]
  exact M.lift_of s a2

theorem Oml.scan_ok (g : Good cfg s H gr) (key : Option K) (b e : ScanKey K) :
    ∃ fuel l, Oml.scan key fuel b e s = .ok (l, s) ∧ Spec.IsScan (mapOf (contents s gr)) b e l := by
  obtain ⟨n, hat, hh⟩ := g.wf.root_at g.np
  cases b with
  | none =>
    obtain ⟨leaf, n', q1, q2⟩ := Oml.descendLeft_ok g H (H + 1) (le_refl _) s.root n (le_refl _) hat
    obtain ⟨l, ⟨N, h1⟩, h2⟩ := oscanFrom_ok g.wf q2 key (b := none) (e := e) rfl
    refine ⟨N + H + 1, l, ?_, h2⟩
    unfold Oml.scan
    rw [M.bind_ok (a := s.root) (s' := s) rfl]
    dsimp only
    rw [M.bind_ok ((Oml.descendLeft_mono s.root _ (N + H + 1) (by omega)).le s _ q1)]
    exact h1 _ (by omega)
  | some kc =>
    obtain ⟨k, cl⟩ := kc
    obtain ⟨leaf, n', lo', q1, q2, q3, q4⟩ := Oml.descendForRead_ok g k H (H + 1) (le_refl _) s.root n .bot
      (le_refl _) hat trivial (by rw [hh]; trivial)
    obtain ⟨l, ⟨N, h1⟩, h2⟩ := oscanFrom_ok g.wf q2 key (b := some (k, cl)) (e := e) ⟨q3, q4⟩
    refine ⟨N + H + 1, l, ?_, h2⟩
    unfold Oml.scan
    rw [M.bind_ok (a := s.root) (s' := s) rfl]
    dsimp only
    rw [M.bind_ok ((Oml.descendForRead_mono k s.root _ (N + H + 1) (by omega)).le s _ q1)]
    exact h1 _ (by omega)

theorem Oml.callsOk (hr : Roomy cfg L) (hmf : L + cfg.maxPayLen + cfg.mlen ≤ cfg.minFree) (key : Option K) :
    CallsOk (Oml.impl cfg key : Impl K V) cfg where
  fuelOk := Oml.fuelOk cfg key
  read := fun {_ H _} g k => ⟨H + 1, Oml.read_ok g k (le_refl _)⟩
  write := fun {_ H _} g k v => ⟨H + 1, Oml.write_ok hr hmf g k v (le_refl _)⟩
  insert := fun {_ H _} g k v => ⟨H + 1, Oml.insert_ok hr hmf g k v (le_refl _)⟩
  update := fun {_ H _} g k v => ⟨H + 1, Oml.update_ok hr hmf g k v (le_refl _)⟩
  delete := fun {_ H _} g k => ⟨H + 1, Oml.delete_ok hr hmf g k (le_refl _)⟩
  scan := fun g b e => Oml.scan_ok g key b e

end wf
end BT
