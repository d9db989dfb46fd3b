import Verif.TreeOk

/-!
# PML refines the map specification (single thread)
-/

set_option linter.unusedSectionVars false

namespace BT
variable {K V : Type} [LinearOrder K]

section node
variable {cfg : Cfg K} {L : Nat} {b : Bool} {lo : Bd K} {n : Node K V}

theorem Pml.needSplit_ok (hr : Roomy cfg L) (h : NodeOk cfg b lo n) :
    ∃ need n', Pml.needSplit cfg n cfg.maxRecLen = .ok (need, n') ∧ NodeOk cfg b lo n' ∧ SamePage n n' ∧
      (need = true → Big cfg n') ∧ (need = false → Room cfg L n') := by
  have hL := hr.le
  have hmr : cfg.maxRecLen = cfg.maxKeyLen + cfg.maxPayLen + cfg.mlen := rfl
  cases hlay : cfg.layout
  · refine ⟨_, n, by simp only [Pml.needSplit, hlay]; rfl, h, SamePage.refl n, ?_, ?_⟩
    · intro hn
      rw [big_fix hlay]
      rw [decide_eq_true_eq, usedSize_fix hlay] at hn
      have : cfg.mlen = 0 := by simp [Cfg.mlen, hlay]
      omega
    · intro hn
      rw [room_fix hlay]
      rw [decide_eq_false_iff_not, usedSize_fix hlay] at hn
      have : cfg.mlen = 0 := by simp [Cfg.mlen, hlay]
      omega
  · have hm : cfg.mlen = cfg.metaLen := by simp [Cfg.mlen, hlay]
    have hrc : n.rc = n.recs.length := rfl
    simp only [Pml.needSplit, hlay]
    by_cases h1 : cfg.metaLen * n.rc + n.block + cfg.maxRecLen ≤ cfg.cap
    · rw [if_pos h1]
      refine ⟨false, n, rfl, h, SamePage.refl n, by simp, ?_⟩
      intro _
      rw [room_var hlay]
      rw [hrc] at h1
      omega
    · rw [if_neg h1]
      by_cases h2 : cfg.metaLen * n.rc + n.block + cfg.maxRecLen - n.dead > cfg.maxUsed
      · rw [if_pos h2]
        refine ⟨true, n, rfl, h, SamePage.refl n, ?_, by simp⟩
        intro _
        rw [big_var hlay]
        rw [hrc] at h2
        omega
      · rw [if_neg h2]
        obtain ⟨n', e1, e2, e3, e4, e5, e6⟩ := cleanUp_ok hr hlay h
        refine ⟨false, n', by rw [e1]; rfl, e2, e3, by simp, ?_⟩
        intro _
        rw [room_var hlay]
        rw [hrc] at h2
        have : cfg.maxUsed ≤ cfg.cap := by simp only [Cfg.maxUsed, Cfg.cap]; omega
        omega

theorem Room.of_cleanUp (hlay : cfg.layout = .var) {n' : Node K V} (hroom : Room cfg L n)
    (h : cfg.metaLen * n'.recs.length + n'.block + n.dead ≤ cfg.metaLen * n.recs.length + n.block) :
    Room cfg L n' := by
  rw [room_var hlay] at *; omega

theorem Pml.needMerge_ok (hr : Roomy cfg L) (h : NodeOk cfg b lo n) (hroom : Room cfg L n) :
    ∃ need n', Pml.needMerge cfg n = .ok (need, n') ∧ NodeOk cfg b lo n' ∧ SamePage n n' ∧
      Room cfg L n' := by
  cases hlay : cfg.layout
  · exact ⟨_, n, by simp only [Pml.needMerge, hlay]; rfl, h, SamePage.refl n, hroom⟩
  · simp only [Pml.needMerge, hlay]
    by_cases h1 : n.usedSize cfg < cfg.minUsed
    · rw [if_pos h1]; exact ⟨_, n, rfl, h, SamePage.refl n, hroom⟩
    · rw [if_neg h1]
      by_cases h2 : n.dead ≤ cfg.maxDeleted
      · rw [if_pos h2]; exact ⟨_, n, rfl, h, SamePage.refl n, hroom⟩
      · rw [if_neg h2]
        obtain ⟨n', e1, e2, e3, e4, e5, e6⟩ := cleanUp_ok hr hlay h
        exact ⟨false, n', by rw [e1]; rfl, e2, e3, hroom.of_cleanUp hlay e6⟩

end node


section wf
variable {cfg : Cfg K} {L : Nat} {s : St K V} {H : Nat} {gr : Nat → List Grp}

theorem Pml.shrinkTree_ok (g : Good cfg s H gr) :
    ∀ fuel, H + 1 ≤ fuel → ∃ s' H', H' ≤ H ∧ Pml.shrinkTree fuel s = .ok ((), s') ∧ Good cfg s' H' gr ∧
      contents s' gr = contents s gr := by
  induction H generalizing s with
  | zero =>
    intro fuel hf
    obtain ⟨f, rfl⟩ : ∃ f, fuel = f + 1 := ⟨fuel - 1, by omega⟩
    obtain ⟨n, hat, hh⟩ := g.wf.root_at g.np
    have hk : n.isInner = false := hat.ok0.kind
    refine ⟨s, 0, le_refl _, ?_, g, rfl⟩
    unfold Pml.shrinkTree
    rw [M.bind_ok (a := s.root) (s' := s) rfl, M.bind_ok (M.load_ok hat.heap)]
    simp [hk]
  | succ H ih =>
    intro fuel hf
    obtain ⟨f, rfl⟩ : ∃ f, fuel = f + 1 := ⟨fuel - 1, by omega⟩
    obtain ⟨n, hat, hh⟩ := g.wf.root_at g.np
    have hk : n.isInner = true := hat.okS.kind
    unfold Pml.shrinkTree
    rw [M.bind_ok (a := s.root) (s' := s) rfl, M.bind_ok (M.load_ok hat.heap)]
    by_cases h1 : n.rc = 1
    · rw [if_pos ⟨h1, hk⟩]
      obtain ⟨r, hrec⟩ : ∃ r, n.recs = [r] := List.length_eq_one_iff.1 h1
      obtain ⟨c, hc⟩ := hat.okS.inner.ptrs r (by simp [hrec])
      have hch : n.getChild 0 = .ok r.toPtr := by
        obtain ⟨a, b, d⟩ := r
        simp only at hc
        subst hc
        simp [Node.getChild, hrec, Rec.toPtr]
      have htop : gr (H + 1) = [(s.root, [])] := by
        obtain ⟨run, hrun⟩ := g.wf.top
        have : run = [] := g.np (H + 1) (le_refl _) (s.root, run) (by rw [hrun]; simp)
        rw [hrun, this]
      obtain ⟨w', c'⟩ := g.wf.shrinkRoot htop hat.heap hrec
      rw [M.bind_ok (M.lift_of s hch), M.bind_ok (M.free_ok hat.heap)]
      rw [M.bind_ok (a := ()) (s' := ⟨del s.heap s.root, s.fresh, r.toPtr⟩) rfl]
      obtain ⟨s', H', h2, h3, h4, h5⟩ := ih ⟨w', fun j hj => g.np j (by omega)⟩ f (by omega)
      exact ⟨s', H', by omega, h3, h4, by rw [h5, c']⟩
    · rw [if_neg (by simp [h1])]
      exact ⟨s, H + 1, le_refl _, rfl, g, rfl⟩

theorem compHighKey_iff {n : Node K V} {k : K} : n.compHighKey k = true ↔ (hiB n.high).gtKey k := by
  cases h : n.high <;> simp [Node.compHighKey, h, hiB]

/-- Where an operation on `k` works: a page of level `i` responsible for `k` with room for one more entry. -/
structure Ready (cfg : Cfg K) (L : Nat) (s : St K V) (H : Nat) (gr : Nat → List Grp) (i : Nat) (k : K) (p : Ptr)
    (n : Node K V) (lo : Bd K) : Prop where
  good : Good cfg s H gr
  le : i ≤ H
  at' : At cfg s gr i p n lo
  lo : lo.leKey k
  hi : (hiB n.high).gtKey k
  room : Room cfg L n

theorem upd_upd (h : Heap K V) (p : Ptr) (a b : Node K V) : upd (upd h p a) p b = upd h p b := by
  funext x; by_cases e : x = p
  · subst e; simp
  · simp [upd_other _ e]

theorem upd_comm (h : Heap K V) {p q : Ptr} (hne : p ≠ q) (a b : Node K V) :
    upd (upd h p a) q b = upd (upd h q b) p a := by
  funext x
  by_cases e : x = q
  · subst e; rw [upd_same, upd_other _ hne.symm, upd_same]
  · by_cases e' : x = p
    · subst e'; rw [upd_same, upd_other _ e, upd_same]
    · rw [upd_other _ e, upd_other _ e', upd_other _ e', upd_other _ e]

theorem WF.fresh_none (w : WF cfg s H gr) {p : Ptr} (h : s.fresh ≤ p) : s.heap p = none := by
  by_contra h'
  exact absurd (lt_of_lt_of_le (w.fresh p h') h) (lt_irrefl _)

theorem Pml.rootSplit_ok (hr : Roomy cfg L) (g : Good cfg s H gr) {n : Node K V}
    (hat : At cfg s gr H s.root n .bot) (hh : n.high = none) (hbig : Big cfg n) (k : K) :
    ∃ p s' gr' n' lo, Pml.rootSplit cfg k s = .ok (p, s') ∧
      Ready cfg L s' (H + 1) gr' H k p n' lo ∧ contents s' gr' = contents s gr := by
  obtain ⟨l, rn, sep, e1, hs⟩ := split_ok hr hat.ok hbig s.fresh
  have hq := g.wf.fresh_none (le_refl s.fresh)
  have hp := g.wf.fresh_none (Nat.le_succ s.fresh)
  have hne : s.root ≠ s.fresh := by intro h; rw [← h, hat.heap] at hq; cases hq
  obtain ⟨rt, gr', r1, ⟨w', np', c', hroom, a1, a2⟩, -⟩ := g.wf.splitRoot hr g.np hat hq hp (by simp)
    (fresh' := s.fresh + 2) (Nat.le_add_right _ _) (Nat.lt_add_of_pos_right (by decide))
    (Nat.lt_succ_self _) hs
  unfold Pml.rootSplit
  rw [M.bind_ok (a := s.root) (s' := s) rfl, M.bind_ok (M.load_ok hat.heap), M.bind_ok (M.alloc_run s _),
    M.bind_ok (M.lift_of _ e1)]
  dsimp only
  rw [M.bind_ok (M.store_ok (n := n) (by dsimp only; rw [upd_other _ hne]; exact hat.heap))]
  dsimp only
  rw [M.bind_ok (M.store_ok (n := { isInner := n.isInner, recs := [] }) (by
    dsimp only; rw [upd_other _ hne.symm]; simp))]
  dsimp only
  rw [M.bind_ok (M.lift_of _ (by rw [hs.lhigh]; exact r1)), M.bind_ok (M.alloc_run _ _)]
  dsimp only
  rw [M.bind_ok (a := ()) (s' := ⟨upd (upd (upd s.heap s.root l) s.fresh rn) (s.fresh + 1) rt, s.fresh + 2,
    s.fresh + 1⟩)]
  swap
  · simp only [M.setRoot]
    rw [upd_comm _ hne, upd_upd]
    congr 4
    rw [upd_comm _ hne.symm]
  have hroot := c'
  by_cases hk : l.compHighKey k = true
  · refine ⟨s.root, _, gr', l, .bot, by simp [Pml.validSplitNode, hk], ⟨⟨w', np'⟩, by omega, a1, trivial,
      compHighKey_iff.1 hk, hs.roomL⟩, c'⟩
  · refine ⟨s.fresh, _, gr', rn, .key sep, by simp [Pml.validSplitNode, hk], ⟨⟨w', np'⟩, by omega, a2, ?_, ?_,
      hs.roomR⟩, c'⟩
    · rw [compHighKey_iff, hs.lhigh] at hk
      simpa [hiB] using hk
    · rw [hs.rhigh, hh]; trivial

theorem Pml.getRootForWrite_ok (hr : Roomy cfg L) (g : Good cfg s H gr) (k : K) {fuel : Nat} (hf : H + 1 ≤ fuel) :
    ∃ p s' H' gr' i n lo, i ≤ H ∧ Pml.getRootForWrite cfg fuel k s = .ok (p, s') ∧
      Ready cfg L s' H' gr' i k p n lo ∧ contents s' gr' = contents s gr := by
  obtain ⟨s1, H1, h1, h2, g1, c1⟩ := Pml.shrinkTree_ok g fuel hf
  obtain ⟨n, hat, hh⟩ := g1.wf.root_at g1.np
  obtain ⟨need, n', n1, n2, n3, n4, n5⟩ := Pml.needSplit_ok hr hat.ok
  obtain ⟨w2, c2, a2, -⟩ := g1.wf.samePage (le_refl _) hat n2 n3
  unfold Pml.getRootForWrite
  rw [M.bind_ok h2, M.bind_ok (a := s1.root) (s' := s1) rfl, M.bind_ok (M.load_ok hat.heap),
    M.bind_ok (M.lift_of _ n1)]
  dsimp only
  rw [M.bind_ok (M.store_ok hat.heap)]
  cases need
  · refine ⟨s1.root, _, H1, gr, H1, n', .bot, h1, rfl, ⟨⟨w2, g1.np⟩, le_refl _, a2, trivial, ?_, n5 rfl⟩, ?_⟩
    · rw [n3.frame.high, hh]; trivial
    · rw [c2, c1]
  · obtain ⟨p, s', gr', n'', lo, r1, r2, r3⟩ := Pml.rootSplit_ok hr ⟨w2, g1.np⟩ a2
      (by rw [n3.frame.high, hh]) (n4 rfl) k
    exact ⟨p, s', H1 + 1, gr', H1, n'', lo, h1, by simpa using r1, r2, by rw [r3, c2, c1]⟩

theorem toPtr_of {r : Rec K V} {c : Ptr} (h : r.pay = .ptr c) : r.toPtr = c := by
  simp [Rec.toPtr, h]

theorem Pml.split_ok (hr : Roomy cfg L) (g : Good cfg s H gr) {i : Nat} (hi : i < H)
    {u : Ptr} {un : Node K V} {lo : Bd K} (hatu : At cfg s gr (i + 1) u un lo) (hroom : Room cfg L un)
    {T D : List (Rec K V)} {rr : Rec K V} (hrecs : un.recs = T ++ rr :: D)
    {c : Ptr} (hc : rr.toPtr = c) {G1 G2 : List Grp} (hg : gr i = G1 ++ (c, []) :: G2)
    {cn : Node K V} {lo' : Bd K} (hatc : At cfg s gr i c cn lo')
    (hch : cn.high = hdKey D un.high) (hlo' : lo' = (if T = [] then lo else hiB rr.key)) (hbig : Big cfg cn) :
    ∃ q s' gr' l rn sep, Pml.split cfg c u T.length s = .ok (q, s') ∧ Good cfg s' H gr' ∧
      contents s' gr' = contents s gr ∧ At cfg s' gr' i c l lo' ∧ At cfg s' gr' i q rn (.key sep) ∧
      SplitPost cfg L (decide (i ≠ 0)) lo' cn q l rn sep := by
  obtain ⟨l, rn, sep, e1, hs⟩ := BT.split_ok hr hatc.ok hbig s.fresh
  have hq := g.wf.fresh_none (le_refl s.fresh)
  have hne : c ≠ s.fresh := by intro h; rw [← h, hatc.heap] at hq; cases hq
  have hneu : u ≠ s.fresh := by intro h; rw [← h, hatu.heap] at hq; cases hq
  have hcu : u ≠ c := by
    rintro rfl
    have := g.wf.disj i (by omega) (i + 1) (by omega) u hatc.mem hatu.mem
    omega
  obtain ⟨un', gr', r1, ⟨w', np', c', a1, a2⟩, -⟩ := g.wf.splitChild hr g.np hi hatu hrecs hc hg hatc hch hlo' hq
    (fresh' := s.fresh + 1) (Nat.le_succ _) (Nat.lt_succ_self _) hroom hs
  refine ⟨s.fresh, _, gr', l, rn, sep, ?_, ⟨w', np'⟩, c', a1, a2, hs⟩
  unfold Pml.split
  rw [M.bind_ok (M.load_ok hatc.heap), M.bind_ok (M.alloc_run s _), M.bind_ok (M.lift_of _ e1)]
  dsimp only
  rw [M.bind_ok (M.store_ok (n := cn) (by dsimp only; rw [upd_other _ hne]; exact hatc.heap))]
  dsimp only
  rw [M.bind_ok (M.store_ok (n := { isInner := cn.isInner, recs := [] }) (by
    dsimp only; rw [upd_other _ hne.symm]; simp))]
  dsimp only
  rw [M.bind_ok (M.load_ok (n := un) (by
    dsimp only; rw [upd_other _ hneu, upd_other _ hcu, upd_other _ hneu]; exact hatu.heap))]
  rw [M.bind_ok (M.lift_of _ (by rw [hs.lhigh]; exact r1))]
  rw [M.bind_ok (M.store_ok (n := un) (by
    dsimp only; rw [upd_other _ hneu, upd_other _ hcu, upd_other _ hneu]; exact hatu.heap))]
  simp only [M.pure_run]
  rw [upd_comm _ hne, upd_upd, upd_comm _ hne.symm]

theorem Pml.merge_ok (hr : Roomy cfg L) (hmf : L + cfg.maxPayLen + cfg.mlen ≤ cfg.minFree)
    (g : Good cfg s H gr) {i : Nat} (hi : i < H)
    {u : Ptr} {un : Node K V} {lo : Bd K} (hatu : At cfg s gr (i + 1) u un lo)
    {T D : List (Rec K V)} {rr : Rec K V} (hrecs : un.recs = T ++ rr :: D)
    {c : Ptr} (hc : rr.toPtr = c) {G1 G2 : List Grp} (hg : gr i = G1 ++ (c, []) :: G2)
    {cn : Node K V} {lo' : Bd K} (hatc : At cfg s gr i c cn lo')
    (hch : cn.high = hdKey D un.high) (hroom : Room cfg L cn) :
    ∃ s' gr' m, Pml.merge cfg c u T.length s = .ok ((), s') ∧ Good cfg s' H gr' ∧
      contents s' gr' = contents s gr ∧ At cfg s' gr' i c m lo' ∧ Room cfg L m ∧
      ∀ k, (hiB cn.high).gtKey k → (hiB m.high).gtKey k := by
  unfold Pml.merge
  rw [M.bind_ok (M.load_ok hatu.heap), M.bind_ok (M.load_ok hatc.heap)]
  cases D with
  | nil =>
    rw [if_pos (by simp [Node.rc, hrecs])]
    exact ⟨s, gr, cn, rfl, g, rfl, hatc, hroom, fun k h => h⟩
  | cons d D =>
    rw [if_neg (by simp [Node.rc, hrecs])]
    obtain ⟨q, hq⟩ := hatu.okS.inner.ptrs d (by simp [hrecs])
    have hq' := toPtr_of hq
    have hget : un.getChild (T.length + 1) = .ok q := by
      obtain ⟨a, b, e⟩ := d
      simp only at hq
      subst hq
      simp [Node.getChild, hrecs]
    rw [M.bind_ok (M.lift_of _ hget)]
    obtain ⟨G1', run, G2', lo2, f1, f2, f3, f4⟩ := g.wf.follow hi hatu (T := T ++ [rr]) (r := d) (D := D)
      (by rw [hrecs]; simp)
    rw [hq'] at f1
    obtain ⟨qn, lq, hatq⟩ := g.wf.at_of_mem (i := i) (by omega) (p := q) (by rw [f1]; simp)
    rw [M.bind_ok (M.load_ok hatq.heap)]
    by_cases hcan : cn.canMerge cfg qn = true
    · rw [if_pos hcan]
      obtain ⟨m, un', gr', m1, m2, m3, m4, m5, m6, m7, ⟨w', np', c', a'⟩, -⟩ := g.wf.mergeChild (L := L) hr g.np hi hatu hrecs hc
        hq' hg hatc hch hatq.heap hcan
      refine ⟨_, gr', m, ?_, ⟨w', np'⟩, c', a', m7.room hmf, ?_⟩
      · rw [M.bind_ok (M.lift_of _ m1), M.bind_ok (M.store_ok hatc.heap), M.bind_ok (M.lift_of _ m2)]
        rw [M.bind_ok (M.store_ok (n := un) (by dsimp only; rw [upd_other _ m4]; exact hatu.heap))]
        dsimp only
        rw [M.free_ok (n := qn) (by dsimp only; rw [upd_other _ m5.symm, upd_other _ m3.symm]; exact hatq.heap)]
      · intro k hk
        rw [m7.high]
        have : lq = hiB cn.high := by
          rw [At.lo_endB g.wf (by omega) hatq (A := flat G1') (B := run ++ flat G2') (by rw [f1]; simp),
            ← f3.endB_eq, f4, if_neg (by simp), hch]
          rfl
        exact Bd.gtKey_of_lt' hk (Or.inr (this ▸ hatq.ok.lt))
    · rw [if_neg hcan]
      exact ⟨s, gr, cn, rfl, g, rfl, hatc, hroom, fun k h => h⟩

theorem Pml.descend_ok (hr : Roomy cfg L) (hmf : L + cfg.maxPayLen + cfg.mlen ≤ cfg.minFree) (k : K) :
    ∀ (i fuel : Nat), i + 1 ≤ fuel → ∀ (s : St K V) (gr : Nat → List Grp) (p : Ptr) (n : Node K V) (lo : Bd K),
      Ready cfg L s H gr i k p n lo →
    ∃ leaf s' gr' n' lo', Pml.descendForWrite cfg k fuel p s = .ok (leaf, s') ∧
      Ready cfg L s' H gr' 0 k leaf n' lo' ∧ contents s' gr' = contents s gr := by
  intro i
  induction i with
  | zero =>
    intro fuel hf s gr p n lo rd
    obtain ⟨f, rfl⟩ : ∃ f, fuel = f + 1 := ⟨fuel - 1, by omega⟩
    refine ⟨p, s, gr, n, lo, ?_, rd, rfl⟩
    unfold Pml.descendForWrite
    rw [M.bind_ok (M.load_ok rd.at'.heap)]
    simp [rd.at'.ok0.kind]
  | succ i ih =>
    intro fuel hf s gr p n lo rd
    obtain ⟨f, rfl⟩ : ∃ f, fuel = f + 1 := ⟨fuel - 1, by omega⟩
    have hi : i < H := rd.le
    have w := rd.good.wf
    have np := rd.good.np
    obtain ⟨T, r, D, rc, c, h1, h2, h3, h4, h5, h6, h7, h8⟩ := rd.at'.okS.search_inner k rd.hi
    obtain ⟨G1, G2, cn, lo', g1, g2, g3, g4, g5, g6⟩ := w.child np hi rd.at' rd.lo h1 h7 h6
    have hc := toPtr_of h3
    rw [hc] at g1 g2
    obtain ⟨need, cn1, n1, n2, n3, n4, n5⟩ := Pml.needSplit_ok hr g2.ok
    obtain ⟨w1, c1, a1, a1'⟩ := w.samePage (by omega) g2 n2 n3
    have hpc : p ≠ c := by
      rintro rfl
      have := w.disj i (by omega) (i + 1) (by omega) p g2.mem rd.at'.mem
      omega
    have hatp1 := a1' (i + 1) (by omega) p n lo hpc rd.at'
    unfold Pml.descendForWrite
    rw [M.bind_ok (M.load_ok rd.at'.heap)]
    rw [if_pos rd.at'.okS.kind]
    rw [M.bind_ok (M.lift_of _ h2)]
    dsimp only
    rw [M.bind_ok (M.lift_of _ h4), M.bind_ok (M.load_ok g2.heap), M.bind_ok (M.lift_of _ n1)]
    dsimp only
    rw [M.bind_ok (M.store_ok g2.heap)]
    cases need
    · -- no split
      rw [if_neg (by simp)]
      obtain ⟨need2, cn2, m1, m2, m3, m4⟩ := Pml.needMerge_ok hr a1.ok (n5 rfl)
      obtain ⟨w2, c2, a2, a2'⟩ := w1.samePage (by omega) a1 m2 m3
      have hatp2 := a2' (i + 1) (by omega) p n lo hpc hatp1
      rw [M.bind_ok (M.lift_of _ m1)]
      dsimp only
      rw [M.bind_ok (M.store_ok a1.heap)]
      have hhigh2 : cn2.high = hdKey D n.high := by rw [m3.frame.high, n3.frame.high, g3]
      cases need2
      · rw [if_neg (by simp)]
        obtain ⟨leaf, s', gr', n', lo'', q1, q2, q3⟩ := ih f (by omega) _ gr c cn2 lo'
          ⟨⟨w2, np⟩, by omega, a2, g4, by rw [hhigh2]; exact h6, m4⟩
        exact ⟨leaf, s', gr', n', lo'', q1, q2, by rw [q3, c2, c1]⟩
      · rw [if_pos rfl]
        obtain ⟨s3, gr3, cn3, e1, e2, e3, e4, e5, e6⟩ := Pml.merge_ok hr hmf ⟨w2, np⟩ hi hatp2 h1 hc g1 a2
          hhigh2 m4
        rw [M.bind_ok e1]
        obtain ⟨leaf, s', gr', n', lo'', q1, q2, q3⟩ := ih f (by omega) _ gr3 c cn3 lo'
          ⟨e2, by omega, e4, g4, e6 k (by rw [hhigh2]; exact h6), e5⟩
        exact ⟨leaf, s', gr', n', lo'', q1, q2, by rw [q3, e3, c2, c1]⟩
    · -- split
      rw [if_pos rfl]
      obtain ⟨q, s2, gr2, l, rn, sep, e1, e2, e3, e4, e5, e6⟩ := Pml.split_ok hr ⟨w1, np⟩ hi hatp1 rd.room h1 hc g1
        a1 (by rw [n3.frame.high, g3]) g6 (n4 rfl)
      rw [M.bind_ok e1, M.bind_ok (M.load_ok e4.heap)]
      by_cases hk : l.compHighKey k = true
      · rw [show Pml.validSplitNode c l k q = c by simp [Pml.validSplitNode, hk]]
        obtain ⟨leaf, s', gr', n', lo'', q1, q2, q3⟩ := ih f (by omega) _ gr2 c l lo'
          ⟨e2, by omega, e4, g4, compHighKey_iff.1 hk, e6.roomL⟩
        exact ⟨leaf, s', gr', n', lo'', q1, q2, by rw [q3, e3, c1]⟩
      · rw [show Pml.validSplitNode c l k q = q by simp [Pml.validSplitNode, hk]]
        obtain ⟨leaf, s', gr', n', lo'', q1, q2, q3⟩ := ih f (by omega) _ gr2 q rn (.key sep)
          ⟨e2, by omega, e5, by rw [compHighKey_iff, e6.lhigh] at hk; simpa [hiB] using hk,
            by rw [e6.rhigh, n3.frame.high]; exact g5, e6.roomR⟩
        exact ⟨leaf, s', gr', n', lo'', q1, q2, by rw [q3, e3, c1]⟩

theorem Pml.searchLeafForWrite_ok (hr : Roomy cfg L) (hmf : L + cfg.maxPayLen + cfg.mlen ≤ cfg.minFree)
    (g : Good cfg s H gr) (k : K) {fuel : Nat} (hf : H + 1 ≤ fuel) :
    ∃ leaf s' H' gr' n lo, Pml.searchLeafForWrite cfg fuel k s = .ok (leaf, s') ∧
      Ready cfg L s' H' gr' 0 k leaf n lo ∧ contents s' gr' = contents s gr := by
  obtain ⟨p, s1, H1, gr1, i, n1, lo1, h1, h2, h3, h4⟩ := Pml.getRootForWrite_ok hr g k hf
  obtain ⟨leaf, s', gr', n', lo', e1, e2, e3⟩ := Pml.descend_ok hr hmf k i fuel (by omega) s1 gr1 p n1 lo1 h3
  refine ⟨leaf, s', H1, gr', n', lo', ?_, e2, by rw [e3, h4]⟩
  unfold Pml.searchLeafForWrite
  rw [M.bind_ok h2]
  exact e1

/-- Writing back the leaf. -/
theorem Ready.commit {k : K} {p : Ptr} {n n' : Node K V} {lo : Bd K} {A B : List (K × V)} {C : Option V}
    (rd : Ready cfg L s H gr 0 k p n lo) (ha : Around k (pairs n.recs) A C B)
    (hok : NodeOk cfg false lo n') (hf : SameFrame n n') :
    Good cfg { s with heap := upd s.heap p n' } H gr ∧ mapOf (contents s gr) k = C ∧
    ∀ C', Around k (pairs n'.recs) A C' B →
      mapOf (contents { s with heap := upd s.heap p n' } gr) = Spec.set (mapOf (contents s gr)) k C' := by
  obtain ⟨A', B', h1, h2⟩ := rd.good.wf.around rd.at' rd.lo rd.hi ha
  refine ⟨⟨rd.good.wf.replacePage (Nat.zero_le _) rd.at' hok hf.next hf.high (by simp), rd.good.np⟩, h1.map, ?_⟩
  intro C' ha'
  exact h1.set (h2 n' C' ha')

theorem upd_self {h : Heap K V} {p : Ptr} {n : Node K V} (hp : h p = some n) : upd h p n = h := by
  funext x; by_cases e : x = p
  · subst e; rw [upd_same, hp]
  · rw [upd_other _ e]

theorem Pml.write_ok (hr : Roomy cfg L) (hmf : L + cfg.maxPayLen + cfg.mlen ≤ cfg.minFree)
    (g : Good cfg s H gr) (k : K) (v : V) {fuel : Nat} (hf : H + 1 ≤ fuel) :
    ∃ s' H' gr', Pml.write cfg fuel k v s = .ok (.success, s') ∧ Good cfg s' H' gr' ∧
      mapOf (contents s' gr') = Spec.set (mapOf (contents s gr)) k (some v) := by
  obtain ⟨leaf, s1, H1, gr1, n, lo, h1, rd, h3⟩ := Pml.searchLeafForWrite_ok hr hmf g k hf
  obtain ⟨n', A, C, B, e1, e2, e3, e4, e5⟩ := leafWrite_ok rd.at'.ok0 (rd.room.fitsOne_leaf hr k) rd.lo rd.hi v
  obtain ⟨g', -, c'⟩ := rd.commit e4 e2 e3
  refine ⟨_, H1, gr1, ?_, g', by rw [c' _ e5, h3]⟩
  unfold Pml.write
  rw [M.bind_ok h1, M.bind_ok (M.load_ok rd.at'.heap), M.bind_ok (M.lift_of _ e1),
    M.bind_ok (M.store_ok rd.at'.heap)]
  rfl

theorem Pml.insert_ok (hr : Roomy cfg L) (hmf : L + cfg.maxPayLen + cfg.mlen ≤ cfg.minFree)
    (g : Good cfg s H gr) (k : K) (v : V) {fuel : Nat} (hf : H + 1 ≤ fuel) :
    ∃ rc s' H' gr', Pml.insert cfg fuel k v s = .ok (rc, s') ∧ Good cfg s' H' gr' ∧
      ((mapOf (contents s gr) k = none ∧ rc = .success ∧
          mapOf (contents s' gr') = Spec.set (mapOf (contents s gr)) k (some v)) ∨
       (mapOf (contents s gr) k ≠ none ∧ rc = .keyExist ∧ mapOf (contents s' gr') = mapOf (contents s gr))) := by
  obtain ⟨leaf, s1, H1, gr1, n, lo, h1, rd, h3⟩ := Pml.searchLeafForWrite_ok hr hmf g k hf
  obtain ⟨n', rc, A, C, B, e1, e2, e3, e4, e5⟩ :=
    leafInsert_ok rd.at'.ok0 (rd.room.fitsOne_leaf hr k) rd.lo rd.hi v
  obtain ⟨g', hm, c'⟩ := rd.commit e4 e2 e3
  refine ⟨rc, _, H1, gr1, ?_, g', ?_⟩
  · unfold Pml.insert
    rw [M.bind_ok h1, M.bind_ok (M.load_ok rd.at'.heap), M.bind_ok (M.lift_of _ e1)]
    dsimp only
    rw [M.bind_ok (M.store_ok rd.at'.heap)]
    rfl
  · rw [← h3, hm]
    rcases e5 with ⟨x1, x2, x3⟩ | ⟨x1, x2, x3⟩
    · exact Or.inl ⟨x1, x2, c' _ x3⟩
    · subst x3
      rw [upd_self rd.at'.heap]
      exact Or.inr ⟨x1, x2, rfl⟩

theorem Pml.update_ok (hr : Roomy cfg L) (hmf : L + cfg.maxPayLen + cfg.mlen ≤ cfg.minFree)
    (g : Good cfg s H gr) (k : K) (v : V) {fuel : Nat} (hf : H + 1 ≤ fuel) :
    ∃ rc s' H' gr', Pml.update cfg fuel k v s = .ok (rc, s') ∧ Good cfg s' H' gr' ∧
      ((mapOf (contents s gr) k ≠ none ∧ rc = .success ∧
          mapOf (contents s' gr') = Spec.set (mapOf (contents s gr)) k (some v)) ∨
       (mapOf (contents s gr) k = none ∧ rc = .keyNotExist ∧ mapOf (contents s' gr') = mapOf (contents s gr))) := by
  obtain ⟨leaf, s1, H1, gr1, n, lo, h1, rd, h3⟩ := Pml.searchLeafForWrite_ok hr hmf g k hf
  obtain ⟨n', rc, A, C, B, e1, e2, e3, e4, e5⟩ := leafUpdate_ok rd.at'.ok0 k v
  obtain ⟨g', hm, c'⟩ := rd.commit e4 e2 e3
  refine ⟨rc, _, H1, gr1, ?_, g', ?_⟩
  · unfold Pml.update
    rw [M.bind_ok h1, M.bind_ok (M.load_ok rd.at'.heap), M.bind_ok (M.lift_of _ e1)]
    dsimp only
    rw [M.bind_ok (M.store_ok rd.at'.heap)]
    rfl
  · rw [← h3, hm]
    rcases e5 with ⟨x1, x2, x3⟩ | ⟨x1, x2, x3⟩
    · exact Or.inl ⟨x1, x2, c' _ x3⟩
    · subst x3
      rw [upd_self rd.at'.heap]
      exact Or.inr ⟨x1, x2, rfl⟩

theorem Pml.delete_ok (hr : Roomy cfg L) (hmf : L + cfg.maxPayLen + cfg.mlen ≤ cfg.minFree)
    (g : Good cfg s H gr) (k : K) {fuel : Nat} (hf : H + 1 ≤ fuel) :
    ∃ rc s' H' gr', Pml.delete cfg fuel k s = .ok (rc, s') ∧ Good cfg s' H' gr' ∧
      ((mapOf (contents s gr) k ≠ none ∧ rc = .success ∧
          mapOf (contents s' gr') = Spec.set (mapOf (contents s gr)) k none) ∨
       (mapOf (contents s gr) k = none ∧ rc = .keyNotExist ∧ mapOf (contents s' gr') = mapOf (contents s gr))) := by
  obtain ⟨leaf, s1, H1, gr1, n, lo, h1, rd, h3⟩ := Pml.searchLeafForWrite_ok hr hmf g k hf
  obtain ⟨n', rc, A, C, B, e1, e2, e3, e4, e5⟩ := leafDelete_ok rd.at'.ok0 k
  obtain ⟨g', hm, c'⟩ := rd.commit e4 e2 e3
  refine ⟨rc, _, H1, gr1, ?_, g', ?_⟩
  · unfold Pml.delete
    rw [M.bind_ok h1, M.bind_ok (M.load_ok rd.at'.heap), M.bind_ok (M.lift_of _ e1)]
    dsimp only
    rw [M.bind_ok (M.store_ok rd.at'.heap)]
    rfl
  · rw [← h3, hm]
    rcases e5 with ⟨x1, x2, x3⟩ | ⟨x1, x2, x3⟩
    · exact Or.inl ⟨x1, x2, c' _ x3⟩
    · subst x3
      rw [upd_self rd.at'.heap]
      exact Or.inr ⟨x1, x2, rfl⟩

theorem Pml.descendForRead_ok (g : Good cfg s H gr) (k : K) :
    ∀ (i fuel : Nat), i + 1 ≤ fuel → ∀ (p : Ptr) (n : Node K V) (lo : Bd K), i ≤ H →
      At cfg s gr i p n lo → lo.leKey k → (hiB n.high).gtKey k →
    ∃ leaf n' lo', Pml.descendForRead k fuel p s = .ok (leaf, s) ∧
      At cfg s gr 0 leaf n' lo' ∧ lo'.leKey k ∧ (hiB n'.high).gtKey k := by
  intro i
  induction i with
  | zero =>
    intro fuel hf p n lo _ hat hlo hhi
    obtain ⟨f, rfl⟩ : ∃ f, fuel = f + 1 := ⟨fuel - 1, by omega⟩
    refine ⟨p, n, lo, ?_, hat, hlo, hhi⟩
    unfold Pml.descendForRead
    rw [M.bind_ok (M.load_ok hat.heap)]
    simp [hat.ok0.kind]
  | succ i ih =>
    intro fuel hf p n lo hle hat hlo hhi
    obtain ⟨f, rfl⟩ : ∃ f, fuel = f + 1 := ⟨fuel - 1, by omega⟩
    obtain ⟨T, r, D, rc, c, h1, h2, h3, h4, h5, h6, h7, h8⟩ := hat.okS.search_inner k hhi
    obtain ⟨G1, G2, cn, lo', g1, g2, g3, g4, g5, g6⟩ := g.wf.child g.np (by omega) hat hlo h1 h7 h6
    rw [toPtr_of h3] at g2
    obtain ⟨leaf, n', lo'', q1, q2⟩ := ih f (by omega) c cn lo' (by omega) g2 g4 g5
    refine ⟨leaf, n', lo'', ?_, q2⟩
    unfold Pml.descendForRead
    rw [M.bind_ok (M.load_ok hat.heap)]
    rw [if_pos hat.okS.kind, M.bind_ok (M.lift_of _ h2)]
    dsimp only
    rw [M.bind_ok (M.lift_of _ h4)]
    exact q1

theorem Pml.read_ok (g : Good cfg s H gr) (k : K) {fuel : Nat} (hf : H + 1 ≤ fuel) :
    Pml.read fuel k s = .ok (mapOf (contents s gr) k, s) := by
  obtain ⟨n, hat, hh⟩ := g.wf.root_at g.np
  obtain ⟨leaf, n', lo', q1, q2, q3, q4⟩ := Pml.descendForRead_ok g k H fuel hf s.root n .bot (le_refl _) hat
    trivial (by rw [hh]; trivial)
  obtain ⟨A, C, B, a1, a2⟩ := leafRead_ok q2.ok0 k
  obtain ⟨A', B', h1, -⟩ := g.wf.around q2 q3 q4 a1
  unfold Pml.read
  rw [M.bind_ok (a := s.root) (s' := s) rfl, M.bind_ok q1, M.bind_ok (M.load_ok q2.heap), h1.map]
  exact M.lift_of s a2

end wf
end BT
