import Verif.BlinkNav
import Verif.BlinkNode

/-!
# `CompleteSplit` of the B-link trees (single thread)
-/

set_option linter.unusedSectionVars false

namespace BT
variable {K V : Type} [LinearOrder K]

section wf
variable {cfg : Cfg K} {L : Nat} {s : St K V} {H : Nat} {gr : Nat → List Grp}

/-- A page of a level without pending pages is a group of its own. -/
theorem group_of_mem {G : List Grp} (h : ∀ g ∈ G, g.2 = []) {p : Ptr} (hp : p ∈ flat G) :
    ∃ G1 G2, G = G1 ++ (p, []) :: G2 := by
  obtain ⟨⟨c, run⟩, hg, hp'⟩ := List.mem_flatMap.1 hp
  have : run = [] := h _ hg
  subst this
  simp at hp'
  subst hp'
  obtain ⟨A, B, rfl⟩ := List.append_of_mem hg
  exact ⟨A, B, rfl⟩

theorem WF.ne_level (w : WF cfg s H gr) {i j : Nat} (hi : i ≤ H) (hj : j ≤ H) (hij : i ≠ j) {p q : Ptr}
    (hp : p ∈ flat (gr i)) (hq : q ∈ flat (gr j)) : p ≠ q := by
  rintro rfl
  exact hij (w.disj i hi j hj p hp hq)

theorem WF.ne_fresh (w : WF cfg s H gr) {i : Nat} (hi : i ≤ H) {p : Ptr} (hp : p ∈ flat (gr i)) : p ≠ s.fresh := by
  rintro rfl
  exact (w.alloc _).2 ⟨i, hi, hp⟩ (w.fresh_none (le_refl _))

theorem Blink.halfSplit_ok (hr : Roomy cfg L) (w : WF cfg s H gr) {i : Nat} (hi : i ≤ H) {p : Ptr} {n : Node K V}
    {lo : Bd K} (hat : At cfg s gr i p n lo) (hbig : Big cfg n) {G1 G2 : List Grp}
    (hg : gr i = G1 ++ (p, []) :: G2) :
    ∃ l rn sep, SplitPost cfg L (decide (i ≠ 0)) lo n s.fresh l rn sep ∧
      (let s' : St K V := ⟨upd (upd s.heap p l) s.fresh rn, s.fresh + 1, s.root⟩
       let gr' := Function.update gr i (G1 ++ (p, [s.fresh]) :: G2)
       Blink.halfSplit cfg p s = .ok (s.fresh, s') ∧ WF cfg s' H gr' ∧ contents s' gr' = contents s gr ∧
         At cfg s' gr' i p l lo ∧ At cfg s' gr' i s.fresh rn (.key sep)) := by
  obtain ⟨l, rn, sep, e1, hs⟩ := split_ok hr hat.ok hbig s.fresh
  have hq := w.fresh_none (le_refl s.fresh)
  have hne : p ≠ s.fresh := w.ne_fresh hi hat.mem
  obtain ⟨w1, c1⟩ := w.halfSplit (i := i) hi (g := (p, [])) (g' := (p, [s.fresh])) (R1 := []) (R2 := [])
    (p := p) hg rfl rfl hat hq (fresh' := s.fresh + 1) (Nat.le_succ _) (Nat.lt_succ_self _)
    (hs.pages rfl hat.ok.kind) hs.rhigh
    (fun h0 => hs.slots (by simp; omega)) (fun _ => hs.pairs)
  have hfl : flat (Function.update gr i (G1 ++ (p, [s.fresh]) :: G2) i) = flat G1 ++ p :: s.fresh :: flat G2 := by
    rw [Function.update_self]; simp
  refine ⟨l, rn, sep, hs, ?_, w1, c1, ?_, ?_⟩
  · unfold Blink.halfSplit
    rw [M.bind_ok (M.load_ok hat.heap), M.bind_ok (M.alloc_run s _), M.bind_ok (M.lift_of _ e1)]
    dsimp only
    rw [M.bind_ok (M.store_ok (n := n) (by dsimp only; rw [upd_other _ hne]; exact hat.heap))]
    dsimp only
    rw [M.bind_ok (M.store_ok (n := { isInner := n.isInner, recs := [] }) (by
      dsimp only; rw [upd_other _ hne.symm]; simp))]
    simp only [M.pure_run]
    rw [upd_comm _ hne, upd_upd, upd_comm _ hne.symm]
  · have := w1.at_mk (i := i) hi (n := l) hfl (by dsimp only; rw [upd_other _ hne]; simp)
    dsimp only at this
    rw [endB_congr (h := s.heap), ← At.lo_endB w hi hat (B := flat G2) (by rw [hg]; simp)] at this
    · exact this
    · intro x hx
      have hn := w.nodup hi
      rw [hg, flat_append, List.nodup_append] at hn
      have h2 : x ≠ s.fresh := w.ne_fresh hi (by rw [hg]; simp [hx])
      have h3 : x ≠ p := by
        rintro rfl
        exact hn.2.2 x hx x (by simp) rfl
      simp only [highOf, upd_other _ h2, upd_other _ h3]
  · have := w1.at_mk (i := i) hi (A := flat G1 ++ [p]) (B := flat G2) (p := s.fresh) (n := rn)
      (by rw [hfl]; simp) (by simp)
    dsimp only at this
    rw [endB_concat] at this
    have e5 : highOf (upd (upd s.heap p l) s.fresh rn) p = some sep := by
      simp only [highOf, upd_other _ hne]
      simp [hs.lhigh]
    rw [e5] at this
    exact this

theorem insertChild_eq {n n1 : Node K V} {r : Ptr} {sep : K} {pos : Nat}
    (h1 : Blink.cleanUpIfNeeded cfg n (cfg.klen sep + cfg.ptrLen) = .ok n1)
    (h2 : n1.searchRecord sep = .ok (.keyNotInserted, pos)) :
    Blink.insertChild cfg n r sep =
      if Blink.needSplit cfg n1 (cfg.klen sep + cfg.ptrLen) then .ok (.needSplit, n1)
      else (n1.placeChild cfg (some sep) r pos >>= fun n => .ok (.completed, n)) := by
  simp [Blink.insertChild, h1, h2]

/-- A level-`i` split that is not yet known to level `i + 1`. -/
structure Half (cfg : Cfg K) (s : St K V) (H : Nat) (gr : Nat → List Grp) (i : Nat) (l r : Ptr) (sep : K)
    (lo hi : Bd K) : Prop where
  wf : WF cfg s H gr
  le : i ≤ H
  pend : ∃ G1 G2, gr i = G1 ++ (l, [r]) :: G2 ∧ NoPend H (Function.update gr i (G1 ++ (l, []) :: (r, []) :: G2))
  left : ∃ ln, At cfg s gr i l ln lo ∧ ln.high = some sep
  right : ∃ rn, At cfg s gr i r rn (.key sep) ∧ hiB rn.high = hi

/-- `TryRootSplit` of the real root. -/
theorem Blink.tryRootSplit_ok (hr : Roomy cfg L) {l r : Ptr} {sep : K} {lo hi : Bd K}
    (h : Half cfg s H gr H l r sep lo hi) :
    ∃ s' gr', Blink.tryRootSplit cfg l r sep s = .ok (true, s') ∧ Good cfg s' (H + 1) gr' ∧
      contents s' gr' = contents s gr := by
  obtain ⟨G1, G2, hg, np⟩ := h.pend
  obtain ⟨run, hrun⟩ := h.wf.top
  have hh := hg
  rw [hrun] at hh
  cases G1 with
  | cons x G1 => simp at hh
  | nil =>
    simp at hh
    obtain ⟨⟨rfl, rfl⟩, rfl⟩ := hh
    obtain ⟨ln, hat, hhigh⟩ := h.left
    obtain ⟨rt, r1, r2, r3, r4, r5, r6⟩ := newRoot_ok (L := L) (V := V) hr sep s.root r
    obtain ⟨w2, c2⟩ := h.wf.growRoot (A := []) (B := []) (q := r) (p := s.fresh) (k := sep) (n := rt)
      (fresh' := s.fresh + 1) hrun (by rw [lastOf_nil, highOf_eq hat.heap, hhigh])
      (h.wf.fresh_none (le_refl _)) (Nat.le_succ _) (Nat.lt_succ_self _)
      ⟨by simpa using r2, fun _ => r4⟩ r3 r5
    refine ⟨_, _, ?_, ⟨w2, ?_⟩, c2⟩
    · unfold Blink.tryRootSplit
      rw [M.bind_ok (a := s.root) (s' := s) rfl, if_neg (by simp), M.bind_ok (M.lift_of _ r1),
        M.bind_ok (M.alloc_run _ _), M.bind_ok (a := ()) (s' := ⟨upd s.heap s.fresh rt, s.fresh + 1, s.fresh⟩) rfl]
      rfl
    · intro j hj g hg'
      by_cases h1 : j = H
      · subst h1
        rw [Function.update_self] at hg'
        simp at hg'
        rcases hg' with rfl | rfl <;> rfl
      · rw [Function.update_of_ne h1] at hg'
        by_cases h2 : j = H + 1
        · subst h2
          rw [Function.update_self] at hg'
          simp at hg'
          rw [hg']
        · rw [Function.update_of_ne h2] at hg'
          have := np j (by omega) g
          rw [Function.update_of_ne h1] at this
          exact this hg'

theorem Blink.completeSplit_ok (hr : Roomy cfg L) : ∀ (st : List Ptr) {s : St K V} {H : Nat} {gr : Nat → List Grp}
    {i : Nat} {l r : Ptr} {sep : K} {lo hi : Bd K}, Half cfg s H gr i l r sep lo hi →
    Path cfg s gr H (i + 1) lo hi st →
    ∃ N s' H' gr', (∀ fuel, N ≤ fuel → Blink.completeSplit cfg fuel st none l r sep s = .ok ((), s')) ∧
      Good cfg s' H' gr' ∧ contents s' gr' = contents s gr := by
  intro st
  induction st with
  | nil =>
    intro s H gr i l r sep lo hi h hp
    have : i = H := by have : i + 1 = H + 1 := hp; omega
    subst this
    obtain ⟨s', gr', e1, e2, e3⟩ := Blink.tryRootSplit_ok hr h
    refine ⟨1, s', i + 1, gr', ?_, e2, e3⟩
    intro fuel hf
    obtain ⟨f, rfl⟩ : ∃ f, fuel = f + 1 := ⟨fuel - 1, by omega⟩
    unfold Blink.completeSplit
    dsimp only
    rw [M.bind_ok e1]
    rfl
  | cons u st ih =>
    intro s H gr i l r sep lo hi h hp
    obtain ⟨hle, un, lo', hatu, hlo, hhi, hpath⟩ := hp
    obtain ⟨G1, G2, hg, np⟩ := h.pend
    obtain ⟨ln, hatl, hlh⟩ := h.left
    obtain ⟨rn, hatr, hrh⟩ := h.right
    have w := h.wf
    have hsep1 : lo'.leKey sep := by
      have := hatl.ok.lt
      rw [hlh] at this
      exact Bd.leKey_iff.2 (Or.inr (Bd.lt_of_le_lt hlo this))
    have hsep2 : (hiB un.high).gtKey sep := by
      have := hatr.ok.lt
      rw [hrh] at this
      exact Bd.gtKey_iff.2 (Bd.lt_of_lt_le this hhi)
    obtain ⟨un1, c1, c2, c3, c4, c5⟩ := cleanUpIfNeeded_ok hr hatu.okS (childLen_le hr sep)
    obtain ⟨w1, k1, a1, a1'⟩ := w.samePage hle hatu (by simpa using c2) c3
    have hlu : l ≠ u := w.ne_level h.le hle (by omega) hatl.mem hatu.mem
    have hru : r ≠ u := w.ne_level h.le hle (by omega) hatr.mem hatu.mem
    have hatl1 := a1' i h.le l ln lo hlu hatl
    obtain ⟨pos, p1, p2⟩ := w1.attachOk (c := l) (A := []) (B := []) (q := r) (G1 := G1) (G2 := G2) (sep := sep)
      (by omega : i < H) a1 hg (by rw [lastOf_nil, highOf_eq hatl1.heap, hlh]) hsep1
      (by rw [c3.frame.high]; exact hsep2)
    have hic := insertChild_eq (r := r) c1 p1
    by_cases hns : Blink.needSplit cfg un1 (cfg.klen sep + cfg.ptrLen) = true
    · -- the parent is split, too
      rw [if_pos hns] at hic
      have npu : ∀ g ∈ gr (i + 1), g.2 = [] := by
        intro g hg'
        have := np (i + 1) hle g
        rw [Function.update_of_ne (by omega)] at this
        exact this hg'
      obtain ⟨U1, U2, hgu⟩ := group_of_mem npu hatu.mem
      obtain ⟨ul, ur, sep', hs, d1, d2, d3, d4, d5⟩ := Blink.halfSplit_ok hr w1 hle a1 (c4 hns) hgu
      dsimp only at d1 d2 d3 d4 d5 hs
      have hqu : u ≠ s.fresh := w.ne_fresh hle hatu.mem
      have hlq : l ≠ s.fresh := w.ne_fresh h.le hatl.mem
      -- the half responsible for the separator
      obtain ⟨t, tn, lot, ht, hatt, hlt, hht, hrt, htsep⟩ : ∃ t tn lot,
          Pml.validSplitNode u ul sep s.fresh = t ∧
          At cfg ⟨upd (upd (upd s.heap u un1) u ul) s.fresh ur, s.fresh + 1, s.root⟩
            (Function.update gr (i + 1) (U1 ++ (u, [s.fresh]) :: U2)) (i + 1) t tn lot ∧
          lot.leKey sep ∧ (hiB tn.high).gtKey sep ∧ Room cfg L tn ∧
          ((t = u ∧ tn = ul ∧ tn.high = some sep') ∨ (t = s.fresh ∧ tn = ur ∧ tn.low = some sep')) := by
        by_cases hk : ul.compHighKey sep = true
        · exact ⟨u, ul, lo', by simp [Pml.validSplitNode, hk], d4, hsep1, compHighKey_iff.1 hk, hs.roomL,
            Or.inl ⟨rfl, rfl, hs.lhigh⟩⟩
        · refine ⟨s.fresh, ur, .key sep', by simp [Pml.validSplitNode, hk], d5, ?_, ?_, hs.roomR,
            Or.inr ⟨rfl, rfl, hs.rlow⟩⟩
          · rw [compHighKey_iff, hs.lhigh] at hk
            simpa [hiB] using hk
          · rw [hs.rhigh, c3.frame.high]; exact hsep2
      have hgi : (Function.update gr (i + 1) (U1 ++ (u, [s.fresh]) :: U2)) i = G1 ++ (l, [] ++ r :: []) :: G2 := by
        rw [Function.update_of_ne (by omega)]; exact hg
      have hhl : highOf (upd (upd (upd s.heap u un1) u ul) s.fresh ur) (lastOf (l, [])) = some sep := by
        rw [lastOf_nil, highOf_eq (n := ln), hlh]
        rw [upd_other _ hlq, upd_other _ hlu, upd_other _ hlu]; exact hatl.heap
      obtain ⟨pos', q1, q2⟩ := d2.attachOk (by omega : i < H) hatt hgi hhl hlt hht
      obtain ⟨e1, e2⟩ := cleanUpIfNeeded_room hr hrt (childLen_le hr sep)
      obtain ⟨tn', f1, f2, f3, f4, f5⟩ := q2 (hrt.fitsOne_inner hr sep)
      have hic2 := insertChild_eq (r := r) e1 q1
      rw [e2, if_neg (by simp), f1] at hic2
      simp only [Res.ok_bind] at hic2
      have htu : t = u ∨ t = s.fresh := by rcases htsep with ⟨x, -⟩ | ⟨x, -⟩ <;> simp [x]
      -- the state after the second insertion
      obtain ⟨s3, hs3⟩ : ∃ s3 : St K V, s3 =
        ⟨upd (upd (upd (upd s.heap u un1) u ul) s.fresh ur) t tn', s.fresh + 1, s.root⟩ := ⟨_, rfl⟩
      obtain ⟨gr3, hgr3⟩ : ∃ gr3, gr3 = Function.update (Function.update gr (i + 1) (U1 ++ (u, [s.fresh]) :: U2)) i
        (G1 ++ (l, []) :: (r, []) :: G2) := ⟨_, rfl⟩
      have w3 : WF cfg s3 H gr3 := by rw [hs3, hgr3]; exact f4
      have k3 : contents s3 gr3 = contents s gr := by rw [hs3, hgr3, f5, d3, k1]
      have hgr3' : gr3 (i + 1) = U1 ++ (u, [s.fresh]) :: U2 := by
        rw [hgr3, Function.update_of_ne (by omega), Function.update_self]
      have hsepk : (Blink.separatorKey (decide (t = u)) tn' : M K V K) s3 = .ok (sep', s3) := by
        rcases htsep with ⟨x1, x2, x3⟩ | ⟨x1, x2, x3⟩
        · simp [Blink.separatorKey, x1, f3.high, x3]
        · have : s.fresh ≠ u := hqu.symm
          simp [Blink.separatorKey, x1, this, f3.low, x3]
      have hhalf : Half cfg s3 H gr3 (i + 1) u s.fresh sep' lo' (hiB un.high) := by
        have hat3 : ∀ {p : Ptr} {m : Node K V} {lom : Bd K},
            At cfg ⟨upd (upd (upd s.heap u un1) u ul) s.fresh ur, s.fresh + 1, s.root⟩
              (Function.update gr (i + 1) (U1 ++ (u, [s.fresh]) :: U2)) (i + 1) p m lom →
            ∃ m', At cfg s3 gr3 (i + 1) p m' lom ∧ m'.high = m.high := by
          intro p m lom hm
          have htr : ∀ m', s3.heap p = some m' → At cfg s3 gr3 (i + 1) p m' lom := by
            intro m' hm'
            refine hm.transfer w3 hle ?_ ?_ hm'
            · rw [hgr3, Function.update_of_ne (by omega)]
            · intro x _
              rw [hs3]
              exact highOf_upd hatt.heap f3.high x
          by_cases hpt : p = t
          · subst hpt
            have e : m = tn := by have := hm.heap; rw [hatt.heap] at this; cases this; rfl
            subst e
            exact ⟨tn', htr tn' (by rw [hs3]; simp), f3.high⟩
          · exact ⟨m, htr m (by rw [hs3]; dsimp only; rw [upd_other _ hpt]; exact hm.heap), rfl⟩
        refine ⟨w3, hle, ⟨U1, U2, hgr3', ?_⟩, ?_, ?_⟩
        · intro j hj g hg'
          by_cases hj1 : j = i + 1
          · subst hj1
            rw [Function.update_self] at hg'
            simp only [List.mem_append, List.mem_cons] at hg'
            rcases hg' with hg' | rfl | rfl | hg'
            · exact npu g (by rw [hgu]; simp [hg'])
            · rfl
            · rfl
            · exact npu g (by rw [hgu]; simp [hg'])
          · rw [Function.update_of_ne hj1, hgr3] at hg'
            apply np j hj g
            by_cases hji : j = i
            · subst hji
              rw [Function.update_self] at hg' ⊢
              exact hg'
            · rw [Function.update_of_ne hji, Function.update_of_ne hj1] at hg'
              rw [Function.update_of_ne hji]
              exact hg'
        · obtain ⟨m', x1, x2⟩ := hat3 d4
          exact ⟨m', x1, by rw [x2, hs.lhigh]⟩
        · obtain ⟨m', x1, x2⟩ := hat3 d5
          exact ⟨m', x1, by rw [x2, hs.rhigh, c3.frame.high]⟩
      have hpath3 : Path cfg s3 gr3 H (i + 1 + 1) lo' (hiB un.high) st := by
        refine hpath.transfer w3 ?_
        intro j hj1 hj2
        have hjj : gr3 j = gr j := by
          rw [hgr3, Function.update_of_ne (by omega), Function.update_of_ne (by omega)]
        refine ⟨by rw [hjj], ?_⟩
        intro p hp
        have y1 : p ≠ u := w.ne_level hj2 hle (by omega) hp hatu.mem
        have y2 : p ≠ s.fresh := w.ne_fresh hj2 hp
        have y3 : p ≠ t := by rcases htu with rfl | rfl <;> assumption
        rw [hs3]
        dsimp only
        rw [upd_other _ y3, upd_other _ y2, upd_other _ y1, upd_other _ y1]
      obtain ⟨N, s', H', gr', z1, z2, z3⟩ := ih hhalf hpath3
      refine ⟨N + 1, s', H', gr', ?_, z2, by rw [z3, k3]⟩
      intro fuel hf
      obtain ⟨f, rfl⟩ : ∃ f, fuel = f + 1 := ⟨fuel - 1, by omega⟩
      unfold Blink.completeSplit
      dsimp only
      rw [Option.getD_none, M.bind_ok (checkKeyRange_ok hatu.heap hatu.ok.notRemoved hsep2 (by omega)),
        M.bind_ok (M.load_ok hatu.heap), M.bind_ok (M.lift_of _ hic)]
      dsimp only
      rw [M.bind_ok (M.store_ok hatu.heap), if_neg (by simp), if_pos rfl, M.bind_ok d1, M.bind_ok (M.load_ok d4.heap)]
      rw [ht, M.bind_ok (M.load_ok hatt.heap), M.bind_ok (M.lift_of _ hic2)]
      dsimp only
      rw [M.bind_ok (M.store_ok hatt.heap), ← hs3, M.bind_ok hsepk]
      exact z1 f (by omega)
    · -- the parent has room
      simp only [Bool.not_eq_true] at hns
      rw [hns, if_neg (by simp)] at hic
      obtain ⟨un', f1, f2, f3, f4, f5⟩ := p2 (c5 hns)
      rw [f1] at hic
      simp only [Res.ok_bind] at hic
      dsimp only at f4 f5
      rw [upd_upd] at f4 f5
      refine ⟨1, _, H, _, ?_, ⟨f4, np⟩, by rw [f5, k1]⟩
      intro fuel hf
      obtain ⟨f, rfl⟩ : ∃ f, fuel = f + 1 := ⟨fuel - 1, by omega⟩
      unfold Blink.completeSplit
      dsimp only
      rw [Option.getD_none, M.bind_ok (checkKeyRange_ok hatu.heap hatu.ok.notRemoved hsep2 (by omega)),
        M.bind_ok (M.load_ok hatu.heap), M.bind_ok (M.lift_of _ hic)]
      dsimp only
      rw [M.bind_ok (M.store_ok hatu.heap), if_pos rfl]
      rfl

end wf
end BT
