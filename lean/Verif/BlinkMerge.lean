import Verif.BlinkSplit

/-!
# `Merge` of the B-link trees (single thread)
-/

set_option linter.unusedSectionVars false

namespace BT
variable {K V : Type} [LinearOrder K]

section wf
variable {cfg : Cfg K} {L : Nat} {s : St K V} {H : Nat} {gr : Nat → List Grp}

theorem getChild_zero {n : Node K V} {r : Rec K V} {rs : List (Rec K V)} (h : n.recs = r :: rs) {c : Ptr}
    (hc : r.pay = .ptr c) : n.getChild 0 = .ok r.toPtr := by
  obtain ⟨a, b, d⟩ := r
  simp only at hc
  subst hc
  simp [Node.getChild, h, Rec.toPtr]

theorem Blink.shrinkLoop_ok : ∀ (H : Nat) (s : St K V) (node : Ptr) (n : Node K V),
    Good cfg { s with root := node } (H + 1) gr → s.heap node = some n → n.rc = 1 →
    ∀ fuel, H + 1 ≤ fuel → ∃ s' H', Blink.shrinkLoop fuel node s = .ok ((), s') ∧ Good cfg s' H' gr ∧
      contents s' gr = contents s gr := by
  intro H
  induction H with
  | zero =>
    intro s node n g hn h1 fuel hf
    obtain ⟨f, rfl⟩ : ∃ f, fuel = f + 1 := ⟨fuel - 1, by omega⟩
    obtain ⟨n', hat, hh⟩ := g.wf.root_at g.np
    have e : n' = n := by have := hat.heap; dsimp only at this; rw [hn] at this; cases this; rfl
    subst e
    obtain ⟨r, hrec⟩ : ∃ r, n'.recs = [r] := List.length_eq_one_iff.1 h1
    obtain ⟨c, hc⟩ := hat.okS.inner.ptrs r (by simp [hrec])
    have htop : gr (0 + 1) = [(node, [])] := by
      obtain ⟨run, hrun⟩ := g.wf.top
      have : run = [] := g.np (0 + 1) (le_refl _) (node, run) (by rw [hrun]; simp)
      rw [hrun, this]
    obtain ⟨w', c'⟩ := g.wf.shrinkRoot (H := 0) htop hn hrec
    dsimp only at w' c'
    have g' : Good cfg ⟨del s.heap node, s.fresh, r.toPtr⟩ 0 gr := ⟨w', fun j hj => g.np j (by omega)⟩
    obtain ⟨cn, hatc, -⟩ := w'.root_at g'.np
    refine ⟨_, 0, ?_, g', c'⟩
    unfold Blink.shrinkLoop
    rw [M.bind_ok (M.load_ok hn), M.bind_ok (M.lift_of _ (getChild_zero hrec hc)), M.bind_ok (M.free_ok hn)]
    rw [M.bind_ok (M.load_ok (s := ⟨del s.heap node, s.fresh, s.root⟩) (p := r.toPtr) (n := cn) hatc.heap), if_neg (by simp [hatc.ok0.kind])]
    rfl
  | succ H ih =>
    intro s node n g hn h1 fuel hf
    obtain ⟨f, rfl⟩ : ∃ f, fuel = f + 1 := ⟨fuel - 1, by omega⟩
    obtain ⟨n', hat, hh⟩ := g.wf.root_at g.np
    have e : n' = n := by have := hat.heap; dsimp only at this; rw [hn] at this; cases this; rfl
    subst e
    obtain ⟨r, hrec⟩ : ∃ r, n'.recs = [r] := List.length_eq_one_iff.1 h1
    obtain ⟨c, hc⟩ := hat.okS.inner.ptrs r (by simp [hrec])
    have htop : gr (H + 1 + 1) = [(node, [])] := by
      obtain ⟨run, hrun⟩ := g.wf.top
      have : run = [] := g.np (H + 1 + 1) (le_refl _) (node, run) (by rw [hrun]; simp)
      rw [hrun, this]
    obtain ⟨w', c'⟩ := g.wf.shrinkRoot (H := H + 1) htop hn hrec
    dsimp only at w' c'
    have g' : Good cfg ⟨del s.heap node, s.fresh, r.toPtr⟩ (H + 1) gr := ⟨w', fun j hj => g.np j (by omega)⟩
    obtain ⟨cn, hatc, -⟩ := w'.root_at g'.np
    unfold Blink.shrinkLoop
    rw [M.bind_ok (M.load_ok hn), M.bind_ok (M.lift_of _ (getChild_zero hrec hc)), M.bind_ok (M.free_ok hn)]
    rw [M.bind_ok (M.load_ok (s := ⟨del s.heap node, s.fresh, s.root⟩) (p := r.toPtr) (n := cn) hatc.heap)]
    by_cases h2 : cn.rc = 1 ∧ cn.isInner = true
    · rw [if_pos h2]
      obtain ⟨s', H', q1, q2, q3⟩ := ih ⟨del s.heap node, s.fresh, s.root⟩ r.toPtr cn g' hatc.heap h2.1 f (by omega)
      exact ⟨s', H', q1, q2, by rw [q3]; exact c'⟩
    · rw [if_neg h2]
      exact ⟨_, H + 1, rfl, g', c'⟩

theorem Blink.tryShrinkTree_ok (g : Good cfg s (H + 1) gr) {fuel : Nat} (hf : H + 1 ≤ fuel) :
    ∃ s' H', Blink.tryShrinkTree fuel s.root s = .ok ((), s') ∧ Good cfg s' H' gr ∧
      contents s' gr = contents s gr := by
  obtain ⟨n, hat, hh⟩ := g.wf.root_at g.np
  unfold Blink.tryShrinkTree
  rw [M.bind_ok (a := s.root) (s' := s) rfl, M.bind_ok (M.load_ok hat.heap)]
  by_cases h1 : n.rc = 1
  · rw [if_pos ⟨rfl, h1⟩]
    exact Blink.shrinkLoop_ok H s s.root n g hat.heap h1 fuel hf
  · rw [if_neg (by simp [h1])]
    exact ⟨s, H + 1, rfl, g, rfl⟩

/-- The right sibling of a page. -/
theorem At.next (hb : cfg.blink = true) {i : Nat} {l r : Ptr} {ln : Node K V} {lo : Bd K}
    (hat : At cfg s gr i l ln lo) (hn : ln.next = some r) :
    ∃ k rn, ln.high = some k ∧ At cfg s gr i r rn (.key k) := by
  obtain ⟨A, B, h1, h2, h3, h4, h5⟩ := hat
  have h6 := h4.2 (by simp [Node.hasNext, hb])
  rw [hn] at h6
  cases B with
  | nil => simp at h6
  | cons q B =>
    simp at h6
    subst h6
    obtain ⟨rn, g1, g2, g3⟩ := h5
    have hlt := g2.lt
    cases hh : ln.high with
    | none => rw [hh] at hlt; exact hlt.elim
    | some k =>
      rw [hh] at g2
      refine ⟨k, rn, rfl, A ++ [l], B, by simp [h1], g1, ?_, by simpa using g2, g3⟩
      rw [Chain.append]
      exact ⟨lo, by simpa using h3, ln, h2, by simpa using h4, by rw [hh]; rfl⟩

theorem NodeOk.second_le {b : Bool} {lo : Bd K} {n : Node K V} (h : NodeOk cfg b lo n) (hb : b = true)
    {T D : List (Rec K V)} {r0 rr : Rec K V} (hrecs : n.recs = T ++ r0 :: rr :: D) {k : K} (hk : rr.key = some k) :
    ∃ r1 k1, n.recs[1]? = some r1 ∧ r1.key = some k1 ∧ k1 ≤ k := by
  subst hb
  cases T with
  | nil => exact ⟨rr, k, by simp [hrecs], hk, le_refl _⟩
  | cons t T =>
    obtain ⟨r1, T', hT⟩ : ∃ r1 T', T ++ r0 :: rr :: D = r1 :: (T' ++ rr :: D) := by
      cases T with
      | nil => exact ⟨r0, [], rfl⟩
      | cons a T => exact ⟨a, T ++ [r0], by simp⟩
    have hs := h.inner.sorted
    rw [hrecs] at hs
    simp only [List.cons_append, List.tail_cons, hT] at hs
    obtain ⟨k1, hk1, -⟩ := h.inner.keyed r1 (by rw [hrecs]; simp [hT])
    refine ⟨r1, k1, by rw [hrecs]; simp [hT], hk1, le_of_lt ?_⟩
    exact (List.pairwise_cons.1 hs).1 rr (by simp) k1 hk1 k hk

/-- How `mergeLoop` continues above the merged page (abbreviation for the proof). -/
def Blink.afterMerge (cfg : Cfg K) (f : Nat) (st : List Ptr) (p : Ptr) : M K V Unit :=
  match st with
  | [] => Blink.tryShrinkTree (f + 1) p
  | _ :: _ => Blink.mergeLoop cfg f st none p

theorem Blink.mergeLoop_ok (hr : Roomy cfg L) (hb : cfg.blink = true) : ∀ (st : List Ptr) {s : St K V} {H : Nat}
    {gr : Nat → List Grp} {i : Nat} {l : Ptr} {ln : Node K V} {lo : Bd K}, Good cfg s H gr → i ≤ H →
    At cfg s gr i l ln lo → Path cfg s gr H (i + 1) lo (hiB ln.high) st →
    ∃ N s' H' gr', (∀ fuel, N ≤ fuel → Blink.mergeLoop cfg fuel st none l s = .ok ((), s')) ∧
      Good cfg s' H' gr' ∧ contents s' gr' = contents s gr := by
  intro st
  induction st with
  | nil =>
    intro s H gr i l ln lo g hi hat hp
    have : i = H := by have : i + 1 = H + 1 := hp; omega
    subst this
    refine ⟨1, s, i, gr, ?_, g, rfl⟩
    intro fuel hf
    obtain ⟨f, rfl⟩ : ∃ f, fuel = f + 1 := ⟨fuel - 1, by omega⟩
    unfold Blink.mergeLoop
    rw [M.bind_ok (M.load_ok hat.heap)]
    cases hn : ln.next with
    | none => rfl
    | some r =>
      exfalso
      obtain ⟨k, rn, h1, h2⟩ := hat.next hb hn
      obtain ⟨run, hrun⟩ := g.wf.top
      have : run = [] := g.np i (le_refl _) (s.root, run) (by rw [hrun]; simp)
      subst this
      have m1 := hat.mem
      have m2 := h2.mem
      rw [hrun] at m1 m2
      simp at m1 m2
      subst m1 m2
      have := (At.congr g.wf (le_refl _) hat h2).2
      have hlt := hat.ok.lt
      rw [h1, this] at hlt
      exact lt_irrefl _ hlt
  | cons u st ih =>
    intro s H gr i l ln lo g hi hat hp
    obtain ⟨hle, un, lo', hatu, hlo, hhi, hpath⟩ := hp
    have w := g.wf
    cases hn : ln.next with
    | none =>
      refine ⟨1, s, H, gr, ?_, g, rfl⟩
      intro fuel hf
      obtain ⟨f, rfl⟩ : ∃ f, fuel = f + 1 := ⟨fuel - 1, by omega⟩
      unfold Blink.mergeLoop
      rw [M.bind_ok (M.load_ok hat.heap), hn]
      rfl
    | some r =>
    obtain ⟨k, rn, hlh, hatr⟩ := hat.next hb hn
    rcases Bool.eq_false_or_eq_true (ln.canMerge cfg rn) with hcan | hcan
    swap
    · refine ⟨1, s, H, gr, ?_, g, rfl⟩
      intro fuel hf
      obtain ⟨f, rfl⟩ : ∃ f, fuel = f + 1 := ⟨fuel - 1, by omega⟩
      unfold Blink.mergeLoop
      rw [M.bind_ok (M.load_ok hat.heap), hn]
      dsimp only
      rw [M.bind_ok (M.load_ok hatr.heap), if_pos hcan]
      rfl
    -- the loop up to the deletion in the parent
    have hlok : lo'.lt (.key k) := by
      have := hat.ok.lt
      rw [hlh] at this
      exact Bd.lt_of_le_lt hlo this
    obtain ⟨p, pn, lop, hatp, hp1, hp2, hckr, hpu⟩ := hatu.moveRight hb (k := k) (Bd.leKey_iff.2 (Or.inr hlok))
    have hrun : ∀ f, (flat (gr (i + 1))).length ≤ f + 1 → ∀ rc pn', Blink.deleteChild cfg pn k = .ok (rc, pn') →
        Blink.mergeLoop cfg (f + 1) (u :: st) none l s =
          (if rc = .abortMerge then (return () : M K V Unit)
           else if rc = .needRetry then Blink.mergeLoop cfg f st (some p) l
           else do
              let ln ← M.lift (ln.merge cfg rn)
              M.store l ln
              M.free r
              if rc = .completed then return ()
              else Blink.afterMerge cfg f st p) { s with heap := upd s.heap p pn' } := by
      intro f hf rc pn' hd
      conv_lhs => unfold Blink.mergeLoop
      rw [M.bind_ok (M.load_ok hat.heap), hn]
      dsimp only
      rw [M.bind_ok (M.load_ok hatr.heap), if_neg (by simp [hcan]), hlh]
      dsimp only
      rw [M.bind_ok (hckr _ hf), M.bind_ok (M.load_ok hatp.heap), M.bind_ok (M.lift_of _ hd)]
      dsimp only
      rw [M.bind_ok (M.store_ok hatp.heap)]
      rfl
    obtain ⟨T, rr, D, rc, c, h1, h2, h3, h4, h5, h6, h7, h8⟩ := hatp.okS.search_inner k hp2
    have hrcov : (hiB rn.high).gtKey k := Bd.gtKey_iff.2 hatr.ok.lt
    have hrr := toPtr_of h3
    by_cases hT : T = []
    · -- the right child is the first of its parent
      have hdel : Blink.deleteChild cfg pn k = .ok (.abortMerge, pn) := by
        subst hT
        unfold Blink.deleteChild
        by_cases hrc : pn.rc ≤ 1
        · rw [if_pos hrc]
        · rw [if_neg hrc]
          cases D with
          | nil => simp [Node.rc, h1] at hrc
          | cons d D =>
            obtain ⟨a, ha, -⟩ := hatp.okS.inner.keyed d (by simp [h1])
            have hlt : k < a := h5 d (by simp) a ha
            simp [h1, ha, hlt]
      refine ⟨(flat (gr (i + 1))).length + 1, s, H, gr, ?_, g, rfl⟩
      intro fuel hf
      obtain ⟨f, rfl⟩ : ∃ f, fuel = f + 1 := ⟨fuel - 1, by omega⟩
      rw [hrun f (by omega) _ _ hdel, if_pos rfl, upd_self hatp.heap]
      rfl
    · -- the slot is that of the right child
      obtain ⟨C1, C2, cn, loc, e1, e2, e3, e4, e5, e6⟩ := w.child g.np (by omega : i < H) hatp hp1 h1 h7 h6
      have hcr : rr.toPtr = r := e2.unique hatr e4 e5 (by simp) hrcov
      rw [hcr] at e1 e2
      obtain ⟨rfl, hloc⟩ := At.congr w hi e2 hatr
      rw [e6, if_neg hT] at hloc
      have hkey : rr.key = some k := by
        cases hh : rr.key with
        | none => rw [hh] at hloc; simp [hiB] at hloc
        | some a => rw [hh] at hloc; simp [hiB] at hloc; rw [hloc]
      have hpeq : p = u ∧ lop = lo' := by
        rcases hpu with h | h
        · exact h
        · exfalso
          obtain ⟨a, ha, hlt, -⟩ := hatp.okS.inner.keyed rr (by
            rw [h1]
            cases T with
            | nil => exact absurd rfl hT
            | cons t T => simp)
          rw [hkey] at ha
          cases ha
          rw [hlh] at hhi
          exact Bd.lt_irrefl (Bd.lt_of_lt_le (Bd.lt_of_le_lt h hlt) hhi)
      obtain ⟨rfl, rfl⟩ := hpeq
      obtain ⟨rfl, -⟩ := At.congr w hle hatp hatu
      rcases List.eq_nil_or_concat' T with rfl | ⟨T', r0, rfl⟩
      · exact absurd rfl hT
      have hrecs : pn.recs = T' ++ r0 :: rr :: D := by rw [h1]; simp
      -- the slot before is that of the left child
      obtain ⟨L1, run, L2, lol, f1, f2, f3, f4⟩ := w.follow (by omega : i < H) hatp (T := T') (r := r0) (D := rr :: D)
        hrecs
      have : run = [] := g.np i hi (r0.toPtr, run) (by rw [f1]; simp)
      subst this
      have hl0 : r0.toPtr = l := by
        refine (w.chain i hi).high_inj (fun _ _ _ h => h.lt) (by rw [f1]; simp) hat.mem ?_
        rw [lastOf_nil] at f2
        rw [f2, highOf_eq hat.heap, hlh]
        simpa [hdKey] using hkey
      rw [hl0] at f1
      obtain ⟨m, un', gr', m1, m2, m3, m4, m5, m6, m7, ⟨w', np', c', a'⟩, hgr', -⟩ := w.mergeChild (L := L) hr g.np
        (by omega : i < H) hatp hrecs hl0 hcr f1 hat (by rw [hlh, hkey]) hatr.heap hcan
      -- the page of the parent
      have hatp' : At cfg ⟨del (upd (upd s.heap l m) p un') r, s.fresh, s.root⟩ gr' (i + 1) p un' lop := by
        refine hatp.transfer w' hle (by rw [hgr' _ (by omega)]) ?_ ?_
        · intro x hx
          have y1 : x ≠ l := w.ne_level hle hi (by omega) hx hat.mem
          have y2 : x ≠ r := w.ne_level hle hi (by omega) hx hatr.mem
          dsimp only
          simp only [highOf, del_other _ y2]
          by_cases hxp : x = p
          · subst hxp; simp [hatp.heap, m6.high]
          · rw [upd_other _ hxp, upd_other _ y1]
        · dsimp only; rw [del_other _ m5]; simp
      obtain ⟨need, un2, d1, d2, d3⟩ := blinkNeedMerge_ok hr hatp'.okS
      obtain ⟨w2, c2, a2, a2'⟩ := w'.samePage hle hatp' (by simpa using d2) d3
      dsimp only at w2 c2 a2
      have hheap : upd (del (upd (upd s.heap l m) p un') r) p un2 = del (upd (upd s.heap p un2) l m) r := by
        funext x
        by_cases x1 : x = p
        · subst x1
          rw [upd_same, del_other _ m5, upd_other _ m4, upd_same]
        · rw [upd_other _ x1]
          by_cases x2 : x = r
          · subst x2; simp
          · rw [del_other _ x2, del_other _ x2, upd_other _ x1]
            by_cases x3 : x = l
            · subst x3; simp
            · rw [upd_other _ x3, upd_other _ x3, upd_other _ x1]
      rw [hheap] at w2 c2 a2
      have hdel : Blink.deleteChild cfg pn k = .ok (if need then .needMerge else .completed, un2) := by
        obtain ⟨r1, k1, y1, y2, y3⟩ := hatp.okS.second_le rfl hrecs hkey
        have hrc : ¬ pn.rc ≤ 1 := by
          show ¬ pn.recs.length ≤ 1
          rw [hrecs]
          simp only [List.length_append, List.length_cons]
          omega
        have hs : pn.searchRecord k = .ok (.keyAlreadyInserted, T'.length + 1) := by
          rw [h2]
          rcases h8 with ⟨rfl, -⟩ | ⟨-, hne⟩
          · simp
          · obtain ⟨a, ha, hlt⟩ := hne hT
            rw [hkey] at ha
            cases ha
            exact (lt_irrefl _ hlt).elim
        unfold Blink.deleteChild
        rw [if_neg hrc, y1]
        dsimp only
        rw [y2]
        dsimp only
        rw [if_neg (not_lt.2 y3), hs]
        simp [m2, d1]
      have hstep : ∀ f, (flat (gr (i + 1))).length ≤ f + 1 →
          Blink.mergeLoop cfg (f + 1) (p :: st) none l s =
          (if (if need then NodeRC.needMerge else .completed) = NodeRC.completed then (return () : M K V Unit)
              else Blink.afterMerge cfg f st p)
            ⟨del (upd (upd s.heap p un2) l m) r, s.fresh, s.root⟩ := by
        intro f hf
        rw [hrun f hf _ _ hdel, if_neg (by cases need <;> simp), if_neg (by cases need <;> simp)]
        rw [M.bind_ok (M.lift_of _ m1), M.bind_ok (M.store_ok (n := ln) (by
          dsimp only; rw [upd_other _ m4.symm]; exact hat.heap))]
        dsimp only
        rw [M.bind_ok (M.free_ok (n := cn) (by
          dsimp only; rw [upd_other _ m3.symm, upd_other _ m5.symm]; exact hatr.heap))]
      cases need
      · refine ⟨(flat (gr (i + 1))).length + 1, _, H, gr', ?_, ⟨w2, np'⟩, by rw [c2, c']⟩
        intro fuel hf
        obtain ⟨f, rfl⟩ : ∃ f, fuel = f + 1 := ⟨fuel - 1, by omega⟩
        rw [hstep f (by omega)]
        rfl
      · cases st with
        | nil =>
          have hH : i + 1 = H := by have : i + 1 + 1 = H + 1 := hpath; omega
          subst hH
          have hpr : p = s.root := by
            obtain ⟨run, hrun'⟩ := w2.top
            have : run = [] := np' (i + 1) (le_refl _) (s.root, run) (by rw [hrun']; simp)
            subst this
            have := a2.mem
            rw [hrun'] at this
            simpa using this
          obtain ⟨s', H', z1, z2, z3⟩ := Blink.tryShrinkTree_ok ⟨w2, np'⟩ (le_refl (i + 1))
          dsimp only at z1
          refine ⟨(flat (gr (i + 1))).length + i + 2, s', H', gr', ?_, z2, by rw [z3, c2, c']⟩
          intro fuel hf
          obtain ⟨f, rfl⟩ : ∃ f, fuel = f + 1 := ⟨fuel - 1, by omega⟩
          rw [hstep f (by omega), if_neg (by simp)]
          exact (Blink.tryShrinkTree_mono p (i + 1) (f + 1) (by omega)).le _ _
            ((congrArg (fun q => Blink.tryShrinkTree (i + 1) q _) hpr).trans z1)
        | cons u2 st =>
          have hpath2 : Path cfg ⟨del (upd (upd s.heap p un2) l m) r, s.fresh, s.root⟩ gr' H (i + 1 + 1) lop
              (hiB un2.high) (u2 :: st) := by
            rw [d3.frame.high, m6.high]
            refine hpath.transfer w2 ?_
            intro j hj1 hj2
            refine ⟨by rw [hgr' j (by omega)], ?_⟩
            intro x hx
            have y1 : x ≠ l := w.ne_level hj2 hi (by omega) hx hat.mem
            have y2 : x ≠ r := w.ne_level hj2 hi (by omega) hx hatr.mem
            have y3 : x ≠ p := w.ne_level hj2 hle (by omega) hx hatp.mem
            dsimp only
            rw [del_other _ y2, upd_other _ y1, upd_other _ y3]
          obtain ⟨N, s', H', gr'', z1, z2, z3⟩ := ih ⟨w2, np'⟩ hle a2 hpath2
          refine ⟨N + (flat (gr (i + 1))).length + 1, s', H', gr'', ?_, z2, by rw [z3, c2, c']⟩
          intro fuel hf
          obtain ⟨f, rfl⟩ : ∃ f, fuel = f + 1 := ⟨fuel - 1, by omega⟩
          rw [hstep f (by omega), if_neg (by simp)]
          exact z1 f (by omega)

end wf
end BT
