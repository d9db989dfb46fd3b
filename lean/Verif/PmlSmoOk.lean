import Verif.PmlWriteOk

/-!
# PML's descent for writes: splits, merges and the way to the leaf
-/

set_option linter.unusedSectionVars false

namespace BT.PL
open Spec
variable {K V : Type} [LinearOrder K] {cfg : Cfg K} {t : Tid} {w w1 w2 w3 w' : World K V} {α : Type} {L : Nat}
  {S I X O S' I' X' O' : List Ptr} {p : Ptr} {Q : α → World K V → Prop}

/-- Splitting a page whose parent is locked: the new page is written and the old one locked. -/
theorem wp_splitPre {Q : Ptr → World K V → Prop} {i : Nat} {a l : Ptr} {n : Node K V} {lo : Bd K} (hR : Roomy cfg L) (hi : PInv cfg w)
    (hts : TS w t [] [l] [a] [a]) (hal : a ≠ l) (hpg : Pg cfg w i l n lo) (hbig : Big cfg n) (hA : Hi cfg [a] l i w)
    (hk : ∀ w2 r ln rn sep, PInv cfg w2 → Fr cfg t [a] w w2 → TS w2 t [] [] [l, a] [l, r, a] →
      SplitPost cfg L (decide (i ≠ 0)) lo n r ln rn sep → w2.mem.heap r = some rn → Pg cfg w2 i l n lo →
      w2.cells r = none → r ≠ 0 → r ≠ l → r ≠ a →
      WP cfg t (do Prog.store l ln; Prog.downgradeSIX l; Prog.lockSIX r; return r) Q w2) : WP cfg t (CPml.splitNode cfg l) Q w := by
  have hla : l ∉ [a] := by simpa using Ne.symm hal
  refine wp_load hts (by simp) (hts.heap hi (by simp) hla hpg) ?_
  intro w1 hi1 r1 hts1
  have hpg1 := r1.kp0.pg hts (by simp) hpg
  refine wp_alloc hts1 ?_
  intro w2 r hi2 k2 hts2 hnew hr0 e2 c2
  have hpg2 := k2.pg hts1 (by simp) hpg1
  have hrl : r ≠ l := by intro e; apply hnew; simp [e]
  have hra : r ≠ a := by intro e; apply hnew; simp [e]
  obtain ⟨ln, rn, sep, es, hs⟩ := split_ok hR hpg.at'.ok hbig r
  refine LLg.wp_lift es ?_
  refine wp_lockX_own hts2 (by simpa using hra) (by simp) (by simpa using hrl) ?_
  intro w3 hi3 k3 hts3
  have c3 := (k3.cells hts2 (p := r) (by simp)).trans c2
  have hpg3 := k3.pg hts2 (by simp) hpg2
  refine wp_store_plain hts3 (by simp) ?_
  intro w4 hi4 k4 hts4 e4 c4 _ _
  rw [c3] at c4
  have fr4 := Kp.fr k4 hts3 (l := [l, a]) (by
    intro q hq
    simp only [List.mem_cons, List.not_mem_nil, or_false] at hq
    rcases hq with rfl | rfl
    · exact ⟨by simp, hrl.symm⟩
    · exact ⟨by simp, hra.symm⟩)
  have hpg4 := fr4.pg (by simp) hpg3
  refine wp_unlockX_own (X' := [a]) hts4 (by simp) (by simp) c4 ?_ ?_ ?_
  · intro q hq hne
    simp only [List.mem_cons, List.not_mem_nil, or_false] at hq
    rcases hq with h | h
    · exact absurd h hne
    · exact Or.inl (by simp [h])
  · intro q
    simp only [List.mem_cons, List.not_mem_nil, or_false]
    constructor
    · rintro rfl; exact ⟨Or.inr rfl, hra.symm⟩
    · rintro ⟨h | h, h'⟩
      · exact absurd h h'
      · exact h
  intro w5 hi5 k5 hts5
  have hpg5 := k5.pg hts4 (by simp) hpg4
  have e5 := (k5.heap hts4 (p := r) (by simp)).trans e4
  have c5 := (k5.cells hts4 (p := r) (by simp)).trans c4
  have fr5 : Fr cfg t [a] w w5 :=
    ((r1.fr hts).sub (by simp)).trans (((k2.fr hts1).sub (by simp)).trans (((k3.fr hts2).sub (by simp)).trans
      ((fr4.sub (by simp)).trans ((k5.fr hts4).sub (by simp)))))
  refine wp_upgradeX (I' := []) hts5 (by simp) ?_ (by simp) (by simp) ?_ ?_
  · simp only [List.mem_cons, List.not_mem_nil, or_false, not_or]
    exact ⟨hrl.symm, hal.symm⟩
  · intro w6 hi6 r6 hts6
    refine ⟨i, (r6.kp0.pg hts5 (by simp) hpg5).lvl hi6, Below.mk hi6 hts6 (by simp) ?_ ?_⟩
    · intro q hq
      have fr6 : Fr cfg t [a] w w6 := fr5.trans ((r6.fr hts5).sub (by simp))
      obtain ⟨j, h1, h2⟩ := hA w6 hi6 fr6.keep q hq (by simp only [List.mem_singleton] at hq; rw [hq]; exact hal)
      exact ⟨j, h2, w6.pri_ux h1⟩
    · intro q hq
      simp only [List.mem_singleton] at hq
      subst hq
      exact ⟨i, (r6.kp0.pg hts5 (by simp) hpg5).lvl hi6, Or.inl (by omega)⟩
  intro w6 hi6 k6 hts6
  have hpg6 := k6.pg hts5 (by simp) hpg5
  have e6 := (k6.heap hts5 (p := r) (by simp)).trans e5
  have c6 := (k6.cells hts5 (p := r) (by simp)).trans c5
  have fr6 := fr5.trans ((k6.fr hts5).sub (by simp))
  exact hk w6 r ln rn sep hi6 fr6 hts6 hs e6 hpg6 c6 hr0 hrl hra

/-- Splitting the root: the pages are written, the tree does not know about it yet. -/
theorem wp_splitNode {Q : Ptr → World K V → Prop} {i : Nat} {l : Ptr} {n : Node K V} {lo : Bd K} (hR : Roomy cfg L) (hi : PInv cfg w)
    (hts : TS w t [] [l] [0] [0]) (hal : 0 ≠ l) (hpar : w.Par 0 l) (hpg : Pg cfg w i l n lo) (hbig : Big cfg n) (hA : Hi cfg [0] l i w)
    (hk : ∀ w2 r ln rn sep, PInv cfg w2 → Fr cfg t [0] w w2 → TS w2 t [] [r, l] [0] [l, r, 0] →
      SplitPost cfg L (decide (i ≠ 0)) lo n r ln rn sep → w2.mem.heap l = some ln → w2.mem.heap r = some rn → Pg cfg w2 i l n lo →
      w2.cells r = none → r ≠ 0 → r ≠ l → r ≠ 0 → Q r w2) : WP cfg t (CPml.splitNode cfg l) Q w := by
  refine wp_splitPre hR hi hts hal hpg hbig hA ?_
  intro w6 r ln rn sep hi6 fr6 hts6 hs e6 hpg6 c6 hr0 hrl hra
  refine wp_store_plain hts6 (by simp) ?_
  intro w7 hi7 k7 hts7 e7 c7 pg7 _
  have hpg7 := pg7 _ _ _ hpg6
  have fr7 := Kp.fr k7 hts6 (l := [r, 0]) (by
    intro q hq
    simp only [List.mem_cons, List.not_mem_nil, or_false] at hq
    rcases hq with rfl | rfl
    · exact ⟨by simp, hrl⟩
    · exact ⟨by simp, hal⟩)
  have er7 := ((fr7.keep r (by simp)).heap).trans e6
  have cr7 := ((fr7.keep r (by simp)).cells).trans c6
  have fra7 := fr6.trans (fr7.sub (by simp))
  refine wp_downgradeSIX_dirty (X' := [0]) hts7 (by simp) (by simp) (fra7.par (by simp) hpar) hal (by simp) ?_ ?_ ?_
  · intro q hq hne
    simp only [List.mem_cons, List.not_mem_nil, or_false] at hq
    rcases hq with h | h | h
    · exact absurd h hne
    · exact Or.inr (by rw [h]; exact cr7)
    · exact Or.inl (by simp [h])
  · intro q
    simp only [List.mem_cons, List.not_mem_nil, or_false]
    constructor
    · rintro rfl; exact ⟨Or.inr rfl, hal⟩
    · rintro ⟨h | h, h'⟩
      · exact absurd h h'
      · exact h
  intro w8 hi8 k8 hts8
  have hpg8 := k8.pg hts7 (by simp) hpg7
  have el8 := (k8.heap hts7 (p := l) (by simp)).trans e7
  have er8 := (k8.heap hts7 (p := r) (by simp)).trans er7
  have cr8 := (k8.cells hts7 (p := r) (by simp)).trans cr7
  refine wp_lockSIX_own hts8 (by simpa using hra) (by simp) (by simpa using hrl) ?_
  intro w9 hi9 k9 hts9
  refine hk w9 r ln rn sep hi9 ?_ hts9 hs ?_ ?_ ?_ ?_ hr0 hrl hra
  · exact fra7.trans (((k8.fr hts7).sub (by simp)).trans ((k9.fr hts8).sub (by simp)))
  · exact (k9.heap hts8 (p := l) (by simp)).trans el8
  · exact (k9.heap hts8 (p := r) (by simp)).trans er8
  · exact k9.pg hts8 (by simp) hpg8
  · exact (k9.cells hts8 (p := r) (by simp)).trans cr8

/-- Splitting a page below the root: the split takes effect when the old page is written. -/
theorem wp_splitChild {Q : Ptr → World K V → Prop} {i : Nat} {P c : Ptr} {un cn : Node K V} {lo lo' : Bd K} {T D : List (Rec K V)}
    {rr : Rec K V} (hR : Roomy cfg L) (hi : PInv cfg w) (hts : TS w t [] [c] [P] [P]) (heP : w.mem.heap P = some un)
    (hpgP : Pg cfg w (i + 1) P un lo) (hpgc : Pg cfg w i c cn lo') (hrecs : un.recs = T ++ rr :: D) (hpay : rr.pay = .ptr c)
    (hch : cn.high = hdKey D un.high) (hlo' : lo' = (if T = [] then lo else hiB rr.key)) (hroom : Room cfg L un) (hbig : Big cfg cn)
    (hk : ∀ w2 q ln rn sep un', PInv cfg w2 → (∀ op, Call t op w → Call t op w2) → TS w2 t [] [q, c] [P] [P] →
      SplitPost cfg L (decide (i ≠ 0)) lo' cn q ln rn sep → w2.mem.heap P = some un → un.placeChild cfg (some sep) q T.length = .ok un' →
      Pg cfg w2 (i + 1) P un' lo → w2.mem.heap c = some ln → Pg cfg w2 i c ln lo' → Pg cfg w2 i q rn (.key sep) → q ≠ c → Q q w2) :
    WP cfg t (CPml.splitNode cfg c) Q w := by
  have hPc : P ≠ c := hi.ne_of_lvl hpgP hpgc (by omega)
  have hP0 := hi.at_ne hpgP.at'
  have hcc := toPtr_of hpay
  refine wp_splitPre hR hi hts hPc hpgc hbig ?_ ?_
  · intro w' hi' hk' q hq _
    simp only [List.mem_singleton] at hq
    subst hq
    exact ⟨i + 1, Nat.lt_succ_self _, ((hk' q (by simp)).pg hpgP).lvl hi'⟩
  intro w2 q ln rn sep hi2 fr2 hts2 hs er2 hc2 cq2 hq0 hqc hqP
  have hP2 := fr2.pg (p := P) (by simp) hpgP
  have eP2 := ((fr2.keep P (by simp)).heap).trans heP
  obtain ⟨un', hun⟩ := split_place hR hi2 hP2 hc2 hrecs hcc hch hlo' cq2 hq0 (hi2.mine_lt (hts2.mine (by simp))) hroom hs
  refine wp_store_split hR hts2 (P := P) (q := q) (by simp) ?_ (by simp) (by simp [hqc, hqP]) (by simp) hP2 hc2 hrecs hcc hch hlo' cq2 hq0 hroom hs hun er2 ?_
  · intro x
    simp only [List.mem_cons, List.not_mem_nil, or_false]
    tauto
  intro w3 hi3 k3 hts3 eP3 hP3 hc3 hq3 ec3 par3 rsv3
  rw [eP2] at eP3
  refine wp_downgradeSIX' (p := c) (X' := [P]) (O' := [P]) hts3 (by simp) (by rw [ec3, hi3.at_cells hc3.at']) ?_ ?_ ?_ ?_
  · intro x hx hne
    simp only [List.mem_cons, List.not_mem_nil, or_false] at hx
    rcases hx with h | h
    · exact Or.inl (by simp [h])
    · exact absurd h hne
  · intro x
    simp only [List.mem_cons, List.not_mem_nil, or_false]
    constructor
    · rintro rfl; exact ⟨Or.inr rfl, hPc⟩
    · rintro ⟨h | h, h'⟩
      · exact absurd h h'
      · exact h
  · intro x
    simp only [List.mem_cons, List.not_mem_nil, or_false]
    constructor
    · rintro rfl; exact ⟨Or.inl rfl, hPc⟩
    · rintro ⟨h | h, h'⟩
      · exact h
      · exact absurd h h'
  intro w4 l4 hi4 r4 hi5 hts5
  have k5 : Kp0 cfg t w3 (w4.relock c l4 none) := kp_relock r4 _ _ _
  have hP5 := k5.pg hts3 (p := P) (by simp) hP3
  have hc5 := k5.pg hts3 (p := c) (by simp) hc3
  have par5 : (w4.relock c l4 none).Par P q := (par_congr (k5.cells hts3 (p := P) (by simp))).2 par3
  obtain ⟨rsv4, kq4⟩ := r4.rsv q rsv3
  have hq5 : Pg cfg (w4.relock c l4 none) i q rn (.key sep) := (kq4.trans (keep_relock w4 c l4 none q)).pg hq3
  have rsv5 : (w4.relock c l4 none).Rsv t q := by
    obtain ⟨a, a1, a2, a3, a4, a5⟩ := rsv4
    obtain rfl : a = P := hi4.par_unique a2 par5
    refine ⟨a, a1, a2, ?_, ?_, ?_⟩
    · rw [relock_lk, if_neg hPc]; exact a3
    · rw [relock_lk, if_neg hqc]; exact a4
    · rw [relock_lk, if_neg hqc]; exact a5
  have c5 : ∀ op, Call t op w → Call t op (w4.relock c l4 none) := fun op h => k5.call (Kp.call k3 (fr2.call op h))
  have eP5 := (k5.heap hts3 (p := P) (by simp)).trans eP3
  have ec5 := (k5.heap hts3 (p := c) (by simp)).trans ec3
  generalize w4.relock c l4 none = w5 at *
  refine wp_lockSIX' (p := q) hts5 (by simpa using hqc) (by simpa using hqP) (by simpa using hqP) (Or.inr ⟨P, Or.inr ⟨by simp, hP0⟩, par5⟩) ?_ ?_
  · intro w6 hi6 r6 hts6
    have hP6 := r6.kp0.pg hts5 (p := P) (by simp) hP5
    have hc6 := r6.kp0.pg hts5 (p := c) (by simp) hc5
    refine ⟨i, ((r6.rsv q rsv5).2.pg hq5).lvl hi6, Below.mk hi6 hts6 (by simp) ?_ ?_⟩
    · intro x hx
      simp only [List.mem_singleton] at hx
      subst hx
      exact ⟨_, hP6.lvl hi6, w6.pri_up' (Nat.lt_succ_self _)⟩
    · intro x hx
      simp only [List.mem_singleton] at hx
      subst hx
      exact ⟨_, hc6.lvl hi6, Or.inr ⟨P, hi6.par_of_at hP6.at' (placeChild_par hrecs hun).1 hpay, by simp⟩⟩
  intro w6 l6 hi6 r6 hi7 hts7 _
  have k7 : Kp0 cfg t w5 (w6.relock q l6 none) := kp_relock r6 _ _ _
  exact hk _ q ln rn sep un' hi7 (fun op h => k7.call (c5 op h)) hts7 hs ((k7.heap hts5 (p := P) (by simp)).trans eP5) hun
    (k7.pg hts5 (p := P) (by simp) hP5) ((k7.heap hts5 (p := c) (by simp)).trans ec5) (k7.pg hts5 (p := c) (by simp) hc5)
    (((r6.rsv q rsv5).2.trans (keep_relock w6 q l6 none q)).pg hq5) hqc

/-- The page a thread works on: it holds SIX, the page is responsible for `k` and has room. -/
structure Rdy (cfg : Cfg K) (L : Nat) (w : World K V) (k : K) (p : Ptr) : Prop where
  pg : ∃ i n lo, Pg cfg w i p n lo ∧ lo.leKey k ∧ (hiB n.high).gtKey k ∧ Room cfg L n

theorem Keep.rdy {k : K} (h : Keep cfg w w1 p) (hr : Rdy cfg L w k p) : Rdy cfg L w1 k p := by
  obtain ⟨i, n, lo, h1, h2⟩ := hr.pg
  exact ⟨i, n, lo, h.pg h1, h2⟩

theorem wp_validSplitNode {Q : Ptr → World K V → Prop} {i : Nat} {l r : Ptr} {n ln rn : Node K V} {lo : Bd K} {sep k : K} {Z : List Ptr}
    (hi : PInv cfg w) (hts : TS w t [] (l :: r :: Z) [] []) (hlr : l ≠ r) (hlZ : l ∉ Z) (hrZ : r ∉ Z)
    (hl : Pg cfg w i l ln lo) (hr : Pg cfg w i r rn (.key sep)) (hs : SplitPost cfg L (decide (i ≠ 0)) lo n r ln rn sep)
    (hlo : lo.leKey k) (hhi : (hiB n.high).gtKey k)
    (hk : ∀ w2 p, PInv cfg w2 → Fr cfg t Z w w2 → TS w2 t [] (p :: Z) [] [] → p ∉ Z →
      (∃ n' lo', Pg cfg w2 i p n' lo' ∧ lo'.leKey k ∧ (hiB n'.high).gtKey k ∧ Room cfg L n') → Q p w2) :
    WP cfg t (CPml.validSplitNode k l r) Q w := by
  refine wp_load hts (by simp) (hts.heap hi (by simp) (by simp) hl) ?_
  intro w1 hi1 r1 hts1
  have hl1 := r1.kp0.pg hts (by simp) hl
  have hr1 := r1.kp0.pg hts (by simp) hr
  by_cases hc : ln.compHighKey k = true
  · rw [if_pos hc]
    refine wp_unlockSIX (I' := l :: Z) hts1 (by simp) ?_ ?_
    · intro q
      simp only [List.mem_cons]
      constructor
      · rintro (rfl | h)
        · exact ⟨Or.inl rfl, hlr⟩
        · exact ⟨Or.inr (Or.inr h), fun e => hrZ (e ▸ h)⟩
      · rintro ⟨h | h | h, h'⟩
        · exact Or.inl h
        · exact absurd h h'
        · exact Or.inr h
    intro w2 hi2 k2 hts2
    refine hk w2 l hi2 ?_ hts2 hlZ ⟨ln, lo, k2.pg hts1 (by simp) hl1, hlo, compHighKey_iff.1 hc, hs.roomL⟩
    exact ((r1.fr hts).sub (fun q hq => by simp [hq])).trans ((k2.fr hts1).sub (fun q hq => by simp [hq]))
  · rw [if_neg hc]
    refine wp_unlockSIX (I' := r :: Z) hts1 (by simp) ?_ ?_
    · intro q
      simp only [List.mem_cons]
      constructor
      · rintro (rfl | h)
        · exact ⟨Or.inr (Or.inl rfl), hlr.symm⟩
        · exact ⟨Or.inr (Or.inr h), fun e => hlZ (e ▸ h)⟩
      · rintro ⟨h | h | h, h'⟩
        · exact absurd h h'
        · exact Or.inl h
        · exact Or.inr h
    intro w2 hi2 k2 hts2
    refine hk w2 r hi2 ?_ hts2 hrZ ⟨rn, .key sep, k2.pg hts1 (by simp) hr1, ?_, ?_, hs.roomR⟩
    · exact ((r1.fr hts).sub (fun q hq => by simp [hq])).trans ((k2.fr hts1).sub (fun q hq => by simp [hq]))
    · rw [compHighKey_iff, hs.lhigh] at hc
      simpa [hiB] using hc
    · rw [hs.rhigh]; exact hhi

theorem wp_rootSplit {Q : Ptr → World K V → Prop} {root : Ptr} {n : Node K V} (hR : Roomy cfg L) (k : K)
    (hts : TS w t [] [root, 0] [] []) (hroot : w.root = root) (hpg : Pg cfg w w.H root n .bot) (hi : PInv cfg w) (hh : n.high = none)
    (hbig : Big cfg n)
    (hk : ∀ w2 p, PInv cfg w2 → (∀ op, Call t op w → Call t op w2) → TS w2 t [] [p, 0] [] [] → p ≠ 0 → Rdy cfg L w2 k p → Q p w2) :
    WP cfg t (CPml.rootSplit cfg k) Q w := by
  have hr0 := hi.at_ne hpg.at'
  refine wp_upgrade0 hts hroot hr0 ?_
  intro w1 hi1 k1 hts1
  obtain ⟨er1, eh1⟩ := k1.root hts (by simp)
  rw [hroot] at er1
  have hpg1 := k1.pg hts (by simp) hpg
  rw [← eh1] at hpg1
  have e1 : w1.mem.heap 0 = some (treePage root) := by
    rw [k1.heap hts (by simp), hts.clean hi (p := 0) (by simp) (by simp) (by rw [cells0]; simp), cells0, hroot]
  refine wp_rootPtr hts1 (by simp) e1 ?_
  intro w2 hi2 r2 hts2
  obtain ⟨er2, eh2⟩ := r2.kp0.root hts1 (by simp)
  rw [er1] at er2
  have hpg2 := r2.kp0.pg hts1 (by simp) hpg1
  rw [← eh2] at hpg2
  refine LLg.wp_bind (wp_splitNode hR hi2 hts2 hr0.symm (by rw [par0_iff, er2]) hpg2 hbig ?_ ?_)
  · intro w' hi' hk' q hq _
    simp only [List.mem_singleton] at hq
    subst hq
    exact ⟨w'.H + 1, by rw [(hk' 0 (by simp)).top rfl]; omega, w'.lvl0⟩
  intro w3 r ln rn sep hi3 fr3 hts3 hs el3 er3 hpg3 cr3 hr0' hrl hra
  have eroot3 : w3.root = root := by
    have := (fr3.keep 0 (by simp)).cells
    rw [cells0, cells0, er2, Option.some.injEq] at this
    exact treePage_inj this
  have eh3 : w3.H = w2.H := (fr3.keep 0 (by simp)).top rfl
  rw [← eh3] at hpg3 hs
  refine wp_load hts3 (by simp) el3 ?_
  intro w4 hi4 r4 hts4
  obtain ⟨er4, eh4⟩ := r4.kp0.root hts3 (by simp)
  rw [eroot3] at er4
  have hpg4 := r4.kp0.pg hts3 (by simp) hpg3
  rw [← eh4] at hpg4 hs
  have el4 := (r4.kp0.heap hts3 (p := root) (by simp)).trans el3
  have err4 := (r4.kp0.heap hts3 (p := r) (by simp)).trans er3
  have cr4 := (r4.kp0.cells hts3 (p := r) (by simp)).trans cr3
  obtain ⟨rt, g1, -⟩ := newRoot_ok (L := L) (V := V) hR sep root r
  refine LLg.wp_lift (by rw [hs.lhigh]; exact g1) ?_
  refine wp_alloc hts4 ?_
  intro w5 nr hi5 k5 hts5 hnew hnr0 e5 c5
  obtain ⟨er5, eh5⟩ := k5.root hts4 (by simp)
  rw [er4] at er5
  have hpg5 := k5.pg hts4 (by simp) hpg4
  rw [← eh5] at hpg5 hs
  have el5 := (k5.heap hts4 (p := root) (by simp)).trans el4
  have err5 := (k5.heap hts4 (p := r) (by simp)).trans err4
  have cr5 := (k5.cells hts4 (p := r) (by simp)).trans cr4
  have hnr : nr ≠ r := by rintro rfl; apply hnew; simp
  refine wp_store_root hR hts5 (by simp) (c := root) (q := r) (r := nr) (n := n) (l := ln) (rn := rn) (rt := rt) (sep := sep) ?_ ?_ ?_ ?_ er5 hpg5 cr5 hr0' c5 hnr0 hnr
    hs g1 el5 err5 e5 ?_
  · intro x
    simp only [List.mem_cons, List.not_mem_nil, or_false]
    tauto
  · simpa using hr0
  · simpa using hr0'
  · simpa using hnr0
  intro w6 hi6 k6 hts6 e6 hl6 hrn6 el6 er6
  refine wp_downgradeSIX (X' := []) (O' := []) hts6 (by simp) e6 (by simp) (by simp) (by simp) ?_
  intro w7 hi7 k7 hts7
  have hl7 := k7.pg hts6 (by simp) hl6
  have hrn7 := k7.pg hts6 (by simp) hrn6
  refine wp_validSplitNode (Z := [0]) (k := k) (n := n) hi7 (hts7.congr ?_ (fun _ => Iff.rfl) (fun _ => Iff.rfl)) hrl.symm (by simpa using hr0) (by simpa using hr0')
    hl7 hrn7 hs trivial (by rw [hh]; trivial) ?_
  · intro q
    simp only [List.mem_cons, List.not_mem_nil, or_false]
    tauto
  intro w8 p hi8 fr8 hts8 hp0 hrd
  obtain ⟨n', lo', h1⟩ := hrd
  refine hk w8 p hi8 ?_ hts8 (by simpa using hp0) ⟨_, n', lo', h1⟩
  intro op hc
  exact fr8.call op (k7.call (Kp.call k6 (k5.call (r4.call (fr3.call op (r2.call (k1.call hc)))))))

theorem wp_getRootForWrite {Q : Ptr → World K V → Prop} (hR : Roomy cfg L) (fuel : Nat) (k : K) (hts : TS w t [] [] [] [])
    (hk : ∀ w2 p, PInv cfg w2 → (∀ op, Call t op w → Call t op w2) → TS w2 t [] [p] [] [] → Rdy cfg L w2 k p → Q p w2) :
    WP cfg t (CPml.getRootForWrite cfg fuel k) Q w := by
  refine wp_lockSIX hts (by simp) (by simp) (by simp) (Or.inl rfl) ?_ ?_
  · intro w1 hi1 _ hts1
    exact ⟨_, w1.lvl0, Below.mk hi1 hts1 (by simp) (by simp) (by simp)⟩
  intro w1 hi1 k1 hts1 e1
  rw [cells0] at e1
  refine wp_rootPtr hts1 (by simp) e1 ?_
  intro w2 hi2 r2 hts2
  obtain ⟨er2, -⟩ := r2.kp0.root hts1 (by simp)
  refine wp_lockSIX (p := w1.root) hts2 ?_ (by simp) (by simp) (Or.inr ⟨0, by simp, by rw [par0_iff, er2]⟩) ?_ ?_
  · rw [← er2]; simpa using hi2.root_ne
  · intro w3 hi3 r3 hts3
    obtain ⟨er3, -⟩ := r3.kp0.root hts2 (by simp)
    obtain ⟨n3, hp3, -⟩ := hi3.root_pg
    refine ⟨w3.H, ?_, Below.mk hi3 hts3 (by simp) (by simp) ?_⟩
    · rw [← er2, ← er3]
      exact hp3.lvl hi3
    · intro q hq
      simp only [List.mem_singleton] at hq
      subst hq
      exact ⟨_, w3.lvl0, Or.inl (w3.pri_up' (by omega))⟩
  intro w3 hi3 k3 hts3 e3
  obtain ⟨er3, -⟩ := k3.root hts2 (by simp)
  refine LLg.wp_bind (wp_shrinkTree (w := w) ?_ fuel w3 w1.root hi3 hts3 (er3.trans er2) (fun op hc => k3.call (r2.call (k1.call hc))))
  clear hi1 k1 hts1 e1 hi2 r2 hts2 er2 hi3 k3 hts3 e3 er3 w1 w2 w3
  intro w1 root hi1 hts1 er1 hc1
  have e1 := hts1.clean hi1 (p := 0) (by simp) (by simp) (by rw [cells0]; simp)
  rw [cells0, er1] at e1
  refine wp_rootPtr hts1 (by simp) e1 ?_
  intro w2 hi2 r2 hts2
  obtain ⟨er2, -⟩ := r2.kp0.root hts1 (by simp)
  rw [er1] at er2
  obtain ⟨n, hp2, hh2⟩ := hi2.root_pg
  rw [er2] at hp2
  have hr0 := hi2.at_ne hp2.at'
  refine LLg.wp_bind (wp_needSplit hR hts2 (by simp) hi2 hp2 ?_ ?_)
  · intro w' hi' hk' q hq hne
    simp only [List.mem_cons, List.not_mem_nil, or_false] at hq
    rcases hq with rfl | rfl
    · exact absurd rfl hne
    · exact ⟨_, by rw [(hk' 0 (by simp)).top rfl]; omega, w'.lvl0⟩
  intro w3 need n3 hi3 hts3 hp3 hsp hb hroom fr3
  have fr3 := fr3 [0] (by simp [hr0.symm])
  have er3 : w3.root = root := by
    have := (fr3.keep 0 (by simp)).cells
    rw [cells0, cells0, er2, Option.some.injEq] at this
    exact treePage_inj this
  have eh3 : w3.H = w2.H := (fr3.keep 0 (by simp)).top rfl
  rw [← eh3] at hp3
  have hh3 : n3.high = none := by rw [hsp.frame.high, hh2]
  have fin : ∀ w4 p, PInv cfg w4 → (∀ op, Call t op w → Call t op w4) → TS w4 t [] [p, 0] [] [] → p ≠ 0 → Rdy cfg L w4 k p →
      WP cfg t (do Prog.unlockSIX 0; return p) Q w4 := by
    intro w4 p hi4 hc4 hts4 hp0 hrd
    refine wp_unlockSIX (I' := [p]) hts4 (by simp) ?_ ?_
    · intro q
      simp only [List.mem_cons, List.not_mem_nil, or_false]
      constructor
      · rintro rfl; exact ⟨Or.inl rfl, hp0⟩
      · rintro ⟨h | h, h'⟩
        · exact h
        · exact absurd h h'
    intro w5 hi5 k5 hts5
    exact hk w5 p hi5 (fun op hc => k5.call (hc4 op hc)) hts5 ((k5.keep (hts4.mine (by simp))).rdy hrd)
  have hc3 : ∀ op, Call t op w → Call t op w3 := fun op hc => fr3.call op (r2.call (hc1 op hc))
  cases need
  · rw [if_neg (by simp)]
    exact fin w3 root hi3 hc3 hts3 hr0 ⟨_, n3, .bot, hp3, trivial, by rw [hh3]; trivial, hroom rfl⟩
  · rw [if_pos rfl]
    refine LLg.wp_bind (wp_rootSplit hR k hts3 er3 hp3 hi3 hh3 (hb rfl) ?_)
    intro w4 p hi4 hc4 hts4 hp0 hrd
    exact fin w4 p hi4 (fun op hc => hc4 op (hc3 op hc)) hts4 hp0 hrd

end BT.PL
