import Verif.PmlSmoOk
import Verif.PmlScanOk

/-!
# PML is correct in the logic of `LockLogic.lean`
-/

set_option linter.unusedSectionVars false

namespace BT.PL
open Spec
variable {K V : Type} [LinearOrder K] {cfg : Cfg K} {t : Tid} {w w1 w2 w3 w' : World K V} {α : Type} {L : Nat}
  {S I X O S' I' X' O' : List Ptr} {p : Ptr} {Q : α → World K V → Prop}

/-- Taking X on a page whose children in `C` are locked. -/
theorem wp_upgradeP {k : Unit → Prog K V α} {i : Nat} {P : Ptr} {un : Node K V} {lo : Bd K} {C : List Ptr}
    (hts : TS w t [] (C ++ [P]) [] []) (hP : P ∉ C) (hpg : Pg cfg w i P un lo) (hC : ∀ c ∈ C, w.Par P c)
    (hCl : ∀ w', PInv cfg w' → (∀ q ∈ C, Keep cfg w w' q) → ∀ q ∈ C, ∃ j, w'.Lvl q j)
    (hk : ∀ w2, PInv cfg w2 → Kp0 cfg t w w2 → TS w2 t [] C [P] [P] → WP cfg t (k ()) Q w2) :
    WP cfg t (Prog.upgradeX P >>= k) Q w := by
  refine wp_upgradeX hts (by simp) (by simp) (by simp) (I' := C) ?_ ?_ hk
  · intro q
    simp only [List.mem_append, List.mem_singleton]
    constructor
    · intro h; exact ⟨Or.inl h, fun e => hP (e ▸ h)⟩
    · rintro ⟨h | h, h'⟩
      · exact h
      · exact absurd h h'
  · intro w1 hi1 r1 hts1
    have hp1 := r1.kp0.pg hts (by simp) hpg
    refine ⟨i, hp1.lvl hi1, Below.mk hi1 hts1 (by simp) (by simp) ?_⟩
    intro q hq
    rcases List.mem_append.1 hq with h | h
    · obtain ⟨j, hj⟩ := hCl w1 hi1 (fun q hq => r1.keep q (hts.mine (by simp [hq]))) q h
      exact ⟨j, hj, Or.inr ⟨P, (par_congr (r1.kp0.cells hts (by simp))).2 (hC q h), by simp⟩⟩
    · simp only [List.mem_singleton] at h
      subst h
      exact ⟨i, hp1.lvl hi1, Or.inl (by omega)⟩

theorem wp_split {Q : Ptr → World K V → Prop} {i : Nat} {P c : Ptr} {un cn : Node K V} {lo lo' : Bd K} {T D : List (Rec K V)} {rr : Rec K V}
    (hR : Roomy cfg L) (hi : PInv cfg w) (hts : TS w t [] [c, P] [] []) (hpgP : Pg cfg w (i + 1) P un lo) (hpgc : Pg cfg w i c cn lo')
    (hrecs : un.recs = T ++ rr :: D) (hpay : rr.pay = .ptr c) (hch : cn.high = hdKey D un.high)
    (hlo' : lo' = (if T = [] then lo else hiB rr.key)) (hroom : Room cfg L un) (hbig : Big cfg cn)
    (hk : ∀ w2 q ln rn sep, PInv cfg w2 → (∀ op, Call t op w → Call t op w2) → TS w2 t [] [q, c] [] [] → q ≠ c →
      SplitPost cfg L (decide (i ≠ 0)) lo' cn q ln rn sep → Pg cfg w2 i c ln lo' → Pg cfg w2 i q rn (.key sep) → Q q w2) :
    WP cfg t (CPml.split cfg c P T.length) Q w := by
  have hPc : P ≠ c := hi.ne_of_lvl hpgP hpgc (by omega)
  have hpar : w.Par P c := hi.par_of_at hpgP.at' (by rw [hrecs]; simp) hpay
  refine wp_upgradeP (C := [c]) hts (by simpa using hPc) hpgP (by simpa using hpar) ?_ ?_
  · intro w' hi' hk' q hq
    simp only [List.mem_singleton] at hq
    subst hq
    exact ⟨_, ((hk' q (by simp)).pg hpgc).lvl hi'⟩
  intro w1 hi1 k1 hts1
  have hP1 := k1.pg hts (by simp) hpgP
  have hc1 := k1.pg hts (by simp) hpgc
  have eP1 : w1.mem.heap P = some un := by rw [k1.heap hts (by simp), hts.heap hi (by simp) (by simp) hpgP]
  refine LLg.wp_bind (wp_splitChild hR hi1 hts1 eP1 hP1 hc1 hrecs hpay hch hlo' hroom hbig ?_)
  intro w2 q ln rn sep un' hi2 call2 hts2 hs eP2 hun hP2 el2 hc2 hq2 hqc
  refine wp_load hts2 (by simp) eP2 ?_
  intro w3 hi3 r3 hts3
  refine wp_load hts3 (p := c) (n := ln) (by simp) ?_ ?_
  · rw [r3.kp0.heap hts2 (by simp), el2]
  intro w4 hi4 r4 hts4
  have k4 : Fr cfg t [q, c, P] w2 w4 := ((r3.fr hts2).sub (by simp)).trans ((r4.fr hts3).sub (by simp))
  have hP4 := k4.pg (p := P) (by simp) hP2
  refine LLg.wp_lift (by rw [hs.lhigh]; exact hun) ?_
  refine wp_store_plain hts4 (p := P) (by simp) ?_
  intro w5 hi5 k5 hts5 eP5 cP5 _ _
  rw [hi4.at_cells hP4.at'] at cP5
  have hPq : P ≠ q := hi2.ne_of_lvl hP2 hq2 (by omega)
  have fr5 := Kp.fr k5 hts4 (l := [q, c]) (by
    intro x hx
    simp only [List.mem_cons, List.not_mem_nil, or_false] at hx
    rcases hx with rfl | rfl
    · exact ⟨by simp, hPq.symm⟩
    · exact ⟨by simp, hPc.symm⟩)
  have hc5 := fr5.pg (p := c) (by simp) (k4.pg (p := c) (by simp) hc2)
  have hq5 := fr5.pg (p := q) (by simp) (k4.pg (p := q) (by simp) hq2)
  refine wp_unlockX (X' := []) (O' := []) hts5 (by simp) (eP5.trans cP5.symm) (by simp) (by simp) (by simp) ?_
  intro w6 hi6 k6 hts6
  refine hk w6 q ln rn sep hi6 ?_ hts6 hqc hs (k6.pg hts5 (by simp) hc5) (k6.pg hts5 (by simp) hq5)
  intro op hc
  exact k6.call (Kp.call k5 (k4.call op (call2 op (k1.call hc))))

/-- Neighbours below one parent: the right one does not come later. -/
theorem pri_kids (hR : Roomy cfg L) (hi : PInv cfg w) {i : Nat} {P c q : Ptr} {un cn qn : Node K V} {lo lo' lq : Bd K} {T D : List (Rec K V)}
    {rr d : Rec K V} (hpgP : Pg cfg w (i + 1) P un lo) (hpgc : Pg cfg w i c cn lo') (hpgq : Pg cfg w i q qn lq)
    (hrecs : un.recs = T ++ rr :: d :: D) (hc : rr.toPtr = c) (hq : d.toPtr = q) (hch : cn.high = d.key) (hcan : cn.canMerge cfg qn = true) :
    w.pri q i ≤ w.pri c i := by
  obtain ⟨G1, G2, hg⟩ := hi.grp hpgc
  obtain ⟨-, -, -, -, -, -, -, -, -, -, -, -, ⟨G3, e, -⟩, -⟩ := hi.good.wf.mergeChild (L := L) hR hi.good.np (Nat.lt_of_succ_le hpgP.le) hpgP.at' hrecs hc
    hq hg hpgc.at' hch hpgq.at'.heap hcan
  refine (hi.pri_next (A := flat G1) (B := flat G3) hpgc.le ?_).1
  rw [hg, e]
  simp

theorem wp_merge {Q : Unit → World K V → Prop} {i : Nat} {P c : Ptr} {un cn : Node K V} {lo lo' : Bd K} {T D : List (Rec K V)} {rr : Rec K V}
    (hR : Roomy cfg L) (hmf : L + cfg.maxPayLen + cfg.mlen ≤ cfg.minFree) (hi : PInv cfg w) (hts : TS w t [] [c, P] [] [])
    (hpgP : Pg cfg w (i + 1) P un lo) (hpgc : Pg cfg w i c cn lo')
    (hrecs : un.recs = T ++ rr :: D) (hpay : rr.pay = .ptr c) (hch : cn.high = hdKey D un.high) (hroom : Room cfg L cn)
    (hk : ∀ w2 m, PInv cfg w2 → (∀ op, Call t op w → Call t op w2) → TS w2 t [] [c] [] [] → Pg cfg w2 i c m lo' → Room cfg L m →
      (∀ k, (hiB cn.high).gtKey k → (hiB m.high).gtKey k) → Q () w2) :
    WP cfg t (CPml.merge cfg c P T.length) Q w := by
  have hPc : P ≠ c := hi.ne_of_lvl hpgP hpgc (by omega)
  have hpar : w.Par P c := hi.par_of_at hpgP.at' (by rw [hrecs]; simp) hpay
  refine wp_load hts (by simp) (hts.heap hi (by simp) (by simp) hpgP) ?_
  intro w1 hi1 r1 hts1
  have hP1 := r1.kp0.pg hts (by simp) hpgP
  have hc1 := r1.kp0.pg hts (by simp) hpgc
  have hpar1 : w1.Par P c := hi1.par_of_at hP1.at' (by rw [hrecs]; simp) hpay
  cases D with
  | nil =>
    rw [if_pos (by simp [Node.rc, hrecs])]
    refine wp_unlockSIX (k := Prog.ret) (I' := [c]) hts1 (by simp) ?_ ?_
    · intro q
      simp only [List.mem_cons, List.not_mem_nil, or_false]
      constructor
      · rintro rfl; exact ⟨Or.inl rfl, hPc.symm⟩
      · rintro ⟨h | h, h'⟩
        · exact h
        · exact absurd h h'
    intro w2 hi2 k2 hts2
    exact hk w2 cn hi2 (fun op hc => k2.call (r1.call hc)) hts2 (k2.pg hts1 (by simp) hc1) hroom (fun _ h => h)
  | cons d D =>
    rw [if_neg (by simp [Node.rc, hrecs])]
    obtain ⟨q, hq⟩ := hpgP.at'.okS.inner.ptrs d (by simp [hrecs])
    have hq' := toPtr_of hq
    have hcc := toPtr_of hpay
    have hget : un.getChild (T.length + 1) = .ok q := by
      obtain ⟨a, b, e⟩ := d
      simp only at hq
      subst hq
      simp [Node.getChild, hrecs]
    refine LLg.wp_lift hget ?_
    have kid : ∀ w', PInv cfg w' → Pg cfg w' (i + 1) P un lo → w'.Par P q ∧ ∃ qn, Pg cfg w' i q qn (hiB d.key) := by
      intro w' hi' hp'
      refine ⟨hi'.par_of_at hp'.at' (by rw [hrecs]; simp) hq, ?_⟩
      obtain ⟨G1, run, G2, lo2, f1, -, f3, f4⟩ := hi'.good.wf.follow (Nat.lt_of_succ_le hp'.le) hp'.at' (T := T ++ [rr]) (r := d) (D := D)
        (by rw [hrecs]; simp)
      rw [hq'] at f1
      obtain ⟨qn, lq, hat⟩ := hi'.good.wf.at_of_mem (i := i) (Nat.le_of_succ_le hp'.le) (p := q) (by
        show q ∈ flat (w'.gr i)
        rw [f1]; simp)
      have : lq = hiB d.key := by
        rw [At.lo_endB hi'.good.wf (Nat.le_of_succ_le hp'.le) hat (A := flat G1) (B := run ++ flat G2) (by
          show flat (w'.gr i) = _
          rw [f1]; simp), ← f3.endB_eq, f4, if_neg (by simp)]
      subst this
      exact ⟨qn, Nat.le_of_succ_le hp'.le, hat⟩
    obtain ⟨parq1, qn1, hq1⟩ := kid w1 hi1 hP1
    have hqP : q ≠ P := hi1.ne_of_lvl hq1 hP1 (by omega)
    have hch' : cn.high = d.key := hch
    have hqc : q ≠ c := by
      rintro rfl
      have e : hiB d.key = lo' := by
        obtain ⟨A, B, hfl⟩ := List.append_of_mem hc1.at'.mem
        rw [At.lo_endB hi1.good.wf hq1.le hq1.at' hfl, At.lo_endB hi1.good.wf hc1.le hc1.at' hfl]
      have := hc1.at'.ok.lt
      rw [hch', ← e] at this
      exact Bd.lt_irrefl this
    refine wp_lockSIX hts1 (by simp [hqc, hqP]) (by simp) (by simp) (Or.inr ⟨P, by simp, parq1⟩) ?_ ?_
    · intro w2 hi2 r2 hts2
      have hP2 := r2.kp0.pg hts1 (by simp) hP1
      have hc2 := r2.kp0.pg hts1 (by simp) hc1
      obtain ⟨parq2, qn2, hq2⟩ := kid w2 hi2 hP2
      refine ⟨i, hq2.lvl hi2, Below.mk hi2 hts2 (by simp) (by simp) ?_⟩
      intro x hx
      simp only [List.mem_cons, List.not_mem_nil, or_false] at hx
      rcases hx with rfl | rfl
      · exact ⟨i, hc2.lvl hi2, Or.inr ⟨P, hi2.par_of_at hP2.at' (by rw [hrecs]; simp) hpay, by simp⟩⟩
      · exact ⟨i + 1, hP2.lvl hi2, Or.inl (w2.pri_up' (Nat.lt_succ_self _))⟩
    intro w2 hi2 k2 hts2 eq2
    have hP2 := k2.pg hts1 (by simp) hP1
    have hc2 := k2.pg hts1 (by simp) hc1
    obtain ⟨parq2, qn, hq2⟩ := kid w2 hi2 hP2
    refine wp_load hts2 (p := c) (by simp) (hts2.heap hi2 (by simp) (by simp) hc2) ?_
    intro w3 hi3 r3 hts3
    have hq3 := r3.kp0.pg hts2 (by simp) hq2
    refine wp_load hts3 (p := q) (by simp) (hts3.heap hi3 (by simp) (by simp) hq3) ?_
    intro w4 hi4 r4 hts4
    have fr4 : Fr cfg t [q, c, P] w2 w4 := ((r3.fr hts2).sub (by simp)).trans ((r4.fr hts3).sub (by simp))
    have hP4 := fr4.pg (p := P) (by simp) hP2
    have hc4 := fr4.pg (p := c) (by simp) hc2
    have hq4 := fr4.pg (p := q) (by simp) hq2
    have call4 : ∀ op, Call t op w → Call t op w4 := fun op hc => fr4.call op (k2.call (r1.call hc))
    by_cases hcan : cn.canMerge cfg qn = true
    · rw [if_pos hcan]
      have hpar4 : ∀ x ∈ [q, c], w4.Par P x := by
        intro x hx
        simp only [List.mem_cons, List.not_mem_nil, or_false] at hx
        rcases hx with rfl | rfl
        · exact (kid w4 hi4 hP4).1
        · exact hi4.par_of_at hP4.at' (by rw [hrecs]; simp) hpay
      refine wp_upgradeP (C := [q, c]) hts4 (by simp [Ne.symm hqP, hPc]) hP4 hpar4 ?_ ?_
      · intro w' hi' hk' x hx
        simp only [List.mem_cons, List.not_mem_nil, or_false] at hx
        rcases hx with rfl | rfl
        · exact ⟨_, ((hk' x (by simp)).pg hq4).lvl hi'⟩
        · exact ⟨_, ((hk' x (by simp)).pg hc4).lvl hi'⟩
      intro w5 hi5 k5 hts5
      have fr5 := (k5.fr hts4).sub (l' := [q, c, P]) (by simp)
      have hP5 := fr5.pg (p := P) (by simp) hP4
      have hc5 := fr5.pg (p := c) (by simp) hc4
      have hq5 := fr5.pg (p := q) (by simp) hq4
      refine wp_upgradeX (I' := [q]) hts5 (p := c) (by simp) (by simpa using Ne.symm hPc) (by simp) ?_ ?_ ?_
      · intro x
        simp only [List.mem_cons, List.not_mem_nil, or_false]
        constructor
        · rintro rfl; exact ⟨Or.inl rfl, hqc⟩
        · rintro ⟨h | h, h'⟩
          · exact h
          · exact absurd h h'
      · intro w6 hi6 r6 hts6
        have fr6 := (r6.fr hts5).sub (l' := [q, c, P]) (by simp)
        refine ⟨i, (fr6.pg (by simp) hc5).lvl hi6, Below.mk hi6 hts6 (by simp) ?_ ?_⟩
        · intro x hx
          simp only [List.mem_singleton] at hx
          subst hx
          exact ⟨_, (fr6.pg (by simp) hP5).lvl hi6, w6.pri_ux (Nat.lt_succ_self _)⟩
        · intro x hx
          simp only [List.mem_cons, List.not_mem_nil, or_false] at hx
          rcases hx with rfl | rfl
          · exact ⟨_, (fr6.pg (by simp) hq5).lvl hi6, Or.inr ⟨P, (kid w6 hi6 (fr6.pg (by simp) hP5)).1, by simp⟩⟩
          · exact ⟨_, (fr6.pg (by simp) hc5).lvl hi6, Or.inl (by omega)⟩
      intro w6 hi6 k6 hts6
      have fr6 := (k6.fr hts5).sub (l' := [q, c, P]) (by simp)
      have hP6 := fr6.pg (p := P) (by simp) hP5
      have hc6 := fr6.pg (p := c) (by simp) hc5
      have hq6 := fr6.pg (p := q) (by simp) hq5
      refine wp_upgradeX (I' := []) hts6 (p := q) (by simp) (by simp [hqc, hqP]) (by simp) (by simp) ?_ ?_
      · intro w7 hi7 r7 hts7
        have fr7 := (r7.fr hts6).sub (l' := [q, c, P]) (by simp)
        refine ⟨i, (fr7.pg (by simp) hq6).lvl hi7, Below.mk hi7 hts7 (by simp) ?_ ?_⟩
        · intro x hx
          simp only [List.mem_cons, List.not_mem_nil, or_false] at hx
          rcases hx with rfl | rfl
          · refine ⟨_, (fr7.pg (by simp) hc6).lvl hi7, ?_⟩
            have := pri_kids hR hi7 (fr7.pg (p := P) (by simp) hP6) (fr7.pg (p := x) (by simp) hc6) (fr7.pg (p := q) (by simp) hq6) hrecs hcc hq' hch' hcan
            omega
          · exact ⟨_, (fr7.pg (by simp) hP6).lvl hi7, w7.pri_ux (Nat.lt_succ_self _)⟩
        · intro x hx
          simp only [List.mem_singleton] at hx
          subst hx
          exact ⟨_, (fr7.pg (by simp) hq6).lvl hi7, Or.inl (by omega)⟩
      intro w7 hi7 k7 hts7
      have fr7 := (k7.fr hts6).sub (l' := [q, c, P]) (by simp)
      have hP7 := fr7.pg (p := P) (by simp) hP6
      have hc7 := fr7.pg (p := c) (by simp) hc6
      have hq7 := fr7.pg (p := q) (by simp) hq6
      obtain ⟨G1, G2, hg⟩ := hi7.grp hc7
      obtain ⟨mn, un', gr', m1, m2, -, -, -, -, m7, -⟩ := hi7.good.wf.mergeChild (L := L) hR hi7.good.np (Nat.lt_of_succ_le hP7.le) hP7.at' hrecs hcc
        hq' hg hc7.at' hch' hq7.at'.heap hcan
      refine LLg.wp_lift m1 ?_
      refine wp_store_merge hR hts7 (P := P) (c := c) (q := q) (by simp) (by simp) ?_ (by simp) hP7 hc7 hrecs hcc hq' hch' (hi7.at_cells hq7.at') (hi7.at_ne hq7.at')
        hcan m1 m2 ?_
      · intro x
        simp only [List.mem_cons, List.not_mem_nil, or_false]
        tauto
      intro w8 hi8 k8 hts8 eP8 cP8 hc8 cq8 ec8
      refine wp_downgradeSIX (p := c) (X' := [q, P]) (O' := [q, P]) hts8 (by simp) (by rw [ec8, hi8.at_cells hc8.at']) ?_ ?_ ?_ ?_
      · intro x hx hne
        simp only [List.mem_cons, List.not_mem_nil, or_false] at hx
        rcases hx with h | h | h
        · exact Or.inl (by simp [h])
        · exact absurd h hne
        · exact Or.inl (by simp [h])
      · intro x
        simp only [List.mem_cons, List.not_mem_nil, or_false]
        constructor
        · rintro (rfl | rfl)
          · exact ⟨Or.inl rfl, hqc⟩
          · exact ⟨Or.inr (Or.inr rfl), hPc⟩
        · rintro ⟨h | h | h, h'⟩
          · exact Or.inl h
          · exact absurd h h'
          · exact Or.inr h
      · intro x
        simp only [List.mem_cons, List.not_mem_nil, or_false]
        constructor
        · rintro (rfl | rfl)
          · exact ⟨Or.inl rfl, hqc⟩
          · exact ⟨Or.inr (Or.inr rfl), hPc⟩
        · rintro ⟨h | h | h, h'⟩
          · exact Or.inl h
          · exact absurd h h'
          · exact Or.inr h
      intro w9 hi9 k9 hts9
      refine LLg.wp_lift m2 ?_
      refine wp_store_plain hts9 (p := P) (by simp) ?_
      intro w10 hi10 k10 hts10 eP10 cP10 _ _
      rw [(k9.cells hts8 (p := P) (by simp)).trans cP8] at cP10
      have fr10 := Kp.fr k10 hts9 (l := [q, c]) (by
        intro x hx
        simp only [List.mem_cons, List.not_mem_nil, or_false] at hx
        rcases hx with rfl | rfl
        · exact ⟨by simp, hqP⟩
        · exact ⟨by simp, hPc.symm⟩)
      have hc10 := fr10.pg (p := c) (by simp) (k9.pg hts8 (p := c) (by simp) hc8)
      have cq10 := ((fr10.keep q (by simp)).cells).trans ((k9.cells hts8 (p := q) (by simp)).trans cq8)
      refine wp_unlockX (X' := [q]) (O' := [q]) hts10 (p := P) (by simp) (eP10.trans cP10.symm) ?_ ?_ ?_ ?_
      · intro x hx hne
        simp only [List.mem_cons, List.not_mem_nil, or_false] at hx
        rcases hx with h | h
        · exact Or.inl (by simp [h])
        · exact absurd h hne
      · intro x
        simp only [List.mem_cons, List.not_mem_nil, or_false]
        constructor
        · rintro rfl; exact ⟨Or.inl rfl, hqP⟩
        · rintro ⟨h | h, h'⟩
          · exact h
          · exact absurd h h'
      · intro x
        simp only [List.mem_cons, List.not_mem_nil, or_false]
        constructor
        · rintro rfl; exact ⟨Or.inl rfl, hqP⟩
        · rintro ⟨h | h, h'⟩
          · exact h
          · exact absurd h h'
      intro w11 hi11 k11 hts11
      have hc11 := k11.pg hts10 (p := c) (by simp) hc10
      have cq11 := (k11.cells hts10 (p := q) (by simp)).trans cq10
      refine wp_free_own (k := Prog.ret) (X' := []) (O' := []) hts11 (p := q) (by simp) cq11 (by simp) (by simpa using hqc) (by simp) (by simp) ?_
      intro w12 hi12 k12 hts12
      refine hk w12 mn hi12 ?_ hts12 ?_ (m7.room hmf) ?_
      · intro op hc
        exact k12.call (k11.call (Kp.call k10 (k9.call (Kp.call k8 (k7.call (k6.call (k5.call (call4 op hc))))))))
      · exact (Kp.fr k12 hts11 (l := [c]) (by simp [Ne.symm hqc])).pg (by simp) hc11
      · intro k hkk
        rw [m7.high]
        rw [hch'] at hkk
        exact Bd.gtKey_of_lt' hkk (Or.inr hq7.at'.ok.lt)
    · rw [if_neg hcan]
      refine wp_unlockSIX (I' := [q, c]) hts4 (p := P) (by simp) ?_ ?_
      · intro x
        simp only [List.mem_cons, List.not_mem_nil, or_false]
        constructor
        · rintro (rfl | rfl)
          · exact ⟨Or.inl rfl, hqP⟩
          · exact ⟨Or.inr (Or.inl rfl), hPc.symm⟩
        · rintro ⟨h | h | h, h'⟩
          · exact Or.inl h
          · exact Or.inr h
          · exact absurd h h'
      intro w5 hi5 k5 hts5
      have hc5 := k5.pg hts4 (p := c) (by simp) hc4
      refine wp_unlockSIX (k := Prog.ret) (I' := [c]) hts5 (p := q) (by simp) ?_ ?_
      · intro x
        simp only [List.mem_cons, List.not_mem_nil, or_false]
        constructor
        · rintro rfl; exact ⟨Or.inr rfl, hqc.symm⟩
        · rintro ⟨h | h, h'⟩
          · exact absurd h h'
          · exact h
      intro w6 hi6 k6 hts6
      exact hk w6 cn hi6 (fun op hc => k6.call (k5.call (call4 op hc))) hts6 (k6.pg hts5 (by simp) hc5) hroom (fun _ h => h)

theorem wp_descendForWrite {Q : Ptr → World K V → Prop} {k : K} {w0 : World K V} (hR : Roomy cfg L)
    (hmf : L + cfg.maxPayLen + cfg.mlen ≤ cfg.minFree)
    (hk : ∀ w1 p n lo, PInv cfg w1 → (∀ op, Call t op w0 → Call t op w1) → TS w1 t [] [p] [] [] →
      Pg cfg w1 0 p n lo → lo.leKey k → (hiB n.high).gtKey k → Room cfg L n → Q p w1) :
    ∀ (fuel : Nat) (w : World K V) (p : Ptr), PInv cfg w → (∀ op, Call t op w0 → Call t op w) → TS w t [] [p] [] [] → Rdy cfg L w k p →
      WP cfg t (CPml.descendForWrite cfg k fuel p) Q w := by
  intro fuel
  induction fuel with
  | zero => intros; trivial
  | succ f ih =>
    intro w p hi hc hts hrd
    obtain ⟨i, n, lo, hp, hlo, hhi, hroom⟩ := hrd.pg
    refine wp_load hts (by simp) (hts.heap hi (by simp) (by simp) hp) ?_
    intro w1 hi1 r1 hts1
    have hp1 := r1.kp0.pg hts (by simp) hp
    have hc1 : ∀ op, Call t op w0 → Call t op w1 := fun op h => r1.call (hc op h)
    cases i with
    | zero =>
      rw [if_neg (by rw [hp.at'.ok0.kind]; simp)]
      exact hk w1 p n lo hi1 hc1 hts1 hp1 hlo hhi hroom
    | succ i =>
      rw [if_pos hp.at'.okS.kind]
      obtain ⟨T, r, D, rc, c, s1, s2, s3, s4, s5⟩ := search_child hp1 hhi
      refine LLg.wp_lift s1 ?_
      refine LLg.wp_lift s2 ?_
      obtain ⟨par1, cn1, lo1, ch1⟩ := s5 w1 hi1 hp1 hlo
      have hcp : c ≠ p := hi1.ne_of_lvl ch1.pg hp1 (by omega)
      refine wp_lockSIX hts1 (by simpa using hcp) (by simp) (by simp) (Or.inr ⟨p, by simp, par1⟩) ?_ ?_
      · intro w2 hi2 r2 hts2
        have hp2 := r2.kp0.pg hts1 (by simp) hp1
        obtain ⟨par2, cn2, lo2, ch2⟩ := s5 w2 hi2 hp2 hlo
        refine ⟨i, ch2.pg.lvl hi2, Below.mk hi2 hts2 (by simp) (by simp) ?_⟩
        intro q hq
        simp only [List.mem_singleton] at hq
        subst hq
        exact ⟨_, hp2.lvl hi2, Or.inl (w2.pri_up' (Nat.lt_succ_self _))⟩
      intro w2 hi2 k2 hts2 e2
      have hp2 := k2.pg hts1 (by simp) hp1
      have hc2 : ∀ op, Call t op w0 → Call t op w2 := fun op h => k2.call (hc1 op h)
      obtain ⟨par2, cn, lo', ch2⟩ := s5 w2 hi2 hp2 hlo
      have hHi : ∀ {w' : World K V} {cn' : Node K V}, Pg cfg w' (i + 1) p n lo → Pg cfg w' i c cn' lo' → Hi cfg [c, p] c i w' := by
        intro w' cn' h1 h2 w'' hi'' hk'' q hq hne
        simp only [List.mem_cons, List.not_mem_nil, or_false] at hq
        rcases hq with rfl | rfl
        · exact absurd rfl hne
        · exact ⟨i + 1, Nat.lt_succ_self _, ((hk'' q (by simp)).pg h1).lvl hi''⟩
      refine LLg.wp_bind (wp_needSplit hR hts2 (by simp) hi2 ch2.pg (hHi hp2 ch2.pg) ?_)
      intro w3 need cn3 hi3 hts3 hcn3 hsp3 hb3 hr3 fr3
      have fr3 := fr3 [p] (by simp [Ne.symm hcp])
      have hp3 := fr3.pg (by simp) hp2
      have hc3 : ∀ op, Call t op w0 → Call t op w3 := fun op h => fr3.call op (hc2 op h)
      have hh3 : cn3.high = hdKey D n.high := by rw [hsp3.frame.high, ch2.high]
      have hk3 : (hiB cn3.high).gtKey k := by rw [hsp3.frame.high]; exact ch2.hi
      cases need
      · rw [if_neg (by simp)]
        refine LLg.wp_bind (wp_needMerge hR hts3 (by simp) hi3 hcn3 (hHi hp3 hcn3) (hr3 rfl) ?_)
        intro w4 need cn4 hi4 hts4 hcn4 hsp4 hr4 fr4
        have fr4 := fr4 [p] (by simp [Ne.symm hcp])
        have hp4 := fr4.pg (by simp) hp3
        have hc4 : ∀ op, Call t op w0 → Call t op w4 := fun op h => fr4.call op (hc3 op h)
        have hh4 : cn4.high = hdKey D n.high := by rw [hsp4.frame.high, hh3]
        have hk4 : (hiB cn4.high).gtKey k := by rw [hsp4.frame.high]; exact hk3
        cases need
        · rw [if_neg (by simp)]
          refine wp_unlockSIX (I' := [c]) hts4 (p := p) (by simp) ?_ ?_
          · intro q
            simp only [List.mem_cons, List.not_mem_nil, or_false]
            constructor
            · rintro rfl; exact ⟨Or.inl rfl, hcp⟩
            · rintro ⟨h | h, h'⟩
              · exact h
              · exact absurd h h'
          intro w5 hi5 k5 hts5
          exact ih w5 c hi5 (fun op h => k5.call (hc4 op h)) hts5 ⟨i, cn4, lo', k5.pg hts4 (by simp) hcn4, ch2.loKey, hk4, hr4⟩
        · rw [if_pos rfl]
          refine LLg.wp_bind (wp_merge hR hmf hi4 hts4 hp4 hcn4 s3 s4 hh4 hr4 ?_)
          intro w5 m hi5 hc5 hts5 hm5 hrm hgt
          exact ih w5 c hi5 (fun op h => hc5 op (hc4 op h)) hts5 ⟨i, m, lo', hm5, ch2.loKey, hgt k hk4, hrm⟩
      · rw [if_pos rfl]
        refine LLg.wp_bind (wp_split hR hi3 hts3 hp3 hcn3 s3 s4 hh3 ch2.loEq hroom (hb3 rfl) ?_)
        intro w4 q ln rn sep hi4 hc4 hts4 hqc hs hl4 hq4
        refine LLg.wp_bind (wp_validSplitNode (Z := []) (n := cn3) (k := k) hi4 (hts4.congr (by simp [or_comm]) (fun _ => Iff.rfl) (fun _ => Iff.rfl)) hqc.symm (by simp) (by simp)
          hl4 hq4 hs ch2.loKey hk3 ?_)
        intro w5 p' hi5 fr5 hts5 _ hrd5
        obtain ⟨n', lo'', h1⟩ := hrd5
        exact ih w5 p' hi5 (fun op h => fr5.call op (hc4 op (hc3 op h))) hts5 ⟨i, n', lo'', h1⟩

theorem wp_searchLeafForWrite {Q : Ptr → World K V → Prop} (k : K) (fuel : Nat) (hR : Roomy cfg L)
    (hmf : L + cfg.maxPayLen + cfg.mlen ≤ cfg.minFree) {op : Op K V} (hts : TS w t [] [] [] []) (hc : Call t op w)
    (hk : ∀ w1 p n lo, PInv cfg w1 → Call t op w1 → TS w1 t [] [] [p] [p] → w1.mem.heap p = some n →
      Pg cfg w1 0 p n lo → lo.leKey k → (hiB n.high).gtKey k → Room cfg L n → Q p w1) :
    WP cfg t (CPml.searchLeafForWrite cfg fuel k) Q w := by
  refine LLg.wp_bind (wp_getRootForWrite hR fuel k hts ?_)
  intro w1 p hi1 hc1 hts1 hrd1
  refine LLg.wp_bind (wp_descendForWrite (w0 := w) hR hmf ?_ fuel w1 p hi1 hc1 hts1 hrd1)
  clear hi1 hc1 hts1 hrd1 w1 p
  intro w1 p n lo hi1 hc1 hts1 hp1 hlo hhi hroom
  refine wp_upgradeX (I' := []) hts1 (by simp) (by simp) (by simp) (by simp) ?_ ?_
  · intro w2 hi2 r2 hts2
    have hp2 := r2.kp0.pg hts1 (by simp) hp1
    refine ⟨0, hp2.lvl hi2, Below.mk hi2 hts2 (by simp) (by simp) ?_⟩
    intro q hq
    simp only [List.mem_singleton] at hq
    subst hq
    exact ⟨0, hp2.lvl hi2, Or.inl (by omega)⟩
  intro w2 hi2 k2 hts2
  refine hk w2 p n lo hi2 (k2.call (hc1 op hc)) hts2 ?_ (k2.pg hts1 (by simp) hp1) hlo hhi hroom
  rw [k2.heap hts1 (by simp), hts1.heap hi1 (by simp) (by simp) hp1]

/-- The last part of the four calls that change the tree. -/
theorem wp_leafOp {Q : RC → World K V → Prop} {k : K} {op : Op K V} {f : Node K V → Res (RC × Node K V)} {rc : RC} {out : Out K V}
    {n n' : Node K V} {lo : Bd K} {A B : List (K × V)} {C C' : Option V}
    (hts : TS w t [] [] [p] [p]) (hc : Call t op w) (hn : w.mem.heap p = some n) (hp : Pg cfg w 0 p n lo) (hlo : lo.leKey k)
    (hhi : (hiB n.high).gtKey k) (hroom : Room cfg L n) (he : f n = .ok (rc, n')) (hok : NodeOk cfg false lo n') (hf : SameFrame n n')
    (ha : Around k (pairs n.recs) A C B) (ha' : Around k (pairs n'.recs) A C' B)
    (hst : ∀ M : Map K V, M k = C → Step M op out (Spec.set M k C'))
    (hk : ∀ w1, PInv cfg w1 → TS w1 t [] [] [] [] → w1.ps.ph t = .done out → Q rc w1) :
    WP cfg t (CPml.leafOp p f) Q w := by
  refine wp_load hts (by simp) hn ?_
  intro w1 hi1 r1 hts1
  refine LLg.wp_lift he ?_
  obtain ⟨t0, hph, -⟩ := r1.call hc
  refine wp_store_leaf hts1 (by simp) (by simp) (r1.kp0.pg hts (by simp) hp) hlo hhi hroom ha ha' hok hf hph hst ?_
  intro w2 hi2 hd2 hts2 e2 c2
  refine wp_unlockX (X' := []) (O' := []) hts2 (by simp) (by rw [e2, c2]) (by simp) (by simp) (by simp) ?_
  intro w3 hi3 k3 hts3
  exact hk w3 hi3 hts3 (k3.ph.trans hd2)

theorem impl (hR : Roomy cfg L) (hmf : L + cfg.maxPayLen + cfg.mlen ≤ cfg.minFree) :
    (lg cfg : LLg K V).Impl (CPml.exec cfg) := by
  intro t fuel op w (hi : PInv cfg w) (hts : TS w t [] [] [] []) hph
  have hc : Call t op w := ⟨_, hph, Nat.le_refl _⟩
  cases op with
  | read k =>
    refine LLg.wp_bind (wp_read fuel hts hc ?_)
    exact fun w1 v _ h1 h2 => ⟨h2, h1⟩
  | write k v =>
    refine LLg.wp_bind (LLg.wp_bind (wp_searchLeafForWrite k fuel hR hmf hts hc ?_))
    intro w1 p n lo hi1 hc1 hts1 e1 hp1 hlo hhi hroom
    obtain ⟨n', A, C, B, e, h2, h3, h4, h5⟩ := leafWrite_ok hp1.at'.ok0 (hroom.fitsOne_leaf hR k) hlo hhi v
    refine wp_load hts1 (by simp) e1 ?_
    intro w2 hi2 r2 hts2
    refine LLg.wp_lift e ?_
    obtain ⟨t0, hph, -⟩ := r2.call hc1
    refine wp_store_leaf hts2 (by simp) (by simp) (r2.kp0.pg hts1 (by simp) hp1) hlo hhi hroom h4 h5 h2 h3 hph (fun M _ => .write k v) ?_
    intro w3 hi3 hd3 hts3 e3 c3
    refine wp_unlockX (X' := []) (O' := []) hts3 (by simp) (by rw [e3, c3]) (by simp) (by simp) (by simp) ?_
    intro w4 hi4 k4 hts4
    exact ⟨k4.ph.trans hd3, hts4⟩
  | insert k v =>
    refine LLg.wp_bind (LLg.wp_bind (wp_searchLeafForWrite k fuel hR hmf hts hc ?_))
    intro w1 p n lo hi1 hc1 hts1 e1 hp1 hlo hhi hroom
    obtain ⟨n', rc, A, C, B, e, h2, h3, h4, h5⟩ := leafInsert_ok hp1.at'.ok0 (hroom.fitsOne_leaf hR k) hlo hhi v
    rcases h5 with ⟨x1, x2, x3⟩ | ⟨x1, x2, x3⟩
    · subst x1 x2
      exact wp_leafOp hts1 hc1 e1 hp1 hlo hhi hroom e h2 h3 h4 x3 (fun M hM => .insertNew k v hM) (fun w1 _ h1 h2 => ⟨h2, h1⟩)
    · subst x2 x3
      refine wp_leafOp (out := .code .keyExist) hts1 hc1 e1 hp1 hlo hhi hroom e h2 h3 h4 h4 (fun M hM => ?_) (fun w1 _ h1 h2 => ⟨h2, h1⟩)
      rw [← hM, set_self]
      exact .insertOld k v (by rw [hM]; exact x1)
  | update k v =>
    refine LLg.wp_bind (LLg.wp_bind (wp_searchLeafForWrite k fuel hR hmf hts hc ?_))
    intro w1 p n lo hi1 hc1 hts1 e1 hp1 hlo hhi hroom
    obtain ⟨n', rc, A, C, B, e, h2, h3, h4, h5⟩ := leafUpdate_ok hp1.at'.ok0 k v
    rcases h5 with ⟨x1, x2, x3⟩ | ⟨x1, x2, x3⟩
    · subst x2
      exact wp_leafOp hts1 hc1 e1 hp1 hlo hhi hroom e h2 h3 h4 x3 (fun M hM => .updateOld k v (by rw [hM]; exact x1)) (fun w1 _ h1 h2 => ⟨h2, h1⟩)
    · subst x2 x3
      refine wp_leafOp (out := .code .keyNotExist) hts1 hc1 e1 hp1 hlo hhi hroom e h2 h3 h4 h4 (fun M hM => ?_) (fun w1 _ h1 h2 => ⟨h2, h1⟩)
      rw [← hM, set_self]
      exact .updateNew k v (by rw [hM]; exact x1)
  | delete k =>
    refine LLg.wp_bind (LLg.wp_bind (wp_searchLeafForWrite k fuel hR hmf hts hc ?_))
    intro w1 p n lo hi1 hc1 hts1 e1 hp1 hlo hhi hroom
    obtain ⟨n', rc, A, C, B, e, h2, h3, h4, h5⟩ := leafDelete_ok hp1.at'.ok0 k
    rcases h5 with ⟨x1, x2, x3⟩ | ⟨x1, x2, x3⟩
    · subst x2
      exact wp_leafOp hts1 hc1 e1 hp1 hlo hhi hroom e h2 h3 h4 x3 (fun M hM => .deleteOld k (by rw [hM]; exact x1)) (fun w1 _ h1 h2 => ⟨h2, h1⟩)
    · subst x2 x3
      refine wp_leafOp (out := .code .keyNotExist) hts1 hc1 e1 hp1 hlo hhi hroom e h2 h3 h4 h4 (fun M hM => ?_) (fun w1 _ h1 h2 => ⟨h2, h1⟩)
      rw [← hM, set_self]
      exact .deleteNew k (by rw [hM]; exact x1)
  | scan b e =>
    refine LLg.wp_bind (wp_scan fuel hts hc ?_)
    intro w1 l hi1 hts1 hd1
    exact ⟨hd1, hts1⟩

end BT.PL
