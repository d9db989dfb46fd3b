import Verif.PmlReadOk
import Verif.PmlOk

/-!
# PML's descent for writes: clean-up, shrinking, splits and merges
-/

set_option linter.unusedSectionVars false

namespace BT.PL
open Spec
variable {K V : Type} [LinearOrder K] {cfg : Cfg K} {t : Tid} {w w1 w2 w3 w' : World K V} {α : Type} {L : Nat}
  {S I X O S' I' X' O' : List Ptr} {p : Ptr} {Q : α → World K V → Prop}

/-- The pages in `l` stay as they are, and the call of thread `t` has not taken effect. -/
structure Fr (cfg : Cfg K) (t : Tid) (l : List Ptr) (w w2 : World K V) : Prop where
  keep : ∀ q ∈ l, Keep cfg w w2 q
  call : ∀ op, Call t op w → Call t op w2

theorem Fr.trans {l : List Ptr} (h : Fr cfg t l w w1) (h' : Fr cfg t l w1 w2) : Fr cfg t l w w2 :=
  ⟨fun q hq => (h.keep q hq).trans (h'.keep q hq), fun op hc => h'.call op (h.call op hc)⟩
theorem Fr.sub {l l' : List Ptr} (h : Fr cfg t l w w1) (hl : ∀ q ∈ l', q ∈ l) : Fr cfg t l' w w1 :=
  ⟨fun q hq => h.keep q (hl q hq), h.call⟩
theorem Fr.refl {l : List Ptr} : Fr cfg t l w w := ⟨fun q _ => Keep.refl q, fun _ h => h⟩
theorem Fr.pg {l : List Ptr} (h : Fr cfg t l w w1) (hp : p ∈ l) {i : Nat} {n : Node K V} {lo : Bd K} (hg : Pg cfg w i p n lo) :
    Pg cfg w1 i p n lo := (h.keep p hp).pg hg
theorem Fr.par {l : List Ptr} (h : Fr cfg t l w w1) (hp : p ∈ l) {q : Ptr} (hg : w.Par p q) : w1.Par p q :=
  (par_congr (h.keep p hp).cells).2 hg
theorem Kp.fr {E : Ptr → Prop} (h : Kp cfg t E w w2) (hts : TS w t S I X O) {l : List Ptr}
    (hl : ∀ q ∈ l, q ∈ S ++ I ++ X ++ O ∧ ¬ E q) : Fr cfg t l w w2 :=
  ⟨fun q hq => h.keep q (hts.mine (hl q hq).1) (hl q hq).2, fun _ hc => h.call hc⟩
theorem Kp0.fr (h : Kp0 cfg t w w2) (hts : TS w t S I X O) : Fr cfg t (S ++ I ++ X ++ O) w w2 :=
  Kp.fr h hts (fun _ hq => ⟨hq, id⟩)
theorem Rely.fr (h : Rely cfg t w w2) (hts : TS w t S I X O) : Fr cfg t (S ++ I ++ X ++ O) w w2 := Kp0.fr h.kp0 hts
theorem KpO.fr (h : KpO cfg t w w2) (hts : TS w t S I X O) {l : List Ptr} (hl : ∀ q ∈ l, q ∈ S ++ I ++ X ∧ q ∉ O) : Fr cfg t l w w2 :=
  ⟨fun q hq => h.keep hts (List.mem_append_left _ (hl q hq).1) (hl q hq).2, fun _ hc => Kp.call h hc⟩

theorem TS.congr (h : TS w t S I X O) (hI : ∀ q, q ∈ I' ↔ q ∈ I) (hX : ∀ q, q ∈ X' ↔ q ∈ X) (hO : ∀ q, q ∈ O' ↔ q ∈ O) :
    TS w t S I' X' O' where
  s := h.s
  six := fun q hq => by rw [hI]; exact h.six q hq
  x := fun q hq => by rw [hX]; exact h.x q hq
  own := fun q hq => by rw [hO]; exact h.own q hq
  live := fun q hq => by
    refine h.live q ?_
    simp only [List.mem_append, hI, hX, hO] at hq ⊢
    exact hq

/-- A page locked in SIX that is not being changed. -/
theorem TS.clean (hi : PInv cfg w) (h : TS w t S I X O) (hp : p ∈ I) (hO : p ∉ O) (hv : w.cells p ≠ none) : w.mem.heap p = w.cells p := by
  refine hi.clean p ?_ hv
  have hl := h.live p (by simp [hp])
  have h6 := (h.six p hl).2 hp
  cases e : w.own p with
  | none => rfl
  | some u =>
    have := (hi.owned p u e).2.2.1
    rw [h6] at this
    rcases this with e' | e' <;> cases e'
    exact absurd ((h.own p hl).1 e) hO

theorem TS.heap (hi : PInv cfg w) (h : TS w t S I X O) (hp : p ∈ I) (hO : p ∉ O) {i : Nat} {n : Node K V} {lo : Bd K}
    (hg : Pg cfg w i p n lo) : w.mem.heap p = some n := by rw [h.clean hi hp hO (by rw [hi.at_cells hg.at']; simp), hi.at_cells hg.at']

/-- Levels of the pages in `l` except `p`. -/
def Hi (cfg : Cfg K) (l : List Ptr) (p : Ptr) (i : Nat) (w : World K V) : Prop :=
  ∀ w', PInv cfg w' → (∀ q ∈ l, Keep cfg w w' q) → ∀ q ∈ l, q ≠ p → ∃ j, i < j ∧ w'.Lvl q j

theorem Hi.keep {l : List Ptr} {i : Nat} (h : Hi cfg l p i w) (hk : ∀ q ∈ l, Keep cfg w w1 q) : Hi cfg l p i w1 :=
  fun w' hi hk' => h w' hi (fun q hq => (hk q hq).trans (hk' q hq))

theorem wp_cleanUp {Q : Unit → World K V → Prop} {i : Nat} {n n' : Node K V} {lo : Bd K} (hts : TS w t [] I [] []) (hp : p ∈ I)
    (hpg : Pg cfg w i p n lo) (hI : Hi cfg I p i w) (he : n.cleanUp cfg = .ok n')
    (hok : NodeOk cfg (decide (i ≠ 0)) lo n') (hs : SamePage n n')
    (hk : ∀ w2, PInv cfg w2 → TS w2 t [] I [] [] → Pg cfg w2 i p n' lo → (∀ l : List Ptr, (∀ q ∈ l, q ∈ I ∧ q ≠ p) → Fr cfg t l w w2) → Q () w2) :
    WP cfg t (CPml.cleanUp cfg p n) Q w := by
  have hf : ∀ q, q ∈ I.filter (fun q => decide (q ≠ p)) ↔ q ∈ I ∧ q ≠ p := by intro q; simp
  refine wp_upgradeX hts hp (by simp) (by simp) hf ?_ ?_
  · intro w1 hi1 r1 hts1
    refine ⟨i, (r1.kp0.pg hts (by simp [hp]) hpg).lvl hi1, Below.mk hi1 hts1 (by simp) (by simp) ?_⟩
    intro q hq
    by_cases e : q = p
    · subst e
      exact ⟨i, (r1.kp0.pg hts (by simp [hp]) hpg).lvl hi1, Or.inl (by omega)⟩
    · obtain ⟨j, h1, h2⟩ := hI w1 hi1 (fun q hq => r1.keep q (hts.mine (by simp [hq]))) q hq e
      exact ⟨j, h2, Or.inl (w1.pri_ux h1)⟩
  intro w1 hi1 k1 hts1
  refine LLg.wp_lift he ?_
  have hpg1 := k1.pg hts (by simp [hp]) hpg
  refine wp_store_same hts1 (by simp) (by simp) hpg1 hok hs ?_
  intro w2 hi2 k2 hts2 e2 e2' hpg2
  refine wp_downgradeSIX hts2 (by simp) (by rw [e2, e2']) (by simp) (X' := []) (O' := []) (by simp) (by simp) ?_
  intro w3 hi3 k3 hts3
  have hpg3 := k3.pg hts2 (by simp) hpg2
  refine hk w3 hi3 (hts3.congr ?_ (fun _ => Iff.rfl) (fun _ => Iff.rfl)) hpg3 ?_
  · intro q
    rw [List.mem_cons, hf]
    by_cases e : q = p
    · simp [e, hp]
    · simp [e]
  · intro l hl
    refine ((k1.fr hts).sub ?_).trans ((Kp.fr k2 hts1 ?_).trans ((k3.fr hts2).sub ?_))
    · intro q hq
      simp [(hl q hq).1]
    · intro q hq
      exact ⟨by simp [hl q hq], (hl q hq).2⟩
    · intro q hq
      simp [hl q hq]

theorem wp_needSplit {Q : Bool → World K V → Prop} {i : Nat} {n : Node K V} {lo : Bd K} (hR : Roomy cfg L) (hts : TS w t [] I [] [])
    (hp : p ∈ I) (hi : PInv cfg w) (hpg : Pg cfg w i p n lo) (hI : Hi cfg I p i w)
    (hk : ∀ w2 need n', PInv cfg w2 → TS w2 t [] I [] [] → Pg cfg w2 i p n' lo → SamePage n n' → (need = true → Big cfg n') →
      (need = false → Room cfg L n') → (∀ l : List Ptr, (∀ q ∈ l, q ∈ I ∧ q ≠ p) → Fr cfg t l w w2) → Q need w2) :
    WP cfg t (CPml.needSplit cfg p) Q w := by
  have hn := hts.heap hi hp (by simp) hpg
  refine wp_load hts (by simp [hp]) hn ?_
  intro w1 hi1 r1 hts1
  have hpg1 := r1.kp0.pg hts (by simp [hp]) hpg
  have hI1 := hI.keep (fun q hq => r1.keep q (hts.mine (by simp [hq])))
  have fr1 : ∀ l : List Ptr, (∀ q ∈ l, q ∈ I ∧ q ≠ p) → Fr cfg t l w w1 := fun l hl => (r1.fr hts).sub (fun q hq => by simp [hl q hq])
  obtain ⟨need, n', e, h1, h2, h3, h4⟩ := Pml.needSplit_ok hR hpg.at'.ok
  cases hlay : cfg.layout
  · simp only [Pml.needSplit, hlay] at e
    cases e
    exact hk w1 _ n hi1 hts1 hpg1 h2 h3 h4 fr1
  · simp only [Pml.needSplit, hlay] at e
    dsimp only
    by_cases c1 : cfg.metaLen * n.rc + n.block + cfg.maxRecLen ≤ cfg.cap
    · rw [if_pos c1] at e ⊢
      cases e
      exact hk w1 _ n hi1 hts1 hpg1 h2 h3 h4 fr1
    · rw [if_neg c1] at e ⊢
      by_cases c2 : cfg.metaLen * n.rc + n.block + cfg.maxRecLen - n.dead > cfg.maxUsed
      · rw [if_pos c2] at e ⊢
        cases e
        exact hk w1 _ n hi1 hts1 hpg1 h2 h3 h4 fr1
      · rw [if_neg c2] at e ⊢
        obtain ⟨m, d1, d2, d3, -⟩ := cleanUp_ok hR hlay hpg.at'.ok
        rw [d1] at e
        cases e
        refine LLg.wp_bind (wp_cleanUp hts1 hp hpg1 hI1 d1 d2 d3 ?_)
        intro w2 hi2 hts2 hpg2 fr2
        exact hk w2 _ _ hi2 hts2 hpg2 h2 h3 h4 (fun l hl => (fr1 l hl).trans (fr2 l hl))

theorem wp_needMerge {Q : Bool → World K V → Prop} {i : Nat} {n : Node K V} {lo : Bd K} (hR : Roomy cfg L) (hts : TS w t [] I [] [])
    (hp : p ∈ I) (hi : PInv cfg w) (hpg : Pg cfg w i p n lo) (hI : Hi cfg I p i w) (hroom : Room cfg L n)
    (hk : ∀ w2 need n', PInv cfg w2 → TS w2 t [] I [] [] → Pg cfg w2 i p n' lo → SamePage n n' →
      Room cfg L n' → (∀ l : List Ptr, (∀ q ∈ l, q ∈ I ∧ q ≠ p) → Fr cfg t l w w2) → Q need w2) :
    WP cfg t (CPml.needMerge cfg p) Q w := by
  have hn := hts.heap hi hp (by simp) hpg
  refine wp_load hts (by simp [hp]) hn ?_
  intro w1 hi1 r1 hts1
  have hpg1 := r1.kp0.pg hts (by simp [hp]) hpg
  have hI1 := hI.keep (fun q hq => r1.keep q (hts.mine (by simp [hq])))
  have fr1 : ∀ l : List Ptr, (∀ q ∈ l, q ∈ I ∧ q ≠ p) → Fr cfg t l w w1 := fun l hl => (r1.fr hts).sub (fun q hq => by simp [hl q hq])
  obtain ⟨need, n', e, h1, h2, h3⟩ := Pml.needMerge_ok hR hpg.at'.ok hroom
  cases hlay : cfg.layout
  · simp only [Pml.needMerge, hlay] at e
    cases e
    exact hk w1 _ n hi1 hts1 hpg1 h2 h3 fr1
  · simp only [Pml.needMerge, hlay] at e
    dsimp only
    by_cases c1 : n.usedSize cfg < cfg.minUsed
    · rw [if_pos c1] at e ⊢
      cases e
      exact hk w1 _ n hi1 hts1 hpg1 h2 h3 fr1
    · rw [if_neg c1] at e ⊢
      by_cases c2 : n.dead ≤ cfg.maxDeleted
      · rw [if_pos c2] at e ⊢
        cases e
        exact hk w1 _ n hi1 hts1 hpg1 h2 h3 fr1
      · rw [if_neg c2] at e ⊢
        obtain ⟨m, d1, d2, d3, -⟩ := cleanUp_ok hR hlay hpg.at'.ok
        rw [d1] at e
        cases e
        refine LLg.wp_bind (wp_cleanUp hts1 hp hpg1 hI1 d1 d2 d3 ?_)
        intro w2 hi2 hts2 hpg2 fr2
        exact hk w2 _ _ hi2 hts2 hpg2 h2 h3 (fun l hl => (fr1 l hl).trans (fr2 l hl))

/-! ## Shrinking the tree -/

/-- Taking X on the tree object. -/
theorem wp_upgrade0 {k : Unit → Prog K V α} {root : Ptr} (hts : TS w t [] [root, 0] [] []) (hroot : w.root = root) (hr0 : root ≠ 0)
    (hk : ∀ w2, PInv cfg w2 → Kp0 cfg t w w2 → TS w2 t [] [root] [0] [0] → WP cfg t (k ()) Q w2) :
    WP cfg t (Prog.upgradeX 0 >>= k) Q w := by
  refine wp_upgradeX hts (by simp) (by simp) (by simp) (I' := [root]) ?_ ?_ hk
  · intro q
    simp only [List.mem_cons, List.not_mem_nil, or_false]
    constructor
    · rintro rfl; exact ⟨Or.inl rfl, hr0⟩
    · rintro ⟨h | h, h'⟩
      · exact h
      · exact absurd h h'
  · intro w1 hi1 r1 hts1
    obtain ⟨er, eh⟩ := r1.kp0.root hts (by simp)
    refine ⟨_, w1.lvl0, Below.mk hi1 hts1 (by simp) (by simp) ?_⟩
    intro q hq
    simp only [List.mem_cons, List.not_mem_nil, or_false] at hq
    rcases hq with rfl | rfl
    · obtain ⟨n, hp, -⟩ := hi1.root_pg
      rw [er, hroot] at hp
      exact ⟨_, hp.lvl hi1, Or.inr ⟨0, by rw [par0_iff, er, hroot], by simp⟩⟩
    · exact ⟨_, w1.lvl0, Or.inl (by omega)⟩

theorem wp_shrinkTree {Q : Unit → World K V → Prop}
    (hk : ∀ w1 root, PInv cfg w1 → TS w1 t [] [root, 0] [] [] → w1.root = root → (∀ op : Op K V, Call t op w → Call t op w1) → Q () w1) :
    ∀ (fuel : Nat) (w0 : World K V) (root : Ptr), PInv cfg w0 → TS w0 t [] [root, 0] [] [] → w0.root = root →
      (∀ op : Op K V, Call t op w → Call t op w0) → WP cfg t (CPml.shrinkTree fuel) Q w0 := by
  intro fuel
  induction fuel with
  | zero => intros; trivial
  | succ f ih =>
    intro w0 root hi0 hts0 er0 hc0
    have e0 := hts0.clean hi0 (p := 0) (by simp) (by simp) (by rw [cells0]; simp)
    rw [cells0, er0] at e0
    refine wp_rootPtr hts0 (by simp) e0 ?_
    intro w1 hi1 r1 hts1
    obtain ⟨er1, -⟩ := r1.kp0.root hts0 (by simp)
    rw [er0] at er1
    obtain ⟨n, hp1, hh1⟩ := hi1.root_pg
    rw [er1] at hp1
    have hr0 := hi1.at_ne hp1.at'
    refine wp_load hts1 (by simp) (hts1.heap hi1 (by simp) (by simp) hp1) ?_
    intro w2 hi2 r2 hts2
    obtain ⟨er2, eh2⟩ := r2.kp0.root hts1 (by simp)
    rw [er1] at er2
    have hp2 := r2.kp0.pg hts1 (by simp) hp1
    rw [← eh2] at hp2
    have hc2 : ∀ op : Op K V, Call t op w → Call t op w2 := fun op h => r2.call (r1.call (hc0 op h))
    by_cases hcond : n.rc = 1 ∧ n.isInner = true
    · rw [if_pos hcond]
      obtain ⟨h, hH⟩ : ∃ h, w2.H = h + 1 := by
        cases e : w2.H with
        | zero =>
          rw [e] at hp2
          have := hp2.at'.ok0.kind
          rw [hcond.2] at this
          cases this
        | succ h => exact ⟨h, rfl⟩
      rw [hH] at hp2
      obtain ⟨r, hrec⟩ : ∃ r, n.recs = [r] := List.length_eq_one_iff.1 hcond.1
      obtain ⟨c, hc⟩ := hp2.at'.okS.inner.ptrs r (by simp [hrec])
      have hch : n.getChild 0 = .ok c := by
        obtain ⟨a, b, d⟩ := r
        simp only at hc
        subst hc
        simp [Node.getChild, hrec]
      refine wp_upgrade0 hts2 er2 hr0 ?_
      intro w3 hi3 k3 hts3
      obtain ⟨er3, eh3⟩ := k3.root hts2 (by simp)
      rw [er2] at er3
      rw [hH] at eh3
      have hp3 := k3.pg hts2 (by simp) hp2
      refine LLg.wp_lift hch ?_
      have kid : ∀ w', PInv cfg w' → Pg cfg w' (h + 1) root n .bot → w'.Par root c ∧ ∃ cn lo', Pg cfg w' h c cn lo' := by
        intro w' hi' hp'
        refine ⟨hi'.par_of_at hp'.at' (by rw [hrec]; simp) hc, ?_⟩
        obtain ⟨G1, run, G2, lo2, f1, -, -, -⟩ := hi'.good.wf.follow (Nat.lt_of_succ_le hp'.le) hp'.at' (T := []) (r := r) (D := []) hrec
        rw [toPtr_of hc] at f1
        obtain ⟨cn, lq, hat⟩ := hi'.good.wf.at_of_mem (i := h) (Nat.le_of_succ_le hp'.le) (p := c) (by
          show c ∈ flat (w'.gr h)
          rw [f1]; simp)
        exact ⟨cn, lq, Nat.le_of_succ_le hp'.le, hat⟩
      obtain ⟨par3, cn3, lo3, hc3⟩ := kid w3 hi3 hp3
      have hcr : c ≠ root := hi3.ne_of_lvl hc3 hp3 (by omega)
      have hc0' : c ≠ 0 := hi3.at_ne hc3.at'
      refine wp_lockSIX hts3 (by simpa using hcr) (by simpa using hc0') (by simpa using hc0') (Or.inr ⟨root, by simp, par3⟩) ?_ ?_
      · intro w4 hi4 r4 hts4
        have hp4 := r4.kp0.pg hts3 (by simp) hp3
        obtain ⟨par4, cn4, lo4, hc4⟩ := kid w4 hi4 hp4
        have := hp4.le
        refine ⟨h, hc4.lvl hi4, Below.mk hi4 hts4 (by simp) ?_ ?_⟩
        · intro q hq
          simp only [List.mem_singleton] at hq
          subst hq
          exact ⟨_, w4.lvl0, w4.pri_up' (by omega)⟩
        · intro q hq
          simp only [List.mem_singleton] at hq
          subst hq
          exact ⟨_, hp4.lvl hi4, Or.inl (w4.pri_up' (by omega))⟩
      intro w4 hi4 k4 hts4 e4
      obtain ⟨er4, eh4⟩ := k4.root hts3 (by simp)
      rw [er3] at er4
      rw [eh3] at eh4
      have hp4 := k4.pg hts3 (by simp) hp3
      refine wp_free_root (I' := [c]) hts4 (by simp) (by simp) (by simp) (by simp) er4 eh4 hp4 hrec (toPtr_of hc) ?_ ?_
      · intro q
        simp only [List.mem_cons, List.not_mem_nil, or_false]
        constructor
        · rintro rfl; exact ⟨Or.inl rfl, hcr⟩
        · rintro ⟨h | h, h'⟩
          · exact h
          · exact absurd h h'
      intro w5 hi5 k5 hts5 er5 eh5
      refine wp_store_plain hts5 (by simp) ?_
      intro w6 hi6 k6 hts6 e6 e6' _ _
      have er6 : w6.root = c := by
        rw [cells0, cells0, er5, Option.some.injEq] at e6'
        exact treePage_inj e6'
      refine wp_downgradeSIX (X' := []) (O' := []) hts6 (by simp) (by rw [e6, cells0, er6]) (by simp) (by simp) (by simp) ?_
      intro w7 hi7 k7 hts7
      refine ih w7 c hi7 (hts7.congr (by simp [or_comm]) (fun _ => Iff.rfl) (fun _ => Iff.rfl)) ?_ ?_
      · rw [(k7.root hts6 (by simp)).1, er6]
      · exact fun op h => k7.call (k6.call (k5.call (k4.call (k3.call (hc2 op h)))))
    · rw [if_neg hcond]
      exact hk w2 root hi2 hts2 er2 hc2

end BT.PL
