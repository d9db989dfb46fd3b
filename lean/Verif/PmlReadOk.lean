import Verif.PmlCommit

/-!
# PML's `Read` is correct in the logic of `LockLogic.lean`
-/

set_option linter.unusedSectionVars false

namespace BT.PL
open Spec
variable {K V : Type} [LinearOrder K] {cfg : Cfg K} {t : Tid} {w w1 w2 w' : World K V} {α : Type}
  {S I X O S' I' X' O' : List Ptr} {p : Ptr} {Q : α → World K V → Prop}

/-- The call of thread `t` has not taken effect yet. -/
def Call (t : Tid) (op : Op K V) (w : World K V) : Prop := ∃ t0, w.ps.ph t = .waiting op t0 ∧ t0 ≤ w.ps.now

theorem Kp.call {E : Ptr → Prop} {op : Op K V} (h : Kp cfg t E w w2) (hc : Call t op w) : Call t op w2 := by
  obtain ⟨t0, h1, h2⟩ := hc
  exact ⟨t0, h.ph.trans h1, h2.trans h.now⟩
theorem Rely.call {op : Op K V} (h : Rely cfg t w w2) (hc : Call t op w) : Call t op w2 := h.kp.call hc

theorem wp_rootPtr {k : Ptr → Prog K V α} {root : Ptr} (hts : TS w t S I X O) (hp : 0 ∈ S ++ I ++ X)
    (hn : w.mem.heap 0 = some (treePage root))
    (hk : ∀ w1, PInv cfg w1 → Rely cfg t w w1 → TS w1 t S I X O → WP cfg t (k root) Q w1) :
    WP cfg t (CPml.rootPtr >>= k) Q w := by
  refine LLg.wp_bind ?_
  refine wp_load hts hp hn ?_
  intro w1 hi1 hr1 hts1
  exact hk w1 hi1 hr1 hts1

/-- The root of the tree. -/
theorem PInv.root_pg (hi : PInv cfg w) : ∃ n, Pg cfg w w.H w.root n .bot ∧ n.high = none := by
  obtain ⟨n, hat, hh⟩ := hi.good.wf.root_at hi.good.np
  exact ⟨n, ⟨Nat.le_refl _, hat⟩, hh⟩

/-- The child of an inner page that a search for `k` goes to. -/
structure Ch (cfg : Cfg K) (w : World K V) (k : K) (i : Nat) (n : Node K V) (lo : Bd K) (T D : List (Rec K V)) (r : Rec K V) (c : Ptr)
    (cn : Node K V) (lo' : Bd K) : Prop where
  recs : n.recs = T ++ r :: D
  pay : r.pay = .ptr c
  pg : Pg cfg w i c cn lo'
  high : cn.high = hdKey D n.high
  loKey : lo'.leKey k
  hi : (hiB cn.high).gtKey k
  loEq : lo' = if T = [] then lo else hiB r.key

theorem search_child {k : K} {i : Nat} {n : Node K V} {lo : Bd K} (h : Pg cfg w (i + 1) p n lo)
    (hhi : (hiB n.high).gtKey k) : ∃ T r D rc c, n.searchRecord k = .ok (rc, T.length) ∧ n.getChild T.length = .ok c ∧
      n.recs = T ++ r :: D ∧ r.pay = .ptr c ∧
      ∀ w', PInv cfg w' → Pg cfg w' (i + 1) p n lo → lo.leKey k → w'.Par p c ∧ ∃ cn lo', Ch cfg w' k i n lo T D r c cn lo' := by
  obtain ⟨T, r, D, rc, c, h1, h2, h3, h4, h5, h6, h7, h8⟩ := h.at'.okS.search_inner k hhi
  refine ⟨T, r, D, rc, c, h2, h4, h1, h3, ?_⟩
  intro w' hi hp hlo
  refine ⟨hi.par_of_at hp.at' (by rw [h1]; simp) h3, ?_⟩
  obtain ⟨G1, G2, cn, lo', g1, g2, g3, g4, g5, g6⟩ := hi.good.wf.child hi.good.np (Nat.lt_of_succ_le hp.le) hp.at' hlo h1 h7 h6
  rw [toPtr_of h3] at g2
  exact ⟨cn, lo', h1, h3, ⟨Nat.le_of_succ_le hp.le, g2⟩, g3, g4, g5, g6⟩

theorem wp_getRootForRead {Q : Ptr → World K V → Prop} (hts : TS w t [] [] [] []) {op : Op K V} (hc : Call t op w)
    (hk : ∀ w1 root n, PInv cfg w1 → Call t op w1 → TS w1 t [root] [] [] [] → w1.mem.heap root = some n →
      (∃ i, Pg cfg w1 i root n .bot) → n.high = none → Q root w1) :
    WP cfg t CPml.getRootForRead Q w := by
  refine wp_lockS hts (by simp) (Or.inl rfl) ?_ ?_
  · intro w1 hi1 _ hts1
    refine ⟨_, w1.lvl0, Below.mk hi1 hts1 ?_ ?_ ?_⟩ <;> simp
  intro w1 hi1 k1 hts1 e1
  rw [cells0] at e1
  refine wp_rootPtr hts1 (by simp) e1 ?_
  intro w2 hi2 r2 hts2
  have er2 := (r2.kp0.root hts1 (by simp)).1
  obtain ⟨n2, hp2, hh2⟩ := hi2.root_pg
  refine wp_lockS hts2 (p := w1.root) ?_ (Or.inr ⟨0, by simp, by rw [← er2]; exact par0 w2⟩) ?_ ?_
  · rw [← er2]
    simpa using hi2.root_ne
  · intro w3 hi3 r3 hts3
    obtain ⟨er3, eh3⟩ := r3.kp0.root hts2 (by simp)
    obtain ⟨n3, hp3, -⟩ := hi3.root_pg
    refine ⟨w3.H, ?_, Below.mk hi3 hts3 ?_ ?_ ?_⟩
    · rw [← er2, ← er3]
      exact hp3.lvl hi3
    · intro q hq
      simp only [List.mem_singleton] at hq
      subst hq
      exact ⟨_, w3.lvl0, w3.pri_up (by omega)⟩
    · simp
    · simp
  intro w3 hi3 k3 hts3 e3
  obtain ⟨er3, eh3⟩ := k3.root hts2 (by simp)
  obtain ⟨n3, hp3, hh3⟩ := hi3.root_pg
  have hr3 : w3.root = w1.root := er3.trans er2
  rw [hr3] at hp3
  have hne : w1.root ≠ 0 := hi3.at_ne hp3.at'
  refine wp_unlockS hts3 (by simp) (S' := [w1.root]) ?_ ?_
  · intro q
    simp only [List.mem_cons, List.not_mem_nil, or_false]
    constructor
    · rintro rfl
      exact ⟨Or.inl rfl, hne⟩
    · rintro ⟨h | h, h'⟩
      · exact h
      · exact absurd h h'
  intro w4 hi4 k4 hts4
  have hp4 := k4.pg hts3 (p := w1.root) (by simp) hp3
  have hh4 := k4.heap hts3 (p := w1.root) (by simp)
  refine hk w4 w1.root n3 hi4 (k4.call (k3.call (r2.call (k1.call hc)))) hts4 ?_ ⟨_, hp4⟩ hh3
  rw [hh4, e3, hi3.at_cells hp3.at']

theorem wp_descendForRead {Q : Ptr → World K V → Prop} {op : Op K V} {k : K}
    (hk : ∀ w1 p n lo, PInv cfg w1 → Call t op w1 → TS w1 t [p] [] [] [] → w1.mem.heap p = some n →
      Pg cfg w1 0 p n lo → lo.leKey k → (hiB n.high).gtKey k → Q p w1) :
    ∀ (fuel i : Nat) (w : World K V) (p : Ptr) (n : Node K V) (lo : Bd K), Call t op w → TS w t [p] [] [] [] → w.mem.heap p = some n →
      Pg cfg w i p n lo → lo.leKey k → (hiB n.high).gtKey k → WP cfg t (CPml.descendForRead k fuel p) Q w := by
  intro fuel
  induction fuel with
  | zero => intros; trivial
  | succ f ih =>
    intro i w p n lo hc hts hn hp hlo hhi
    refine wp_load hts (by simp) hn ?_
    intro w1 hi1 r1 hts1
    have hp1 := r1.kp0.pg hts (by simp) hp
    have hn1 := (r1.kp0.heap hts (p := p) (by simp)).trans hn
    cases i with
    | zero =>
      rw [if_neg (by rw [hp.at'.ok0.kind]; simp)]
      exact hk w1 p n lo hi1 (r1.call hc) hts1 hn1 hp1 hlo hhi
    | succ i =>
      rw [if_pos hp.at'.okS.kind]
      obtain ⟨T, r, D, rc, c, s1, s2, s3, s4, s5⟩ := search_child hp1 hhi
      refine LLg.wp_lift s1 ?_
      refine LLg.wp_lift s2 ?_
      obtain ⟨par1, cn1, lo1, ch1⟩ := s5 w1 hi1 hp1 hlo
      have hcp : c ≠ p := hi1.ne_of_lvl ch1.pg hp1 (by omega)
      refine wp_lockS hts1 (by simpa using hcp) (Or.inr ⟨p, by simp, par1⟩) ?_ ?_
      · intro w2 hi2 r2 hts2
        have hp2 := r2.kp0.pg hts1 (by simp) hp1
        obtain ⟨par2, cn2, lo2, ch2⟩ := s5 w2 hi2 hp2 hlo
        refine ⟨i, ch2.pg.lvl hi2, Below.mk hi2 hts2 ?_ (by simp) (by simp)⟩
        intro q hq
        simp only [List.mem_singleton] at hq
        subst hq
        exact ⟨_, hp2.lvl hi2, w2.pri_up (by omega)⟩
      intro w2 hi2 k2 hts2 e2
      have hp2 := k2.pg hts1 (by simp) hp1
      obtain ⟨par2, cn2, lo2, ch2⟩ := s5 w2 hi2 hp2 hlo
      refine wp_unlockS hts2 (by simp) (S' := [c]) ?_ ?_
      · intro q
        simp only [List.mem_cons, List.not_mem_nil, or_false]
        constructor
        · rintro rfl
          exact ⟨Or.inl rfl, hcp⟩
        · rintro ⟨h | h, h'⟩
          · exact h
          · exact absurd h h'
      intro w3 hi3 k3 hts3
      refine ih i w3 c cn2 lo2 (k3.call (k2.call (r1.call hc))) hts3 ?_ (k3.pg hts2 (by simp) ch2.pg) ch2.loKey ch2.hi
      rw [k3.heap hts2 (by simp), e2, hi2.at_cells ch2.pg.at']

theorem wp_read {Q : Option V → World K V → Prop} {k : K} (fuel : Nat) (hts : TS w t [] [] [] []) (hc : Call t (.read k) w)
    (hk : ∀ w1 v, PInv cfg w1 → TS w1 t [] [] [] [] → w1.ps.ph t = .done (.payload v) → Q v w1) :
    WP cfg t (CPml.read fuel k) Q w := by
  refine LLg.wp_bind (wp_getRootForRead hts hc ?_)
  rintro w1 root n hi1 hc1 hts1 hn1 ⟨i, hp1⟩ hh1
  refine LLg.wp_bind (wp_descendForRead (k := k) ?_ fuel i w1 root n .bot hc1 hts1 hn1 hp1 trivial (by rw [hh1]; trivial))
  clear hp1 hn1 hh1 hts1 hc1 hi1 w1 i n
  intro w1 p n lo hi1 hc1 hts1 hn1 hp1 hlo hhi
  obtain ⟨A, C, B, a1, a2⟩ := leafRead_ok hp1.at'.ok0 k
  obtain ⟨t0, hph, ht0⟩ := hc1
  refine wp_load_lin (out := .payload C) hts1 (by simp) hn1 hph ht0 ?_ ?_
  · intro w2 hi2 r2
    have hp2 := r2.kp0.pg hts1 (by simp) hp1
    obtain ⟨A', B', h1, -⟩ := hi2.good.wf.around hp2.at' hlo hhi a1
    rw [← hi2.map, ← h1.map]
    exact .read k
  intro w2 hi2 hd2 hts2
  refine LLg.wp_lift a2 ?_
  refine wp_unlockS hts2 (by simp) (S' := []) (by simp) ?_
  intro w3 hi3 k3 hts3
  exact hk w3 C hi3 hts3 (k3.ph.trans hd2)

end BT.PL
