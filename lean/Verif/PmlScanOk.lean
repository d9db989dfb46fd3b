import Verif.PmlReadOk
import Verif.PartOk

/-!
# PML's `Scan` is correct in the logic of `LockLogic.lean`: it takes effect leaf by leaf
-/

set_option linter.unusedSectionVars false

namespace BT.PL
open Spec
variable {K V : Type} [LinearOrder K] {cfg : Cfg K} {t : Tid} {w w1 w2 w' : World K V} {α : Type}
  {S I X O S' I' X' O' : List Ptr} {p : Ptr} {Q : α → World K V → Prop}

/-- Thread `t` enters phase `x`. -/
abbrev World.phase (w : World K V) (t : Tid) (x : PPhase K V) : World K V := { w with ps := ⟨w.ps.now, w.ps.maps, Spec.upd w.ps.ph t x⟩ }

theorem phase_same (w : World K V) (t : Tid) (x : PPhase K V) : (w.phase t x).ps.ph t = x := by
  show Spec.upd _ _ _ _ = _
  simp [Spec.upd]

/-- Reading a page and, by that, letting the scan read a part of its range. -/
theorem wp_load_scan {k : Node K V → Prog K V α} {n : Node K V} (hts : TS w t S I X O) (hp : p ∈ S ++ I ++ X) (hn : w.mem.heap p = some n)
    (hk : ∀ w1, PInv cfg w1 → Rely cfg t w w1 → TS w1 t S I X O → ∃ x, ScanStep (w1.ps.maps w1.ps.now) (w1.ps.ph t).forget x.forget ∧
      (∀ op t0, x ≠ .waiting op t0) ∧ (PInv cfg (w1.phase t x) → TS (w1.phase t x) t S I X O → WP cfg t (k n) Q (w1.phase t x))) :
    WP cfg t (Prog.load p >>= k) Q w := by
  intro (w1 : World K V) (hr : Rely cfg t w w1) (hi : PInv cfg w1)
  have hp' : p ∈ S ++ I ++ X ++ O := List.mem_append_left _ hp
  have hts1 := hts.rely hr
  have hn1 : w1.mem.heap p = some n := by rw [hr.kp0.heap hts hp']; exact hn
  have hg := hts1.live p hp'
  have hh : (w1.mem.lk p).holds t = true := by
    simp only [List.mem_append] at hp
    simp only [Lk.holds, Bool.or_eq_true, decide_eq_true_eq]
    rw [hts1.s p hg, hts1.six p hg, hts1.x p hg]
    exact hp
  have hrun : (Act.load p : Act K V (Node K V)).run t w1.mem = .run (n, w1.mem) := by simp only [Act.run, hn1, hh, if_true]
  change (Act.load p : Act K V (Node K V)).run t w1.mem ≠ .ub ∧ _ ∧ ((Act.load p : Act K V (Node K V)).run t w1.mem = .wait → _) ∧
    ∀ b m, (Act.load p : Act K V (Node K V)).run t w1.mem = .run (b, m) → _
  rw [hrun]
  refine ⟨by simp, ?_, by simp, ?_⟩
  · intro q e
    cases e
    exact hg
  · intro b m e
    cases e
    obtain ⟨x, h1, h2, h3⟩ := hk w1 hi hr hts1
    refine Or.inr ⟨(lg cfg).setPh w1 t x, rfl, ⟨(lg cfg).inv_setPh _ _ hi, fun u hu => (lg cfg).rely_setPh _ _ _ _ hu, ?_, trivial⟩,
      h3 ((lg cfg).inv_setPh _ _ hi) ((show TS ((lg cfg).setPh w1 t x) t S I X O from ⟨hts1.s, hts1.six, hts1.x, hts1.own, hts1.live⟩))⟩
    intro m0 h hp
    exact Past.scan rfl hp h1 h2

/-- The next leaf. -/
theorem PInv.next_leaf (hi : PInv cfg w) {n : Node K V} {lo : Bd K} (hp : Pg cfg w 0 p n lo) {q : Ptr} (hq : n.next = some q) :
    ∃ qn, Pg cfg w 0 q qn (hiB n.high) ∧ w.pri q 0 + 1 = w.pri p 0 ∧ q ≠ p ∧ q ≠ w.root := by
  obtain ⟨A, B, h1, h2, h3, h4, h5⟩ := hp.at'
  have hnext : n.next = B.head? := h4.2 (by simp [Node.hasNext, hp.at'.ok0.kind])
  rw [hq] at hnext
  cases B with
  | nil => cases hnext
  | cons q' B =>
    simp only [List.head?_cons, Option.some.injEq] at hnext
    subst hnext
    have hpri := (hi.pri_next hp.le h1).2 rfl
    obtain ⟨qn, g1, g2, g3⟩ := h5
    refine ⟨qn, ⟨hp.le, A ++ [p], B, by simp [h1], g1, ?_, by simpa using g2, g3⟩, hpri, ?_, ?_⟩
    · rw [Chain.append]
      exact ⟨lo, by simpa using h3, n, h2, by simpa using h4, rfl⟩
    · rintro rfl
      omega
    · rintro rfl
      have h0 : w.H = 0 := by
        refine hi.good.wf.disj w.H (Nat.le_refl _) 0 (Nat.zero_le _) w.root ?_ ?_
        · rw [hi.root_mem]; simp
        · rw [h1]; simp
      have := hi.root_mem
      rw [h0] at this
      rw [this] at h1
      have := congrArg List.length h1
      simp only [flat_cons, flat_nil, List.append_nil, List.length_cons, List.length_nil, List.length_append] at this
      omega

theorem wp_lockS_next {k : Unit → Prog K V α} {n : Node K V} {lo : Bd K} {q : Ptr} (hts : TS w t [p] [] [] []) (hp : Pg cfg w 0 p n lo)
    (hq : n.next = some q) (hqp : q ≠ p)
    (hk : ∀ w2 qn, PInv cfg w2 → Kp0 cfg t w w2 → TS w2 t [q, p] [] [] [] → w2.mem.heap q = some qn → Pg cfg w2 0 q qn (hiB n.high) →
      WP cfg t (k ()) Q w2) :
    WP cfg t (Prog.lockS q >>= k) Q w := by
  refine wp_lockS' hts (by simpa using hqp) ?_ ?_ ?_
  · intro w1 hi1 r1 hts1
    obtain ⟨qn, h1, h2, h3, h4⟩ := hi1.next_leaf (r1.kp0.pg hts (by simp) hp) hq
    refine ⟨by rw [hi1.at_cells h1.at']; simp, ?_⟩
    rintro q' ⟨rfl, h⟩
    rw [par0_iff] at h
    exact absurd h h4
  · intro w1 hi1 r1 hts1
    have hp1 := r1.kp0.pg hts (by simp) hp
    obtain ⟨qn, h1, h2, h3, h4⟩ := hi1.next_leaf hp1 hq
    refine ⟨0, h1.lvl hi1, Below.mk hi1 hts1 ?_ (by simp) (by simp)⟩
    intro x hx
    simp only [List.mem_singleton] at hx
    subst hx
    exact ⟨0, hp1.lvl hi1, by omega⟩
  · intro w2 hi2 k2 hts2 e2
    obtain ⟨qn, h1, -⟩ := hi2.next_leaf (k2.pg hts (by simp) hp) hq
    exact hk w2 qn hi2 k2 hts2 (by rw [e2, hi2.at_cells h1.at']) h1

/-- The loop over the iterator. -/
theorem wp_iterate {e : ScanKey K} : ∀ (fuel : Nat) (w : World K V) (p : Ptr) (n : Node K V) (lo : Bd K) (b : ScanKey K) (acc : List (K × V))
    (T D : List (Rec K V)) (Q : List (K × V) → World K V → Prop),
    TS w t [p] [] [] [] → w.mem.heap p = some n → Pg cfg w 0 p n lo → w.ps.ph t = .scanning b e acc →
    n.recs = T ++ D → (∀ x ∈ pairs T, ¬ AboveLo b x.1) → (∀ x ∈ pairs D, AboveLo b x.1) → (∀ k, lo.gtKey k → ¬ AboveLo b k) →
    (∀ k, (hiB n.high).leKey k → AboveLo b k) →
    (∀ w1 l, PInv cfg w1 → TS w1 t [] [] [] [] → w1.ps.ph t = .done (.recs (acc ++ l)) → Q l w1) →
    WP cfg t (CScan.iterate e fuel p T.length) Q w := by
  intro fuel
  induction fuel with
  | zero => intros; trivial
  | succ f ih =>
    intro w p n lo b acc T D Q hts hn hp hph hrec hT hD hA hB hk
    refine wp_load_scan hts (by simp) hn ?_
    intro w1 hi1 r1 hts1
    have hp1 := r1.kp0.pg hts (by simp) hp
    have hph1 : w1.ps.ph t = .scanning b e acc := r1.ph.trans hph
    obtain ⟨isEnd, m, l, e1, e2, e3, e4⟩ := scan_leaf hi1.good.wf hp1.at' (e := e) (acc := acc) hrec hT hD hA hB
    rw [hi1.map] at e3 e4
    rw [hph1]
    cases isEnd with
    | true =>
      refine ⟨.done (.recs (acc ++ l)), e3 rfl, by simp, ?_⟩
      intro hi2 hts2
      refine LLg.wp_lift e1 ?_
      refine LLg.wp_lift e2 ?_
      rw [if_pos rfl]
      refine wp_unlockS hts2 (by simp) (S' := []) (by simp) ?_
      intro w3 hi3 k3 hts3
      exact hk w3 l hi3 hts3 (k3.ph.trans (phase_same _ _ _))
    | false =>
      obtain ⟨c, q, c1, c2, c3⟩ := e4 rfl
      refine ⟨.scanning (some (c, true)) e (acc ++ l), c3, by simp, ?_⟩
      intro hi2 hts2
      refine LLg.wp_lift e1 ?_
      refine LLg.wp_lift e2 ?_
      rw [if_neg (by simp), c2]
      dsimp only
      have hp2 : Pg cfg (w1.phase t (.scanning (some (c, true)) e (acc ++ l))) 0 p n lo := ⟨hp1.le, hp1.at'⟩
      obtain ⟨-, -, -, hqp, -⟩ := hi2.next_leaf hp2 c2
      refine wp_lockS_next hts2 hp2 c2 hqp ?_
      intro w3 qn hi3 k3 hts3 e3 hq3
      refine wp_unlockS hts3 (by simp) (S' := [q]) ?_ ?_
      · intro x
        simp only [List.mem_cons, List.not_mem_nil, or_false]
        constructor
        · rintro rfl
          exact ⟨Or.inl rfl, hqp⟩
        · rintro ⟨h | h, h'⟩
          · exact h
          · exact absurd h h'
      intro w4 hi4 k4 hts4
      refine LLg.wp_bind ?_
      rw [c1] at hq3
      have hq4 := k4.pg hts3 (by simp) hq3
      refine ih w4 q qn (.key c) (some (c, true)) (acc ++ l) [] qn.recs _ hts4 ((k4.heap hts3 (by simp)).trans e3) hq4
        (k4.ph.trans (k3.ph.trans (phase_same _ _ _))) rfl (by simp) ?_ ?_ ?_ ?_
      · intro x hx
        exact (hq4.at'.ok0.pairs_range x hx).1
      · intro k hk'
        exact not_le.2 hk'
      · intro k hk'
        have h1 := hq4.at'.ok.lt
        cases hh : qn.high with
        | none => rw [hh] at hk'; exact hk'.elim
        | some d =>
          rw [hh] at hk' h1
          exact le_trans (le_of_lt h1) hk'
      · intro w5 l' hi5 hts5 hph5
        refine hk w5 (l ++ l') hi5 hts5 ?_
        rw [hph5, List.append_assoc]

/-- The first child of an inner page. -/
theorem first_child {i : Nat} {n : Node K V} (h : Pg cfg w (i + 1) p n .bot) : ∃ c, n.getChild 0 = .ok c ∧
    ∀ w', PInv cfg w' → Pg cfg w' (i + 1) p n .bot → w'.Par p c ∧ ∃ cn, Pg cfg w' i c cn .bot := by
  have hne : n.recs ≠ [] := (NodeOk.inner h.at'.okS).ne
  obtain ⟨r, D, hr⟩ := List.exists_cons_of_ne_nil hne
  obtain ⟨c, hc⟩ := (NodeOk.inner h.at'.okS).ptrs r (by rw [hr]; simp)
  refine ⟨c, ?_, ?_⟩
  · rw [Node.getChild, hr, List.getElem?_cons_zero]
    obtain ⟨rk, rp, rd⟩ := r
    simp only at hc
    subst hc
    rfl
  · intro w' hi hp
    refine ⟨hi.par_of_at hp.at' (by rw [hr]; simp) hc, ?_⟩
    obtain ⟨G1, run, G2, lo', e1, e2, e3, e4⟩ := hi.good.wf.follow (Nat.lt_of_succ_le hp.le) hp.at' (T := []) hr
    rw [if_pos rfl] at e4
    subst e4
    rw [toPtr_of hc] at e1 e3
    have hfl : flat (w'.gr i) = flat G1 ++ c :: (run ++ flat G2) := by rw [e1]; simp
    obtain ⟨cn, lo'', hat', hc'⟩ := hi.good.wf.at_of_append (Nat.le_of_succ_le hp.le) hfl
    have := At.lo_eq hi.good.wf (Nat.le_of_succ_le hp.le) hat' hfl e3
    subst this
    exact ⟨cn, Nat.le_of_succ_le hp.le, hat'⟩

theorem wp_leftmost {Q : Ptr → World K V → Prop} {op : Op K V}
    (hk : ∀ w1 p n, PInv cfg w1 → Call t op w1 → TS w1 t [p] [] [] [] → w1.mem.heap p = some n → Pg cfg w1 0 p n .bot → Q p w1) :
    ∀ (fuel i : Nat) (w : World K V) (p : Ptr) (n : Node K V), Call t op w → TS w t [p] [] [] [] → w.mem.heap p = some n →
      Pg cfg w i p n .bot → WP cfg t (CPml.leftmost fuel p) Q w := by
  intro fuel
  induction fuel with
  | zero => intros; trivial
  | succ f ih =>
    intro i w p n hc hts hn hp
    refine wp_load hts (by simp) hn ?_
    intro w1 hi1 r1 hts1
    have hp1 := r1.kp0.pg hts (by simp) hp
    have hn1 := (r1.kp0.heap hts (p := p) (by simp)).trans hn
    cases i with
    | zero =>
      rw [if_neg (by rw [hp.at'.ok0.kind]; simp)]
      exact hk w1 p n hi1 (r1.call hc) hts1 hn1 hp1
    | succ i =>
      rw [if_pos hp.at'.okS.kind]
      obtain ⟨c, s1, s2⟩ := first_child hp1
      refine LLg.wp_lift s1 ?_
      obtain ⟨par1, cn1, ch1⟩ := s2 w1 hi1 hp1
      have hcp : c ≠ p := hi1.ne_of_lvl ch1 hp1 (by omega)
      refine wp_lockS hts1 (by simpa using hcp) (Or.inr ⟨p, by simp, par1⟩) ?_ ?_
      · intro w2 hi2 r2 hts2
        have hp2 := r2.kp0.pg hts1 (by simp) hp1
        obtain ⟨par2, cn2, ch2⟩ := s2 w2 hi2 hp2
        refine ⟨i, ch2.lvl hi2, Below.mk hi2 hts2 ?_ (by simp) (by simp)⟩
        intro q hq
        simp only [List.mem_singleton] at hq
        subst hq
        exact ⟨_, hp2.lvl hi2, w2.pri_up (by omega)⟩
      intro w2 hi2 k2 hts2 e2
      have hp2 := k2.pg hts1 (by simp) hp1
      obtain ⟨par2, cn2, ch2⟩ := s2 w2 hi2 hp2
      refine wp_unlockS hts2 (by simp) (S' := [c]) ?_ ?_
      · intro q
        simp only [List.mem_cons, List.not_mem_nil, or_false]
        constructor
        · rintro rfl
          exact ⟨Or.inl rfl, hcp⟩
        · rintro ⟨h | h, h'⟩
          · exact h
          · exact absurd h h'
      intro w3 hi3 k3 hts3
      refine ih i w3 c cn2 (k3.call (k2.call (r1.call hc))) hts3 ?_ (k3.pg hts2 (by simp) ch2)
      rw [k3.heap hts2 (by simp), e2, hi2.at_cells ch2.at']

/-- The first leaf of a scan. -/
def First (b : ScanKey K) (n : Node K V) (lo : Bd K) : Prop :=
  match b with
  | none => lo = .bot
  | some (k, _) => lo.leKey k ∧ (hiB n.high).gtKey k

theorem wp_firstLeaf {Q : Ptr → World K V → Prop} {op : Op K V} (b : ScanKey K) (fuel : Nat) {i : Nat} {n : Node K V} (hc : Call t op w)
    (hts : TS w t [p] [] [] []) (hn : w.mem.heap p = some n) (hp : Pg cfg w i p n .bot) (hh : n.high = none)
    (hk : ∀ w1 p n lo, PInv cfg w1 → Call t op w1 → TS w1 t [p] [] [] [] → w1.mem.heap p = some n → Pg cfg w1 0 p n lo → First b n lo → Q p w1) :
    WP cfg t (CPml.firstLeaf fuel b p) Q w := by
  unfold CPml.firstLeaf
  cases b with
  | none => exact wp_leftmost (fun w1 p n h1 h2 h3 h4 h5 => hk w1 p n .bot h1 h2 h3 h4 h5 rfl) fuel i w p n hc hts hn hp
  | some kc =>
    obtain ⟨k, cl⟩ := kc
    exact wp_descendForRead (k := k) (fun w1 p n lo h1 h2 h3 h4 h5 h6 h7 => hk w1 p n lo h1 h2 h3 h4 h5 ⟨h6, h7⟩) fuel i w p n .bot hc hts hn hp
      trivial (by rw [hh]; trivial)

theorem beginPos_ok {b : ScanKey K} {n : Node K V} {lo : Bd K} (hok : NodeOk cfg false lo n) (hf : First b n lo) :
    ∃ T D, CScan.beginPos b n = .ok T.length ∧ n.recs = T ++ D ∧ (∀ x ∈ pairs T, ¬ AboveLo b x.1) ∧ (∀ x ∈ pairs D, AboveLo b x.1) ∧
      (∀ k, lo.gtKey k → ¬ AboveLo b k) ∧ (∀ k, (hiB n.high).leKey k → AboveLo b k) := by
  cases b with
  | none =>
    refine ⟨[], n.recs, rfl, rfl, by simp, fun _ _ => trivial, ?_, fun _ _ => trivial⟩
    intro k hk
    rw [show lo = .bot from hf] at hk
    exact hk.elim
  | some kc =>
    obtain ⟨k, cl⟩ := kc
    obtain ⟨T, D, t1, t2, t3, t4⟩ := scanBegin_ok hok k cl
    refine ⟨T, D, t1, t2, t3, t4, ?_, ?_⟩
    · intro x hx
      have := Bd.leKey_of_gtKey_lt hf.1 hx
      cases cl <;> simp [AboveLo] <;> order
    · intro x hx
      have := Bd.leKey_of_gtKey_lt hx hf.2
      cases cl <;> simp [AboveLo] <;> order

theorem wp_scan {Q : List (K × V) → World K V → Prop} {b e : ScanKey K} (fuel : Nat) (hts : TS w t [] [] [] []) (hc : Call t (.scan b e) w)
    (hk : ∀ w1 l, PInv cfg w1 → TS w1 t [] [] [] [] → w1.ps.ph t = .done (.recs l) → Q l w1) :
    WP cfg t (CPml.scan fuel b e) Q w := by
  refine LLg.wp_bind (wp_getRootForRead hts hc ?_)
  rintro w1 root n hi1 hc1 hts1 hn1 ⟨i, hp1⟩ hh1
  refine LLg.wp_bind (wp_firstLeaf b fuel hc1 hts1 hn1 hp1 hh1 ?_)
  clear hp1 hn1 hh1 hts1 hc1 hi1 w1 i n
  intro w1 p n lo hi1 hc1 hts1 hn1 hp1 hf
  obtain ⟨T, D, t1, t2, t3, t4, t5, t6⟩ := beginPos_ok hp1.at'.ok0 hf
  refine wp_load_scan hts1 (by simp) hn1 ?_
  intro w2 hi2 r2 hts2
  obtain ⟨t0, hph, -⟩ := r2.call hc1
  rw [hph]
  refine ⟨.scanning b e [], .start b e, by simp, ?_⟩
  intro hi3 hts3
  refine LLg.wp_lift t1 ?_
  have hp2 := r2.kp0.pg hts1 (by simp) hp1
  refine wp_iterate fuel _ p n lo b [] T D Q hts3 ((r2.kp0.heap hts1 (by simp)).trans hn1) ⟨hp2.le, hp2.at'⟩ (phase_same _ _ _) t2 t3 t4 t5 t6 ?_
  intro w4 l hi4 hts4 hph4
  exact hk w4 l hi4 hts4 hph4

end BT.PL
