import Verif.PmlRule

/-!
# Weakest preconditions of the single actions of PML
-/

set_option linter.unusedSectionVars false

namespace BT.PL
open Spec
variable {K V : Type} [LinearOrder K] {cfg : Cfg K} {t : Tid} {w w1 w2 w' : World K V} {α : Type}
  {S I X O S' I' X' O' : List Ptr} {p : Ptr} {Q : α → World K V → Prop}

/-- Weakest precondition for PML. -/
abbrev WP (cfg : Cfg K) (t : Tid) (c : Prog K V α) (Q : α → World K V → Prop) (w : World K V) : Prop := (lg cfg).wp t c Q w

/-- Nothing but thread `t`'s locks changes. -/
abbrev Kp0 (cfg : Cfg K) (t : Tid) (w w2 : World K V) : Prop := Kp cfg t (fun _ => False) w w2

theorem Kp0.keep (h : Kp0 cfg t w w2) {p : Ptr} (hp : w.Mine t p) : Keep cfg w w2 p := Kp.keep h p hp id
theorem Kp0.heap (h : Kp0 cfg t w w2) (ht : TS w t S I X O) (hp : p ∈ S ++ I ++ X ++ O) : w2.mem.heap p = w.mem.heap p :=
  (h.keep (ht.mine hp)).heap
theorem Kp0.cells (h : Kp0 cfg t w w2) (ht : TS w t S I X O) (hp : p ∈ S ++ I ++ X ++ O) : w2.cells p = w.cells p :=
  (h.keep (ht.mine hp)).cells
theorem Kp0.pg (h : Kp0 cfg t w w2) (ht : TS w t S I X O) (hp : p ∈ S ++ I ++ X ++ O) {i : Nat} {n : Node K V} {lo : Bd K}
    (hg : Pg cfg w i p n lo) : Pg cfg w2 i p n lo := (h.keep (ht.mine hp)).pg hg
theorem Rely.kp0 (hr : Rely cfg t w w1) : Kp0 cfg t w w1 := hr.kp
/-- The root is known to whoever has a lock of the tree object. -/
theorem treePage_inj {a b : Ptr} (h : (treePage a : Node K V) = treePage b) : a = b := by
  simp only [treePage, Node.mk.injEq, List.cons.injEq, Rec.mk.injEq, Pay.ptr.injEq] at h
  tauto
theorem cells0 (w : World K V) : w.cells 0 = some (treePage w.root) := by simp [World.cells]
theorem Kp0.root (h : Kp0 cfg t w w2) (ht : TS w t S I X O) (hp : 0 ∈ S ++ I ++ X ++ O) : w2.root = w.root ∧ w2.H = w.H := by
  have := h.cells ht hp
  rw [cells0, cells0, Option.some.injEq] at this
  exact ⟨treePage_inj this, (h.keep (ht.mine hp)).top rfl⟩

theorem Kp0.trans (h : Kp0 cfg t w w1) (h' : Kp0 cfg t w1 w2) (hm : ∀ p, w.Mine t p → w1.Mine t p) : Kp0 cfg t w w2 :=
  ⟨fun p hp _ => (h.keep hp).trans (h'.keep (hm p hp)), h'.ph.trans h.ph, h.now.trans h'.now⟩

theorem PInv.no_par0 (hi : PInv cfg w) {q : Ptr} : ¬ w.Par q 0 := by
  intro h
  by_cases hq : q = 0
  · subst hq
    rw [par0_iff] at h
    exact hi.root_ne h.symm
  · obtain ⟨i, h1, -, -, h2⟩ := hi.par_level hq h
    obtain ⟨g, hg, e⟩ := List.mem_map.1 h2
    have hm : 0 ∈ flat (w.gr i) := by rw [← e]; exact fst_mem_flat hg
    obtain ⟨n, lo, hat⟩ := hi.good.wf.at_of_mem (i := i) (by omega) hm
    exact hi.at_ne hat rfl

/-- A page whose lock is free is not being changed, unless it is the root and the tree object is locked. -/
theorem PInv.own_none (hi : PInv cfg w) (hx : (w.lk p).x = none) (hv : w.cells p ≠ none)
    (hpar : ∀ q, w.Gd q p → (w.lk q).x = none) : w.own p = none := by
  cases h : w.own p with
  | none => rfl
  | some u =>
    rcases hi.guard p u h hv with h1 | ⟨q, h1, h2⟩
    · rw [hx] at h1; cases h1
    · rw [hpar q h1] at h2; cases h2

theorem PInv.lt_fresh (hi : PInv cfg w) (h : w.cells p ≠ none) : p < w.mem.fresh := by
  by_contra h'
  exact h (hi.cells_none (not_lt.1 h'))

theorem PInv.mine_lt (hi : PInv cfg w) (h : w.Mine t p) : p < w.mem.fresh := by
  by_contra h'
  obtain ⟨h1, h2, h3, h4⟩ := hi.fresh p (not_lt.1 h')
  rcases h with h | h | h | h
  · rw [h2] at h; cases h
  · rw [h3] at h; cases h
  · rw [h4] at h; cases h
  · rw [h1] at h; cases h

theorem PInv.heap_ne (hi : PInv cfg w) (h : w.cells p ≠ none) : w.mem.heap p ≠ none := by
  cases ho : w.own p with
  | none => rw [hi.clean p ho h]; exact h
  | some u => exact (hi.owned p u ho).1

/-! ## Reading -/

theorem wp_load {k : Node K V → Prog K V α} {n : Node K V} (hts : TS w t S I X O) (hp : p ∈ S ++ I ++ X) (hn : w.mem.heap p = some n)
    (hk : ∀ w1, PInv cfg w1 → Rely cfg t w w1 → TS w1 t S I X O → WP cfg t (k n) Q w1) : WP cfg t (Prog.load p >>= k) Q w := by
  intro (w1 : World K V) (hr : Rely cfg t w w1) (hi : PInv cfg w1)
  have hp' : p ∈ S ++ I ++ X ++ O := List.mem_append_left _ hp
  have hts1 := hts.rely hr
  have hn1 : w1.mem.heap p = some n := by rw [hr.kp0.heap hts hp']; exact hn
  have hg := hts1.live p hp'
  have hh : (w1.mem.lk p).holds t = true := by
    simp only [List.mem_append] at hp
    simp only [Lk.holds, Bool.or_eq_true, decide_eq_true_eq]
    rw [hts1.s p hg, hts1.six p hg, hts1.x p hg]
    exact hp
  have hrun : (Act.load p : Act K V (Node K V)).run t w1.mem = .run (n, w1.mem) := by simp only [Act.run, hn1, hh, if_true]
  change (Act.load p : Act K V (Node K V)).run t w1.mem ≠ .ub ∧ _ ∧ ((Act.load p : Act K V (Node K V)).run t w1.mem = .wait → _) ∧
    ∀ b m, (Act.load p : Act K V (Node K V)).run t w1.mem = .run (b, m) → _
  rw [hrun]
  refine ⟨by simp, ?_, by simp, ?_⟩
  · intro q e
    cases e
    exact hg
  · intro b m e
    cases e
    exact Or.inr ⟨w1, rfl, ⟨hi, fun _ _ => Rely.refl, fun _ h => h, trivial⟩, hk w1 hi hr hts1⟩

/-- Reading a page and, by that, letting the call take effect. -/
theorem wp_load_lin {k : Node K V → Prog K V α} {n : Node K V} {op : Op K V} {t0 : Nat} {out : Out K V} (hts : TS w t S I X O)
    (hp : p ∈ S ++ I ++ X) (hn : w.mem.heap p = some n) (hph : w.ps.ph t = .waiting op t0) (ht0 : t0 ≤ w.ps.now)
    (hst : ∀ w1, PInv cfg w1 → Rely cfg t w w1 → Step (w1.ps.maps w1.ps.now) op out (w1.ps.maps w1.ps.now))
    (hk : ∀ w2, PInv cfg w2 → w2.ps.ph t = .done out → TS w2 t S I X O → WP cfg t (k n) Q w2) : WP cfg t (Prog.load p >>= k) Q w := by
  intro (w1 : World K V) (hr : Rely cfg t w w1) (hi : PInv cfg w1)
  have hp' : p ∈ S ++ I ++ X ++ O := List.mem_append_left _ hp
  have hts1 := hts.rely hr
  have hn1 : w1.mem.heap p = some n := by rw [hr.kp0.heap hts hp']; exact hn
  have hg := hts1.live p hp'
  have hh : (w1.mem.lk p).holds t = true := by
    simp only [List.mem_append] at hp
    simp only [Lk.holds, Bool.or_eq_true, decide_eq_true_eq]
    rw [hts1.s p hg, hts1.six p hg, hts1.x p hg]
    exact hp
  have hrun : (Act.load p : Act K V (Node K V)).run t w1.mem = .run (n, w1.mem) := by simp only [Act.run, hn1, hh, if_true]
  change (Act.load p : Act K V (Node K V)).run t w1.mem ≠ .ub ∧ _ ∧ ((Act.load p : Act K V (Node K V)).run t w1.mem = .wait → _) ∧
    ∀ b m, (Act.load p : Act K V (Node K V)).run t w1.mem = .run (b, m) → _
  rw [hrun]
  refine ⟨by simp, ?_, by simp, ?_⟩
  · intro q e
    cases e
    exact hg
  · intro b m e
    cases e
    have hph1 : w1.ps.ph t = .waiting op t0 := hr.ph.trans hph
    refine Or.inr ⟨(lg cfg).setPh w1 t (.done out), rfl, ⟨(lg cfg).inv_setPh _ _ hi, fun u hu => (lg cfg).rely_setPh _ _ _ _ hu, ?_, trivial⟩,
      hk _ ((lg cfg).inv_setPh _ _ hi) ?_ ((show TS ((lg cfg).setPh w1 t (.done out)) t S I X O from ⟨hts1.s, hts1.six, hts1.x, hts1.own, hts1.live⟩))⟩
    · intro m0 h hp
      exact Past.pastSame hp hph1 (ht0.trans hr.now) (Nat.le_refl _) (hst w1 hi hr)
    · show Spec.upd _ _ _ _ = _
      simp [Spec.upd]

/-! ## Locks -/

/-- The step of a lock action that does not wait. -/
theorem step_relock {a : Act K V Unit} {k : Unit → Prog K V α} {l : Lk} {o : Option Tid}
    (hrun : a.run t w1.mem = .run ((), w1.mem.setLk p l)) (hpg : a.page = some p) (hg : p ∉ w1.mem.gc)
    (hok : PInv cfg (w1.relock p l o) ∧ ∀ u, u ≠ t → Rely cfg u w1 (w1.relock p l o))
    (hk : WP cfg t (k ()) Q (w1.relock p l o)) :
    a.run t w1.mem ≠ .ub ∧ (∀ q, a.page = some q → q ∉ w1.mem.gc) ∧ (a.run t w1.mem = .wait → (lg cfg).Wait t w1 a) ∧
      ∀ b m, a.run t w1.mem = .run (b, m) →
        (m.raced = true ∧ (lg cfg).Race t w1 a) ∨ ∃ w2, (lg cfg).mem w2 = m ∧ (lg cfg).Ok t w1 w2 ∧ (lg cfg).wp t (k b) Q w2 := by
  rw [hrun]
  refine ⟨by simp, ?_, by simp, ?_⟩
  · intro q e
    rw [hpg] at e
    cases e
    exact hg
  · intro b m e
    cases e
    exact Or.inr ⟨_, rfl, ⟨hok.1, hok.2, fun _ h => h, trivial⟩, hk⟩

theorem kp_relock (hr : Rely cfg t w w1) (p : Ptr) (l : Lk) (o : Option Tid) : Kp0 cfg t w (w1.relock p l o) :=
  hr.kp_trans ⟨fun q _ _ => keep_relock w1 p l o q, rfl, Nat.le_refl _⟩

/-- Taking S on a page of the tree. -/
theorem wp_lockS' {k : Unit → Prog K V α} (hts : TS w t S I X O) (hS : p ∉ S)
    (hvis' : ∀ w1, PInv cfg w1 → Rely cfg t w w1 → TS w1 t S I X O → w1.cells p ≠ none ∧ ∀ q, w1.Gd q p → (w1.lk q).x = none)
    (hw : ∀ w1, PInv cfg w1 → Rely cfg t w w1 → TS w1 t S I X O → Wait t w1 (Act.lockS p : Act K V Unit))
    (hk : ∀ w2, PInv cfg w2 → Kp0 cfg t w w2 → TS w2 t (p :: S) I X O → w2.mem.heap p = w2.cells p → WP cfg t (k ()) Q w2) :
    WP cfg t (Prog.lockS p >>= k) Q w := by
  intro (w1 : World K V) (hr : Rely cfg t w w1) (hi : PInv cfg w1)
  have hts1 := hts.rely hr
  obtain ⟨hvis, hgd⟩ := hvis' w1 hi hr hts1
  have hg : p ∉ w1.mem.gc := fun e => hvis (hi.gc p e).1
  have hheap := hi.heap_ne hvis
  obtain ⟨n, hn⟩ := Option.ne_none_iff_exists'.1 hheap
  have hnt : t ∉ (w1.lk p).s := fun e => hS ((hts1.s p hg).1 e)
  by_cases hx : (w1.mem.lk p).x = none
  · have hown : w1.own p = none := hi.own_none hx hvis hgd
    have hok := relock_ok (t := t) (p := p) (l := { w1.lk p with s := t :: (w1.lk p).s }) (o := none) hi
      (fun u hu => by simp [hu]) (fun u _ => Iff.rfl) (Or.inl hown) (Or.inl rfl)
      (fun u e => by dsimp only at e; rw [hx] at e; cases e) (List.nodup_cons.2 ⟨hnt, hi.nodup p⟩)
      (fun _ => hi.clean p hown) (by simp) (by simp)
      (fun p' hne h1 h2 => by
        rcases hi.guard p' t h1 h2 with h | ⟨q, h3, h4⟩
        · exact Or.inl h
        · refine Or.inr ⟨q, h3, ?_⟩
          have : q ≠ p := by rintro rfl; rw [hx] at h4; cases h4
          rw [if_neg this]; exact h4)
      (fun u e => by dsimp only at e; rw [hx] at e; cases e) hg (hi.lt_fresh hvis) (fun _ _ _ _ _ _ a b => ⟨a, b⟩)
    refine step_relock (p := p) (l := { w1.lk p with s := t :: (w1.lk p).s }) (o := none) ?_ rfl hg hok ?_
    · simp only [Act.run, hn, hx, if_true]
    · refine hk _ hok.1 (kp_relock hr _ _ _) ?_ ?_
      · refine hts1.relock hg ⟨by simp, fun q e => by simp [e]⟩ ⟨?_, fun q e => Iff.rfl⟩ ⟨?_, fun q e => Iff.rfl⟩ ⟨?_, fun q e => Iff.rfl⟩
        · exact hts1.six p hg
        · exact hts1.x p hg
        · rw [← hts1.own p hg, hown]
      · exact hi.clean p hown hvis
  · have hrun : (Act.lockS p : Act K V Unit).run t w1.mem = .wait := by simp only [Act.run, hn, hx, if_false]
    change (Act.lockS p : Act K V Unit).run t w1.mem ≠ .ub ∧ _ ∧ ((Act.lockS p : Act K V Unit).run t w1.mem = .wait → _) ∧
      ∀ b m, (Act.lockS p : Act K V Unit).run t w1.mem = .run (b, m) → _
    rw [hrun]
    refine ⟨by simp, ?_, fun _ => hw w1 hi hr hts1, by simp⟩
    intro q e
    cases e
    exact hg

theorem wp_lockS {k : Unit → Prog K V α} (hts : TS w t S I X O) (hS : p ∉ S) (hpar : p = 0 ∨ ∃ q, q ∈ S ∧ w.Par q p)
    (hw : ∀ w1, PInv cfg w1 → Rely cfg t w w1 → TS w1 t S I X O → Wait t w1 (Act.lockS p : Act K V Unit))
    (hk : ∀ w2, PInv cfg w2 → Kp0 cfg t w w2 → TS w2 t (p :: S) I X O → w2.mem.heap p = w2.cells p → WP cfg t (k ()) Q w2) :
    WP cfg t (Prog.lockS p >>= k) Q w := by
  refine wp_lockS' hts hS ?_ hw hk
  intro w1 hi hr hts1
  have hpar1 : p = 0 ∨ ∃ q, q ∈ S ∧ w1.Par q p := by
    refine hpar.imp id ?_
    rintro ⟨q, h1, h2⟩
    exact ⟨q, h1, (par_congr (hr.kp0.cells hts (by simp [h1]))).2 h2⟩
  refine ⟨?_, ?_⟩
  · rcases hpar1 with rfl | ⟨q, -, h⟩
    · rw [cells0]; simp
    · exact hi.vis h
  · intro q hq
    rcases hpar1 with rfl | ⟨q', h1, h2⟩
    · exact absurd hq.2 hi.no_par0
    · have := hi.par_unique hq.2 h2
      subst this
      have hs : t ∈ (w1.lk q).s := (hts1.s q (hts1.live q (by simp [h1]))).2 h1
      cases hx' : (w1.lk q).x with
      | none => rfl
      | some u => rw [(hi.lkx q u hx').2] at hs; cases hs

theorem wp_unlockS {k : Unit → Prog K V α} (hts : TS w t S I X O) (hp : p ∈ S) (hS' : ∀ q, q ∈ S' ↔ q ∈ S ∧ q ≠ p)
    (hk : ∀ w2, PInv cfg w2 → Kp0 cfg t w w2 → TS w2 t S' I X O → WP cfg t (k ()) Q w2) :
    WP cfg t (Prog.unlockS p >>= k) Q w := by
  intro (w1 : World K V) (hr : Rely cfg t w w1) (hi : PInv cfg w1)
  have hts1 := hts.rely hr
  have hg := hts1.live p (by simp [hp])
  have hs : t ∈ (w1.lk p).s := (hts1.s p hg).2 hp
  have hown : w1.own p = none := by
    cases h : w1.own p with
    | none => rfl
    | some u => rw [(hi.owned p u h).2.1] at hs; cases hs
  have hx : (w1.lk p).x = none := by
    cases hx' : (w1.lk p).x with
    | none => rfl
    | some u => rw [(hi.lkx p u hx').2] at hs; cases hs
  have hok := relock_ok (t := t) (p := p) (l := { w1.lk p with s := (w1.lk p).s.erase t }) (o := none) hi
    (fun u hu => by simp [List.mem_erase_of_ne hu]) (fun u _ => Iff.rfl) (Or.inl hown) (Or.inl rfl)
    (fun u e => by dsimp only at e; rw [hx] at e; cases e) ((hi.nodup p).erase t)
    (fun _ => hi.clean p hown) (by simp) (by simp)
    (fun p' hne h1 h2 => by
      rcases hi.guard p' t h1 h2 with h | ⟨q, h3, h4⟩
      · exact Or.inl h
      · refine Or.inr ⟨q, h3, ?_⟩
        have : q ≠ p := by rintro rfl; rw [hx] at h4; cases h4
        rw [if_neg this]; exact h4)
    (fun u e => by dsimp only at e; rw [hx] at e; cases e) hg (hi.mine_lt (Or.inl hs)) (fun _ _ _ _ _ _ a b => ⟨a, b⟩)
  refine step_relock (p := p) (l := { w1.lk p with s := (w1.lk p).s.erase t }) (o := none) ?_ rfl hg hok ?_
  · simp only [Act.run, hs, if_true]
  · refine hk _ hok.1 (kp_relock hr _ _ _) ?_
    refine hts1.relock hg ⟨?_, fun q e => by simp [hS', e]⟩ ⟨hts1.six p hg, fun q e => Iff.rfl⟩ ⟨hts1.x p hg, fun q e => Iff.rfl⟩ ⟨?_, fun q e => Iff.rfl⟩
    · rw [hS']
      simp [(hi.nodup p).mem_erase_iff]
    · rw [← hts1.own p hg, hown]

theorem wp_lockSIX' {k : Unit → Prog K V α} (hts : TS w t S I X O) (hI : p ∉ I) (hX : p ∉ X) (hO : p ∉ O)
    (hpar : p = 0 ∨ ∃ q, (q ∈ I ∨ q ∈ X ∧ q ≠ 0) ∧ w.Par q p)
    (hw : ∀ w1, PInv cfg w1 → Rely cfg t w w1 → TS w1 t S I X O → ∃ j, w1.Lvl p j ∧ Below w1 t (2 * w1.pri p j + 1))
    (hk : ∀ w1 l, PInv cfg w1 → Rely cfg t w w1 → PInv cfg (w1.relock p l none) → TS (w1.relock p l none) t S (p :: I) X O →
      (w1.relock p l none).mem.heap p = (w1.relock p l none).cells p → WP cfg t (k ()) Q (w1.relock p l none)) :
    WP cfg t (Prog.lockSIX p >>= k) Q w := by
  intro (w1 : World K V) (hr : Rely cfg t w w1) (hi : PInv cfg w1)
  have hts1 := hts.rely hr
  have hpar1 : p = 0 ∨ ∃ q, (q ∈ I ∨ q ∈ X ∧ q ≠ 0) ∧ w1.Par q p := by
    refine hpar.imp id ?_
    rintro ⟨q, h1, h2⟩
    exact ⟨q, h1, (par_congr (hr.kp0.cells hts (by simp only [List.mem_append]; tauto))).2 h2⟩
  have hvis : w1.cells p ≠ none := by
    rcases hpar1 with rfl | ⟨q, -, h⟩
    · rw [cells0]; simp
    · exact hi.vis h
  have hg : p ∉ w1.mem.gc := fun e => hvis (hi.gc p e).1
  have hheap := hi.heap_ne hvis
  obtain ⟨n, hn⟩ := Option.ne_none_iff_exists'.1 hheap
  by_cases hx : (w1.mem.lk p).x = none ∧ (w1.mem.lk p).six = none
  · have hown : w1.own p = none := by
      refine hi.own_none hx.1 hvis ?_
      intro q hq
      rcases hpar1 with rfl | ⟨q', h1, h2⟩
      · exact absurd hq.2 hi.no_par0
      · have := hi.par_unique hq.2 h2
        subst this
        have h1 : q ∈ I := by
          rcases h1 with h1 | h1
          · exact h1
          · exact absurd hq.1 h1.2
        have hs : (w1.lk q).six = some t := (hts1.six q (hts1.live q (by simp [h1]))).2 h1
        cases hx' : (w1.lk q).x with
        | none => rfl
        | some u => rw [(hi.lkx q u hx').1] at hs; cases hs
    have hok := relock_ok (t := t) (p := p) (l := { w1.lk p with six := some t }) (o := none) hi
      (fun u hu => Iff.rfl)
      (fun u hu => by
        dsimp only
        rw [hx.2]
        constructor
        · intro e; cases e; exact absurd rfl hu
        · intro e; cases e) (Or.inl hown) (Or.inl rfl)
      (fun u e => by dsimp only at e; rw [hx.1] at e; cases e) (hi.nodup p)
      (fun _ => hi.clean p hown) (by simp) (by simp)
      (fun p' hne h1 h2 => by
        rcases hi.guard p' t h1 h2 with h | ⟨q, h3, h4⟩
        · exact Or.inl h
        · refine Or.inr ⟨q, h3, ?_⟩
          have : q ≠ p := by rintro rfl; rw [hx.1] at h4; cases h4
          rw [if_neg this]; exact h4)
      (fun u e => by dsimp only at e; rw [hx.1] at e; cases e) hg (hi.lt_fresh hvis)
      (fun u q hu hq h2 h3 _ _ => by
        exfalso
        rcases hpar1 with rfl | ⟨q', h4, h5⟩
        · exact hi.no_par0 h2
        · have := hi.par_unique h2 h5
          subst this
          rcases h4 with h4 | ⟨h4, -⟩
          · have h6 : (w1.lk q).six = some t := (hts1.six q (hts1.live q (by simp [h4]))).2 h4
            rw [(hi.lkx q u h3).1] at h6
            cases h6
          · have h6 : (w1.lk q).x = some t := (hts1.x q (hts1.live q (by simp [h4]))).2 h4
            rw [h6] at h3
            cases h3
            exact hu rfl)
    refine step_relock (p := p) (l := { w1.lk p with six := some t }) (o := none) ?_ rfl hg hok ?_
    · simp only [Act.run, hn, hx, true_and, if_true]
    · refine hk w1 _ hi hr hok.1 ?_ ?_
      · refine hts1.relock hg ⟨hts1.s p hg, fun q e => Iff.rfl⟩ ⟨by simp, fun q e => by simp [e]⟩ ⟨hts1.x p hg, fun q e => Iff.rfl⟩ ⟨?_, fun q e => Iff.rfl⟩
        rw [← hts1.own p hg, hown]
      · exact hi.clean p hown hvis
  · have hrun : (Act.lockSIX p : Act K V Unit).run t w1.mem = .wait := by simp only [Act.run, hn, hx, if_false]
    change (Act.lockSIX p : Act K V Unit).run t w1.mem ≠ .ub ∧ _ ∧ ((Act.lockSIX p : Act K V Unit).run t w1.mem = .wait → _) ∧
      ∀ b m, (Act.lockSIX p : Act K V Unit).run t w1.mem = .run (b, m) → _
    rw [hrun]
    refine ⟨by simp, ?_, fun _ => ⟨hw w1 hi hr hts1, ?_, ?_⟩, by simp⟩
    · intro q e
      cases e
      exact hg
    · refine hpar1.imp id ?_
      rintro ⟨q, h1, h2⟩
      rcases h1 with h1 | ⟨h1, -⟩
      · exact ⟨q, h2, Or.inl ((hts1.six q (hts1.live q (by simp [h1]))).2 h1)⟩
      · exact ⟨q, h2, Or.inr ((hts1.x q (hts1.live q (by simp [h1]))).2 h1)⟩
    · rintro (e | e)
      · exact hI ((hts1.six p hg).1 e)
      · exact hX ((hts1.x p hg).1 e)

theorem wp_lockSIX {k : Unit → Prog K V α} (hts : TS w t S I X O) (hI : p ∉ I) (hX : p ∉ X) (hO : p ∉ O)
    (hpar : p = 0 ∨ ∃ q, (q ∈ I ∨ q ∈ X ∧ q ≠ 0) ∧ w.Par q p)
    (hw : ∀ w1, PInv cfg w1 → Rely cfg t w w1 → TS w1 t S I X O → ∃ j, w1.Lvl p j ∧ Below w1 t (2 * w1.pri p j + 1))
    (hk : ∀ w2, PInv cfg w2 → Kp0 cfg t w w2 → TS w2 t S (p :: I) X O → w2.mem.heap p = w2.cells p → WP cfg t (k ()) Q w2) :
    WP cfg t (Prog.lockSIX p >>= k) Q w :=
  wp_lockSIX' hts hI hX hO hpar hw (fun _ _ _ hr h1 h2 h3 => hk _ h1 (kp_relock hr _ _ _) h2 h3)

theorem wp_unlockSIX {k : Unit → Prog K V α} (hts : TS w t S I X O) (hp : p ∈ I) (hI' : ∀ q, q ∈ I' ↔ q ∈ I ∧ q ≠ p)
    (hk : ∀ w2, PInv cfg w2 → Kp0 cfg t w w2 → TS w2 t S I' X O → WP cfg t (k ()) Q w2) :
    WP cfg t (Prog.unlockSIX p >>= k) Q w := by
  intro (w1 : World K V) (hr : Rely cfg t w w1) (hi : PInv cfg w1)
  have hts1 := hts.rely hr
  have hg := hts1.live p (by simp [hp])
  have h6 : (w1.lk p).six = some t := (hts1.six p hg).2 hp
  have hown : w1.own p = none ∨ w1.own p = some t := by
    cases h : w1.own p with
    | none => exact Or.inl rfl
    | some u =>
      have := (hi.owned p u h).2.2.1
      rw [h6] at this
      rcases this with e | e <;> cases e
      exact Or.inr rfl
  have hx : (w1.lk p).x = none := by
    cases hx' : (w1.lk p).x with
    | none => rfl
    | some u => rw [(hi.lkx p u hx').1] at h6; cases h6
  have hok := relock_ok (t := t) (p := p) (l := { w1.lk p with six := none }) (o := w1.own p) hi
    (fun u hu => Iff.rfl)
    (fun u hu => by
      dsimp only
      rw [h6]
      constructor
      · intro e; cases e
      · intro e; cases e; exact absurd rfl hu) hown hown
    (fun u e => by dsimp only at e; rw [hx] at e; cases e) (hi.nodup p)
    (fun h => hi.clean p h)
    (fun h => by
      obtain ⟨h1, h2, h3, h4⟩ := hi.owned p t h
      exact ⟨h1, h2, Or.inl rfl, h4⟩)
    (fun h1 h2 => by
      rcases hi.guard p t h1 h2 with h | ⟨q, h3, h4⟩
      · exact Or.inl h
      · refine Or.inr ⟨q, h3, ?_, h4⟩
        rintro rfl
        rw [hx] at h4; cases h4)
    (fun p' hne h1 h2 => by
      rcases hi.guard p' t h1 h2 with h | ⟨q, h3, h4⟩
      · exact Or.inl h
      · refine Or.inr ⟨q, h3, ?_⟩
        have : q ≠ p := by rintro rfl; rw [hx] at h4; cases h4
        rw [if_neg this]; exact h4)
    (fun u e => by dsimp only at e; rw [hx] at e; cases e) hg (hi.mine_lt (Or.inr (Or.inl h6)))
    (fun _ _ _ _ _ _ _ b => ⟨rfl, b⟩)
  refine step_relock (p := p) (l := { w1.lk p with six := none }) (o := w1.own p) ?_ rfl hg hok ?_
  · simp only [Act.run, h6, if_true]
  · refine hk _ hok.1 (kp_relock hr _ _ _) ?_
    exact hts1.relock hg ⟨hts1.s p hg, fun q e => Iff.rfl⟩ ⟨by simp [hI'], fun q e => by simp [hI', e]⟩ ⟨hts1.x p hg, fun q e => Iff.rfl⟩
      ⟨hts1.own p hg, fun q e => Iff.rfl⟩

/-- Taking SIX or X on a page nobody else knows. -/
theorem wp_lockSIX_own {k : Unit → Prog K V α} (hts : TS w t S I X O) (hX : p ∉ X) (hO : p ∈ O) (hI : p ∉ I)
    (hk : ∀ w2, PInv cfg w2 → Kp0 cfg t w w2 → TS w2 t S (p :: I) X O → WP cfg t (k ()) Q w2) :
    WP cfg t (Prog.lockSIX p >>= k) Q w := by
  intro (w1 : World K V) (hr : Rely cfg t w w1) (hi : PInv cfg w1)
  have hts1 := hts.rely hr
  have hg := hts1.live p (by simp [hO])
  have hown : w1.own p = some t := (hts1.own p hg).2 hO
  obtain ⟨h1, h2, h3, h4⟩ := hi.owned p t hown
  have hx : (w1.lk p).x = none := by
    rcases h4 with h4 | h4
    · exact h4
    · exact absurd ((hts1.x p hg).1 h4) hX
  have h6 : (w1.lk p).six = none := by
    rcases h3 with h3 | h3
    · exact h3
    · exact absurd ((hts1.six p hg).1 h3) hI
  clear h3 h4
  obtain ⟨n, hn⟩ := Option.ne_none_iff_exists'.1 h1
  have hok := relock_ok (t := t) (p := p) (l := { w1.lk p with six := some t }) (o := some t) hi
    (fun u hu => Iff.rfl)
    (fun u hu => by
      dsimp only
      rw [h6]
      constructor
      · intro e; cases e; exact absurd rfl hu
      · intro e; cases e) (Or.inr hown) (Or.inr rfl)
    (fun u e => by dsimp only at e; rw [hx] at e; cases e) (hi.nodup p)
    (by simp) (fun _ => ⟨h1, h2, Or.inr rfl, Or.inl hx⟩)
    (fun _ h2 => by
      rcases hi.guard p t hown h2 with h | ⟨q, h3, h4⟩
      · exact Or.inl h
      · refine Or.inr ⟨q, h3, ?_, h4⟩
        rintro rfl
        rw [hx] at h4; cases h4)
    (fun p' hne h1 h2 => by
      rcases hi.guard p' t h1 h2 with h | ⟨q, h3, h4⟩
      · exact Or.inl h
      · refine Or.inr ⟨q, h3, ?_⟩
        have : q ≠ p := by rintro rfl; rw [hx] at h4; cases h4
        rw [if_neg this]; exact h4)
    (fun u e => by dsimp only at e; rw [hx] at e; cases e) hg (hi.mine_lt (Or.inr (Or.inr (Or.inr hown))))
    (fun u q _ h1 h2 _ _ _ => by
      have := hi.own_par h1 h2 hown
      rw [hx] at this
      cases this)
  refine step_relock (p := p) (l := { w1.lk p with six := some t }) (o := some t) ?_ rfl hg hok ?_
  · simp only [Act.run, hn, hx, h6, and_self, if_true]
  · refine hk _ hok.1 (kp_relock hr _ _ _) ?_
    exact hts1.relock hg ⟨hts1.s p hg, fun q e => Iff.rfl⟩ ⟨by simp, fun q e => by simp [e]⟩ ⟨hts1.x p hg, fun q e => Iff.rfl⟩
      ⟨by simp [hO], fun q e => Iff.rfl⟩

theorem wp_lockX_own {k : Unit → Prog K V α} (hts : TS w t S I X O) (hX : p ∉ X) (hO : p ∈ O) (hI : p ∉ I)
    (hk : ∀ w2, PInv cfg w2 → Kp0 cfg t w w2 → TS w2 t S I (p :: X) O → WP cfg t (k ()) Q w2) :
    WP cfg t (Prog.lockX p >>= k) Q w := by
  intro (w1 : World K V) (hr : Rely cfg t w w1) (hi : PInv cfg w1)
  have hts1 := hts.rely hr
  have hg := hts1.live p (by simp [hO])
  have hown : w1.own p = some t := (hts1.own p hg).2 hO
  obtain ⟨h1, h2, h3, h4⟩ := hi.owned p t hown
  have hx : (w1.lk p).x = none := by
    rcases h4 with h4 | h4
    · exact h4
    · exact absurd ((hts1.x p hg).1 h4) hX
  have h6 : (w1.lk p).six = none := by
    rcases h3 with h3 | h3
    · exact h3
    · exact absurd ((hts1.six p hg).1 h3) hI
  obtain ⟨n, hn⟩ := Option.ne_none_iff_exists'.1 h1
  have hok := relock_ok (t := t) (p := p) (l := { w1.lk p with x := some t }) (o := some t) hi
    (fun u hu => Iff.rfl) (fun u hu => Iff.rfl) (Or.inr hown) (Or.inr rfl)
    (fun u e => ⟨h6, h2⟩) (hi.nodup p)
    (by simp) (fun _ => ⟨h1, h2, Or.inl h6, Or.inr rfl⟩)
    (fun _ _ => Or.inl rfl)
    (fun p' hne h1 h2 => by
      rcases hi.guard p' t h1 h2 with h | ⟨q, h3, h4⟩
      · exact Or.inl h
      · refine Or.inr ⟨q, h3, ?_⟩
        split
        · rfl
        · exact h4)
    (fun u e => e) hg (hi.mine_lt (Or.inr (Or.inr (Or.inr hown))))
    (fun u q _ h1 h2 _ _ _ => by
      have := hi.own_par h1 h2 hown
      rw [hx] at this
      cases this)
  refine step_relock (p := p) (l := { w1.lk p with x := some t }) (o := some t) ?_ rfl hg hok ?_
  · simp only [Act.run, hn, hx, h6, h2, and_self, if_true]
  · refine hk _ hok.1 (kp_relock hr _ _ _) ?_
    exact hts1.relock hg ⟨hts1.s p hg, fun q e => Iff.rfl⟩ ⟨hts1.six p hg, fun q e => Iff.rfl⟩ ⟨by simp, fun q e => by simp [e]⟩
      ⟨by simp [hO], fun q e => Iff.rfl⟩

theorem wp_upgradeX {k : Unit → Prog K V α} (hts : TS w t S I X O) (hp : p ∈ I) (hO : p ∉ O) (hS : p ∉ S)
    (hI' : ∀ q, q ∈ I' ↔ q ∈ I ∧ q ≠ p)
    (hw : ∀ w1, PInv cfg w1 → Rely cfg t w w1 → TS w1 t S I X O → ∃ j, w1.Lvl p j ∧ Below w1 t (2 * w1.pri p j))
    (hk : ∀ w2, PInv cfg w2 → Kp0 cfg t w w2 → TS w2 t S I' (p :: X) (p :: O) → WP cfg t (k ()) Q w2) :
    WP cfg t (Prog.upgradeX p >>= k) Q w := by
  intro (w1 : World K V) (hr : Rely cfg t w w1) (hi : PInv cfg w1)
  have hts1 := hts.rely hr
  have hg := hts1.live p (by simp [hp])
  have h6 : (w1.lk p).six = some t := (hts1.six p hg).2 hp
  have hown : w1.own p = none := by
    cases h : w1.own p with
    | none => rfl
    | some u =>
      have := (hi.owned p u h).2.2.1
      rw [h6] at this
      rcases this with e | e <;> cases e
      exact absurd ((hts1.own p hg).1 h) hO
  have hx : (w1.lk p).x = none := by
    cases hx' : (w1.lk p).x with
    | none => rfl
    | some u => rw [(hi.lkx p u hx').1] at h6; cases h6
  by_cases hs : (w1.mem.lk p).s = []
  · have hvis : w1.mem.heap p ≠ none := by
      obtain ⟨j, hl, -⟩ := hw w1 hi hr hts1
      exact hi.heap_ne (hi.lvl_cells hl)
    have hok := relock_ok (t := t) (p := p) (l := { w1.lk p with six := none, x := some t }) (o := some t) hi
      (fun u hu => Iff.rfl)
      (fun u hu => by
        dsimp only
        rw [h6]
        constructor
        · intro e; cases e
        · intro e; cases e; exact absurd rfl hu) (Or.inl hown) (Or.inr rfl)
      (fun u e => ⟨rfl, hs⟩) (hi.nodup p)
      (by simp) (fun _ => ⟨hvis, hs, Or.inl rfl, Or.inr rfl⟩)
      (fun _ _ => Or.inl rfl)
      (fun p' hne h1 h2 => by
        rcases hi.guard p' t h1 h2 with h | ⟨q, h3, h4⟩
        · exact Or.inl h
        · refine Or.inr ⟨q, h3, ?_⟩
          split
          · rfl
          · exact h4)
      (fun u e => e) hg (hi.mine_lt (Or.inr (Or.inl h6))) (fun _ _ _ _ _ _ a _ => by rw [h6] at a; cases a)
    refine step_relock (p := p) (l := { w1.lk p with six := none, x := some t }) (o := some t) ?_ rfl hg hok ?_
    · simp only [Act.run, h6, hs, if_true]
    · refine hk _ hok.1 (kp_relock hr _ _ _) ?_
      refine hts1.relock hg ⟨hts1.s p hg, fun q e => Iff.rfl⟩ ⟨by simp [hI'], fun q e => by simp [hI', e]⟩ ⟨by simp, fun q e => by simp [e]⟩
        ⟨by simp, fun q e => by simp [e]⟩
  · have hrun : (Act.upgradeX p : Act K V Unit).run t w1.mem = .wait := by simp only [Act.run, h6, hs, if_true, if_false]
    change (Act.upgradeX p : Act K V Unit).run t w1.mem ≠ .ub ∧ _ ∧ ((Act.upgradeX p : Act K V Unit).run t w1.mem = .wait → _) ∧
      ∀ b m, (Act.upgradeX p : Act K V Unit).run t w1.mem = .run (b, m) → _
    rw [hrun]
    refine ⟨by simp, ?_, fun _ => ⟨hw w1 hi hr hts1, fun e => hS ((hts1.s p hg).1 e)⟩, by simp⟩
    intro q e
    cases e
    exact hg

/-- Giving up X, in the cases that occur: the page is as the tree wants it (`clean`), or it is still being changed and its parent is
locked, or nobody knows it. -/
theorem giveX {l : Lk} {o : Option Tid} (hi : PInv cfg w) (hts : TS w t S I X O) (hp : p ∈ X)
    (hl : l.s = (w.lk p).s ∧ l.x = none ∧ (l.six = none ∨ l.six = some t))
    (ho : (o = none ∧ w.mem.heap p = w.cells p) ∨ (o = some t ∧ (w.cells p = none ∨ ∃ q, w.Gd q p ∧ q ≠ p ∧ q ∈ X)))
    (hO : ∀ q, q ∈ O → q ≠ p → q ∈ X ∨ w.cells q = none ∨ ∃ a, w.Gd a q ∧ a ≠ p ∧ a ∈ X) :
    PInv cfg (w.relock p l o) ∧ ∀ u, u ≠ t → Rely cfg u w (w.relock p l o) := by
  have hg := hts.live p (by simp [hp])
  have hx : (w.lk p).x = some t := (hts.x p hg).2 hp
  obtain ⟨h6, hs⟩ := hi.lkx p t hx
  have hown := hi.xown p t hx
  have hheap := (hi.owned p t hown).1
  obtain ⟨l1, l2, l3⟩ := hl
  refine relock_ok hi (fun u _ => by rw [l1]) ?_ (Or.inr hown) (by tauto) (fun u e => by rw [l2] at e; cases e)
    (by rw [l1]; exact hi.nodup p) ?_ (fun _ => ⟨hheap, by rw [l1]; exact hs, l3, Or.inl l2⟩) ?_ ?_ (fun u e => by rw [l2] at e; cases e) hg
    (hi.mine_lt (Or.inr (Or.inr (Or.inl hx)))) (fun _ _ _ _ _ _ _ b => by rw [hx] at b; cases b)
  · intro u hu
    rw [h6]
    rcases l3 with l3 | l3 <;> rw [l3]
    constructor
    · intro e; cases e; exact absurd rfl hu
    · intro e; cases e
  · intro e
    rcases ho with h | h
    · exact fun _ => h.2
    · rw [e] at h; cases h.1
  · intro e hc
    rcases ho with h | ⟨-, h | ⟨q, h1, h2, h3⟩⟩
    · rw [e] at h; cases h.1
    · exact absurd h hc
    · exact Or.inr ⟨q, h1, h2, (hts.x q (hts.live q (by simp [h3]))).2 h3⟩
  · intro q hq h1 h2
    have hgq : q ∉ w.mem.gc := fun e => h2 (hi.gc q e).1
    rcases hO q ((hts.own q hgq).1 h1) hq with h | h | ⟨a, a1, a2, a3⟩
    · exact Or.inl ((hts.x q hgq).2 h)
    · exact absurd h h2
    · refine Or.inr ⟨a, a1, ?_⟩
      rw [if_neg a2]
      exact (hts.x a (hts.live a (by simp [a3]))).2 a3

theorem wp_downgradeSIX' {k : Unit → Prog K V α} (hts : TS w t S I X O) (hp : p ∈ X)
    (hcl : w.mem.heap p = w.cells p)
    (hO : ∀ q, q ∈ O → q ≠ p → q ∈ X ∨ w.cells q = none)
    (hX' : ∀ q, q ∈ X' ↔ q ∈ X ∧ q ≠ p) (hO' : ∀ q, q ∈ O' ↔ q ∈ O ∧ q ≠ p)
    (hk : ∀ w1 l, PInv cfg w1 → Rely cfg t w w1 → PInv cfg (w1.relock p l none) → TS (w1.relock p l none) t S (p :: I) X' O' →
      WP cfg t (k ()) Q (w1.relock p l none)) :
    WP cfg t (Prog.downgradeSIX p >>= k) Q w := by
  intro (w1 : World K V) (hr : Rely cfg t w w1) (hi : PInv cfg w1)
  have hts1 := hts.rely hr
  have hg := hts1.live p (by simp [hp])
  have hx : (w1.lk p).x = some t := (hts1.x p hg).2 hp
  have hok := giveX (l := { w1.lk p with x := none, six := some t, ver := (w1.lk p).ver + 1 }) (o := none) hi hts1 hp
    ⟨rfl, rfl, Or.inr rfl⟩
    (Or.inl ⟨rfl, by rw [hr.kp0.heap hts (by simp [hp]), hr.kp0.cells hts (by simp [hp])]; exact hcl⟩)
    (fun q h1 h2 => by
      rcases hO q h1 h2 with h | h
      · exact Or.inl h
      · exact Or.inr (Or.inl (by rw [hr.kp0.cells hts (by simp [h1])]; exact h)))
  refine step_relock (p := p) (l := { w1.lk p with x := none, six := some t, ver := (w1.lk p).ver + 1 }) (o := none) ?_ rfl hg hok ?_
  · simp only [Act.run, hx, if_true]
  · refine hk w1 _ hi hr hok.1 ?_
    exact hts1.relock hg ⟨hts1.s p hg, fun q e => Iff.rfl⟩ ⟨by simp, fun q e => by simp [e]⟩ ⟨by simp [hX'], fun q e => by simp [hX', e]⟩
      ⟨by simp [hO'], fun q e => by simp [hO', e]⟩

theorem wp_downgradeSIX {k : Unit → Prog K V α} (hts : TS w t S I X O) (hp : p ∈ X)
    (hcl : w.mem.heap p = w.cells p)
    (hO : ∀ q, q ∈ O → q ≠ p → q ∈ X ∨ w.cells q = none)
    (hX' : ∀ q, q ∈ X' ↔ q ∈ X ∧ q ≠ p) (hO' : ∀ q, q ∈ O' ↔ q ∈ O ∧ q ≠ p)
    (hk : ∀ w2, PInv cfg w2 → Kp0 cfg t w w2 → TS w2 t S (p :: I) X' O' → WP cfg t (k ()) Q w2) :
    WP cfg t (Prog.downgradeSIX p >>= k) Q w :=
  wp_downgradeSIX' hts hp hcl hO hX' hO' (fun _ _ _ hr h1 h2 => hk _ h1 (kp_relock hr _ _ _) h2)

theorem wp_downgradeSIX_dirty {k : Unit → Prog K V α} (hts : TS w t S I X O) (hp : p ∈ X) (hpO : p ∈ O)
    (ha : w.Par 0 p) (hap : 0 ≠ p) (haX : 0 ∈ X)
    (hO : ∀ q, q ∈ O → q ≠ p → q ∈ X ∨ w.cells q = none)
    (hX' : ∀ q, q ∈ X' ↔ q ∈ X ∧ q ≠ p)
    (hk : ∀ w2, PInv cfg w2 → Kp0 cfg t w w2 → TS w2 t S (p :: I) X' O → WP cfg t (k ()) Q w2) :
    WP cfg t (Prog.downgradeSIX p >>= k) Q w := by
  intro (w1 : World K V) (hr : Rely cfg t w w1) (hi : PInv cfg w1)
  have hts1 := hts.rely hr
  have hg := hts1.live p (by simp [hp])
  have hx : (w1.lk p).x = some t := (hts1.x p hg).2 hp
  have hok := giveX (l := { w1.lk p with x := none, six := some t, ver := (w1.lk p).ver + 1 }) (o := some t) hi hts1 hp
    ⟨rfl, rfl, Or.inr rfl⟩
    (Or.inr ⟨rfl, Or.inr ⟨0, ⟨rfl, (par_congr (hr.kp0.cells hts (by simp [haX]))).2 ha⟩, hap, haX⟩⟩)
    (fun q h1 h2 => by
      rcases hO q h1 h2 with h | h
      · exact Or.inl h
      · exact Or.inr (Or.inl (by rw [hr.kp0.cells hts (by simp [h1])]; exact h)))
  refine step_relock (p := p) (l := { w1.lk p with x := none, six := some t, ver := (w1.lk p).ver + 1 }) (o := some t) ?_ rfl hg hok ?_
  · simp only [Act.run, hx, if_true]
  · refine hk _ hok.1 (kp_relock hr _ _ _) ?_
    exact hts1.relock hg ⟨hts1.s p hg, fun q e => Iff.rfl⟩ ⟨by simp, fun q e => by simp [e]⟩ ⟨by simp [hX'], fun q e => by simp [hX', e]⟩
      ⟨by simp [hpO], fun q e => Iff.rfl⟩

theorem wp_unlockX {k : Unit → Prog K V α} (hts : TS w t S I X O) (hp : p ∈ X)
    (hcl : w.mem.heap p = w.cells p)
    (hO : ∀ q, q ∈ O → q ≠ p → q ∈ X ∨ w.cells q = none)
    (hX' : ∀ q, q ∈ X' ↔ q ∈ X ∧ q ≠ p) (hO' : ∀ q, q ∈ O' ↔ q ∈ O ∧ q ≠ p)
    (hk : ∀ w2, PInv cfg w2 → Kp0 cfg t w w2 → TS w2 t S I X' O' → WP cfg t (k ()) Q w2) :
    WP cfg t (Prog.unlockX p >>= k) Q w := by
  intro (w1 : World K V) (hr : Rely cfg t w w1) (hi : PInv cfg w1)
  have hts1 := hts.rely hr
  have hg := hts1.live p (by simp [hp])
  have hx : (w1.lk p).x = some t := (hts1.x p hg).2 hp
  have h6 := (hi.lkx p t hx).1
  have hok := giveX (l := { w1.lk p with x := none, ver := (w1.lk p).ver + 1 }) (o := none) hi hts1 hp
    ⟨rfl, rfl, Or.inl h6⟩
    (Or.inl ⟨rfl, by rw [hr.kp0.heap hts (by simp [hp]), hr.kp0.cells hts (by simp [hp])]; exact hcl⟩)
    (fun q h1 h2 => by
      rcases hO q h1 h2 with h | h
      · exact Or.inl h
      · exact Or.inr (Or.inl (by rw [hr.kp0.cells hts (by simp [h1])]; exact h)))
  refine step_relock (p := p) (l := { w1.lk p with x := none, ver := (w1.lk p).ver + 1 }) (o := none) ?_ rfl hg hok ?_
  · simp only [Act.run, hx, if_true]
  · refine hk _ hok.1 (kp_relock hr _ _ _) ?_
    exact hts1.relock hg ⟨hts1.s p hg, fun q e => Iff.rfl⟩ ⟨hts1.six p hg, fun q e => Iff.rfl⟩ ⟨by simp [hX'], fun q e => by simp [hX', e]⟩
      ⟨by simp [hO'], fun q e => by simp [hO', e]⟩

/-- Giving up X on a page nobody else knows. -/
theorem wp_unlockX_own {k : Unit → Prog K V α} (hts : TS w t S I X O) (hp : p ∈ X) (hpO : p ∈ O) (hcl : w.cells p = none)
    (hO : ∀ q, q ∈ O → q ≠ p → q ∈ X ∨ w.cells q = none)
    (hX' : ∀ q, q ∈ X' ↔ q ∈ X ∧ q ≠ p)
    (hk : ∀ w2, PInv cfg w2 → Kp0 cfg t w w2 → TS w2 t S I X' O → WP cfg t (k ()) Q w2) :
    WP cfg t (Prog.unlockX p >>= k) Q w := by
  intro (w1 : World K V) (hr : Rely cfg t w w1) (hi : PInv cfg w1)
  have hts1 := hts.rely hr
  have hg := hts1.live p (by simp [hp])
  have hx : (w1.lk p).x = some t := (hts1.x p hg).2 hp
  have h6 := (hi.lkx p t hx).1
  have hok := giveX (l := { w1.lk p with x := none, ver := (w1.lk p).ver + 1 }) (o := some t) hi hts1 hp
    ⟨rfl, rfl, Or.inl h6⟩
    (Or.inr ⟨rfl, Or.inl (by rw [hr.kp0.cells hts (by simp [hp])]; exact hcl)⟩)
    (fun q h1 h2 => by
      rcases hO q h1 h2 with h | h
      · exact Or.inl h
      · exact Or.inr (Or.inl (by rw [hr.kp0.cells hts (by simp [h1])]; exact h)))
  refine step_relock (p := p) (l := { w1.lk p with x := none, ver := (w1.lk p).ver + 1 }) (o := some t) ?_ rfl hg hok ?_
  · simp only [Act.run, hx, if_true]
  · refine hk _ hok.1 (kp_relock hr _ _ _) ?_
    exact hts1.relock hg ⟨hts1.s p hg, fun q e => Iff.rfl⟩ ⟨hts1.six p hg, fun q e => Iff.rfl⟩ ⟨by simp [hX'], fun q e => by simp [hX', e]⟩
      ⟨by simp [hpO], fun q e => Iff.rfl⟩

end BT.PL
