import Verif.PmlInv

/-!
# Rules for the actions of PML
-/

set_option linter.unusedSectionVars false

namespace BT.PL
open Spec
variable {K V : Type} [LinearOrder K] {cfg : Cfg K} {t : Tid} {w w1 w2 w' : World K V}

/-! ## Steps that change one lock -/

/-- The world after a change of one lock. -/
def World.relock (w : World K V) (p : Ptr) (l : Lk) (o : Option Tid) : World K V :=
  { w with mem := w.mem.setLk p l, own := Spec.upd w.own p o }

theorem relock_lk (w : World K V) (p : Ptr) (l : Lk) (o : Option Tid) (q : Ptr) :
    (w.relock p l o).lk q = if q = p then l else w.lk q := rfl
theorem relock_own (w : World K V) (p : Ptr) (l : Lk) (o : Option Tid) (q : Ptr) :
    (w.relock p l o).own q = if q = p then o else w.own q := rfl
theorem relock_par (w : World K V) (p : Ptr) (l : Lk) (o : Option Tid) (a q : Ptr) :
    (w.relock p l o).Par a q ↔ w.Par a q := Iff.rfl

theorem keep_relock (w : World K V) (p : Ptr) (l : Lk) (o : Option Tid) (q : Ptr) : Keep cfg w (w.relock p l o) q :=
  ⟨rfl, rfl, id, fun _ => rfl, fun _ _ _ h1 h2 => ⟨h1, h2⟩⟩

theorem relock_ok (hi : PInv cfg w) {p : Ptr} {l : Lk} {o : Option Tid}
    (hs : ∀ u, u ≠ t → (u ∈ l.s ↔ u ∈ (w.lk p).s)) (h6 : ∀ u, u ≠ t → (l.six = some u ↔ (w.lk p).six = some u))
    (hown : w.own p = none ∨ w.own p = some t) (ho : o = none ∨ o = some t)
    (hlkx : ∀ u, l.x = some u → l.six = none ∧ l.s = []) (hnd : l.s.Nodup)
    (hclean : o = none → w.cells p ≠ none → w.mem.heap p = w.cells p)
    (howned : o = some t → w.mem.heap p ≠ none ∧ l.s = [] ∧ (l.six = none ∨ l.six = some t) ∧ (l.x = none ∨ l.x = some t))
    (hguard : o = some t → w.cells p ≠ none → l.x = some t ∨ ∃ q, w.Gd q p ∧ q ≠ p ∧ (w.lk q).x = some t)
    (hguard' : ∀ p', p' ≠ p → w.own p' = some t → w.cells p' ≠ none →
      (w.lk p').x = some t ∨ ∃ q, w.Gd q p' ∧ (if q = p then l.x else (w.lk q).x) = some t)
    (hxown : ∀ u, l.x = some u → o = some u) (hgc : p ∉ w.mem.gc) (hf : p < w.mem.fresh)
    (hrsv : ∀ u q, u ≠ t → q ≠ 0 → w.Par q p → (w.lk q).x = some u → (w.lk p).six = none → (w.lk p).x = none →
      l.six = none ∧ l.x = none) :
    PInv cfg (w.relock p l o) ∧ ∀ u, u ≠ t → Rely cfg u w (w.relock p l o) := by
  have hxt : ∀ u, l.x = some u → u = t := by
    intro u hu
    have := hxown u hu
    rcases ho with e | e <;> rw [e] at this <;> cases this
    rfl
  have hxt' : ∀ u, (w.lk p).x = some u → u = t := by
    intro u hu
    have := hi.xown p u hu
    rcases hown with e | e <;> rw [e] at this <;> cases this
    rfl
  refine ⟨⟨hi.good, hi.zero, hi.map, hi.raced, ?_, ?_, ?_, ?_, ?_, ?_, ?_, ?_⟩, ?_⟩
  · intro q u
    rw [relock_lk]
    by_cases e : q = p
    · rw [if_pos e]; exact hlkx u
    · rw [if_neg e]; exact hi.lkx q u
  · intro q
    rw [relock_lk]
    by_cases e : q = p
    · rw [if_pos e]; exact hnd
    · rw [if_neg e]; exact hi.nodup q
  · intro q
    rw [relock_own]
    by_cases e : q = p
    · rw [if_pos e, e]; exact hclean
    · rw [if_neg e]; exact hi.clean q
  · intro q u
    rw [relock_own, relock_lk]
    by_cases e : q = p
    · rw [if_pos e, if_pos e, e]
      intro hu
      have : u = t := by rcases ho with e' | e' <;> rw [e'] at hu <;> cases hu; rfl
      subst this
      exact howned hu
    · rw [if_neg e, if_neg e]; exact hi.owned q u
  · intro q u
    rw [relock_own, relock_lk]
    show _ → w.cells q ≠ none → _
    by_cases e : q = p
    · rw [if_pos e, if_pos e, e]
      intro hu hc
      have : u = t := by rcases ho with e' | e' <;> rw [e'] at hu <;> cases hu; rfl
      subst this
      rcases hguard hu hc with h | ⟨a, h1, h2, h3⟩
      · exact Or.inl h
      · exact Or.inr ⟨a, h1, by rw [relock_lk, if_neg h2]; exact h3⟩
    · rw [if_neg e, if_neg e]
      intro hu hc
      by_cases hut : u = t
      · subst hut
        rcases hguard' q e hu hc with h | ⟨a, h1, h2⟩
        · exact Or.inl h
        · refine Or.inr ⟨a, h1, ?_⟩
          rw [relock_lk]
          split
          · next h => rw [if_pos h] at h2; exact h2
          · next h => rw [if_neg h] at h2; exact h2
      · rcases hi.guard q u hu hc with h | ⟨a, h1, h2⟩
        · exact Or.inl h
        · refine Or.inr ⟨a, h1, ?_⟩
          have : a ≠ p := by rintro rfl; exact hut (hxt' u h2)
          rw [relock_lk, if_neg this]
          exact h2
  · intro q u
    rw [relock_own, relock_lk]
    by_cases e : q = p
    · rw [if_pos e, if_pos e]; exact hxown u
    · rw [if_neg e, if_neg e]; exact hi.xown q u
  · intro q hq
    have : q ≠ p := by rintro rfl; exact hgc hq
    rw [relock_own, if_neg this]
    exact hi.gc q hq
  · intro q hq
    have : q ≠ p := by rintro rfl; exact absurd (lt_of_lt_of_le hf hq) (lt_irrefl _)
    rw [relock_own, relock_lk, if_neg this, if_neg this]
    exact hi.fresh q hq
  · intro u hu
    refine ⟨?_, ?_, ?_, ?_, fun q _ => keep_relock w p l o q, fun _ h => h, rfl, Nat.le_refl _, fun _ _ => rfl, ?_⟩
    · intro q
      rw [relock_lk]
      by_cases e : q = p
      · rw [if_pos e, e]; exact hs u hu
      · rw [if_neg e]
    · intro q
      rw [relock_lk]
      by_cases e : q = p
      · rw [if_pos e, e]; exact h6 u hu
      · rw [if_neg e]
    · intro q
      rw [relock_lk]
      by_cases e : q = p
      · rw [if_pos e, e]
        exact ⟨fun h => absurd (hxt u h) hu, fun h => absurd (hxt' u h) hu⟩
      · rw [if_neg e]
    · intro q
      rw [relock_own]
      by_cases e : q = p
      · rw [if_pos e, e]
        constructor
        · intro h; rcases ho with e' | e' <;> rw [e'] at h <;> cases h; exact absurd rfl hu
        · intro h; rcases hown with e' | e' <;> rw [e'] at h <;> cases h; exact absurd rfl hu
      · rw [if_neg e]
    · rintro p' ⟨q, h1, h2, h3, h4, h5⟩
      refine ⟨⟨q, h1, h2, ?_, ?_⟩, keep_relock w p l o p'⟩
      · rw [relock_lk, if_neg (by rintro rfl; exact hu (hxt' u h3))]
        exact h3
      · rw [relock_lk]
        by_cases e : p' = p
        · rw [if_pos e]
          rw [e] at h2 h4 h5
          exact hrsv u q hu h1 h2 h3 h4 h5
        · rw [if_neg e]
          exact ⟨h4, h5⟩

/-- What thread `t` holds after a change of one lock. -/
theorem TS.relock {S I X O S' I' X' O' : List Ptr} (h : TS w t S I X O) {p : Ptr} {l : Lk} {o : Option Tid} (hp : p ∉ w.mem.gc)
    (hs : (t ∈ l.s ↔ p ∈ S') ∧ ∀ q, q ≠ p → (q ∈ S' ↔ q ∈ S))
    (h6 : (l.six = some t ↔ p ∈ I') ∧ ∀ q, q ≠ p → (q ∈ I' ↔ q ∈ I))
    (hx : (l.x = some t ↔ p ∈ X') ∧ ∀ q, q ≠ p → (q ∈ X' ↔ q ∈ X))
    (ho : (o = some t ↔ p ∈ O') ∧ ∀ q, q ≠ p → (q ∈ O' ↔ q ∈ O)) : TS (w.relock p l o) t S' I' X' O' where
  s := fun q hq => by
    rw [relock_lk]
    by_cases e : q = p
    · rw [if_pos e, e]; exact hs.1
    · rw [if_neg e, hs.2 q e]; exact h.s q hq
  six := fun q hq => by
    rw [relock_lk]
    by_cases e : q = p
    · rw [if_pos e, e]; exact h6.1
    · rw [if_neg e, h6.2 q e]; exact h.six q hq
  x := fun q hq => by
    rw [relock_lk]
    by_cases e : q = p
    · rw [if_pos e, e]; exact hx.1
    · rw [if_neg e, hx.2 q e]; exact h.x q hq
  own := fun q hq => by
    rw [relock_own]
    by_cases e : q = p
    · rw [if_pos e, e]; exact ho.1
    · rw [if_neg e, ho.2 q e]; exact h.own q hq
  live := fun q hq => by
    show q ∉ w.mem.gc
    by_cases e : q = p
    · rw [e]; exact hp
    · refine h.live q ?_
      simp only [List.mem_append] at hq ⊢
      rw [hs.2 q e, h6.2 q e, hx.2 q e, ho.2 q e] at hq
      exact hq

/-! ## Steps that change pages -/

/-- Thread `t` changes pages it owns. -/
structure Cm (cfg : Cfg K) (t : Tid) (w w2 : World K V) : Prop where
  good : Good cfg w2.st w2.H w2.gr
  zero : w2.vh 0 = none
  map : mapOf (contents w2.st w2.gr) = w2.ps.maps w2.ps.now
  raced : w2.mem.raced = false
  lk : w2.mem.lk = w.mem.lk
  fresh : w2.mem.fresh = w.mem.fresh
  heap : ∀ q, w.own q ≠ some t → w2.mem.heap q = w.mem.heap q
  heap' : ∀ q, w2.mem.heap q = none → w.mem.heap q = none
  own : ∀ q, w.own q ≠ some t → w2.own q = w.own q ∧ w2.cells q = w.cells q
  own' : ∀ q, w.own q = some t → w2.own q = none ∨ w2.own q = some t
  clean : ∀ q, w.own q = some t → w2.own q = none → w2.mem.heap q = w2.cells q
  guard : ∀ q, w.own q = some t → w2.own q = some t → w2.cells q ≠ none →
    (w.lk q).x = some t ∨ ∃ a, w2.Gd a q ∧ (w.lk a).x = some t
  xown : ∀ q, (w.lk q).x = some t → w2.own q = some t
  gc : ∀ q ∈ w.mem.gc, q ∈ w2.mem.gc
  gc' : ∀ q ∈ w2.mem.gc, (w.own q = some t → w2.own q = some t ∧ w2.cells q = none) ∧ (w.own q ≠ some t → q ∈ w.mem.gc)
  at' : ∀ q i n lo, w.own q ≠ some t → i ≤ w.H → At cfg w.st w.gr i q n lo →
    i ≤ w2.H ∧ At cfg w2.st w2.gr i q n lo
  top : w.own 0 ≠ some t → w2.H = w.H
  ph : ∀ u, u ≠ t → w2.ps.ph u = w.ps.ph u
  now : w.ps.now ≤ w2.ps.now
  maps : ∀ i, i ≤ w.ps.now → w2.ps.maps i = w.ps.maps i

theorem PInv.other (hi : PInv cfg w) {u : Tid} {p : Ptr} (h : w.own p = some t) (hm : w.Mine u p) : u = t := by
  obtain ⟨-, h1, h2, h3⟩ := hi.owned p t h
  rcases hm with h' | h' | h' | h'
  · rw [h1] at h'; cases h'
  · rw [h'] at h2; rcases h2 with h2 | h2 <;> cases h2; rfl
  · rw [h'] at h3; rcases h3 with h3 | h3 <;> cases h3; rfl
  · rw [h'] at h; cases h; rfl

theorem Cm.keep (c : Cm cfg t w w2) {p : Ptr} (ho : w.own p ≠ some t) :
    Keep cfg w w2 p where
  heap := c.heap p ho
  cells := (c.own p ho).2
  gc := fun h => (c.gc' p h).2 ho
  top := fun e => c.top (by rw [← e]; exact ho)
  at' := fun i n lo h1 h2 => c.at' p i n lo ho h1 h2

theorem PInv.vis (hi : PInv cfg w) {q : Ptr} (h : w.Par q p) : w.cells p ≠ none := by
  by_cases hq : q = 0
  · subst hq
    rw [par0_iff] at h
    subst h
    obtain ⟨n, hat, -⟩ := hi.good.wf.root_at hi.good.np
    rw [hi.at_cells hat]; simp
  · obtain ⟨i, h1, -, -, h2⟩ := hi.par_level hq h
    obtain ⟨g, hg, e⟩ := List.mem_map.1 h2
    have hm : p ∈ flat (w.gr i) := by rw [← e]; exact fst_mem_flat hg
    obtain ⟨n, lo, hat⟩ := hi.good.wf.at_of_mem (i := i) (by omega) hm
    rw [hi.at_cells hat]; simp

theorem par_congr {q : Ptr} (h : w2.cells q = w.cells q) : w2.Par q p ↔ w.Par q p := by unfold World.Par; rw [h]

theorem PInv.own_par (hi : PInv cfg w) {p q : Ptr} (hq : q ≠ 0) (hp : w.Par q p) (h : w.own p = some t) : (w.lk p).x = some t := by
  rcases hi.guard p t h (hi.vis hp) with e | ⟨a, ⟨rfl, h2⟩, -⟩
  · exact e
  · exact absurd (hi.par_unique hp h2) hq

theorem Cm.ok (hi : PInv cfg w) (c : Cm cfg t w w2) : PInv cfg w2 ∧ ∀ u, u ≠ t → Rely cfg u w w2 := by
  have hown : ∀ q u, u ≠ t → (w2.own q = some u ↔ w.own q = some u) := by
    intro q u hu
    by_cases h : w.own q = some t
    · constructor
      · intro h'
        rcases c.own' q h with e | e <;> rw [e] at h' <;> cases h'
        exact absurd rfl hu
      · intro h'
        rw [h] at h'; cases h'
        exact absurd rfl hu
    · rw [(c.own q h).1]
  refine ⟨⟨c.good, ⟨c.zero, by rw [c.fresh]; exact hi.zero.2⟩, c.map, c.raced, ?_, ?_, ?_, ?_, ?_, ?_, ?_, ?_⟩, ?_⟩
  · rw [World.lk, c.lk]; exact hi.lkx
  · rw [World.lk, c.lk]; exact hi.nodup
  · intro q hq hv
    by_cases h : w.own q = some t
    · exact c.clean q h hq
    · obtain ⟨h1, h2⟩ := c.own q h
      rw [h2] at hv
      rw [c.heap q h, h2]
      exact hi.clean q (h1 ▸ hq) hv
  · intro q u hu
    rw [World.lk, c.lk]
    by_cases h : w.own q = some t
    · have : u = t := by
        rcases c.own' q h with e | e <;> rw [e] at hu <;> cases hu
        rfl
      subst this
      obtain ⟨h1, h2⟩ := hi.owned q u h
      exact ⟨fun e => h1 (c.heap' q e), h2⟩
    · rw [(c.own q h).1] at hu
      obtain ⟨h1, h2⟩ := hi.owned q u hu
      exact ⟨fun e => h1 (c.heap' q e), h2⟩
  · intro q u hu hc
    rw [World.lk, c.lk]
    by_cases h : w.own q = some t
    · have : u = t := by
        rcases c.own' q h with e | e <;> rw [e] at hu <;> cases hu
        rfl
      subst this
      exact c.guard q h hu hc
    · obtain ⟨h1, h2⟩ := c.own q h
      rw [h1] at hu
      rw [h2] at hc
      rcases hi.guard q u hu hc with h3 | ⟨a, ⟨ha, n, h3, h4⟩, h5⟩
      · exact Or.inl h3
      · refine Or.inr ⟨a, ⟨ha, n, ?_, h4⟩, h5⟩
        rw [(c.own a ?_).2]
        · exact h3
        · rw [hi.xown a u h5]
          intro e
          cases e
          exact h hu
  · intro q u
    rw [World.lk, c.lk]
    intro hu
    by_cases h : u = t
    · subst h; exact c.xown q hu
    · exact (hown q u h).2 (hi.xown q u hu)
  · intro q hq
    by_cases h : w.own q = some t
    · obtain ⟨h1, h2⟩ := (c.gc' q hq).1 h
      exact ⟨h2, by rw [h1]; simp⟩
    · obtain ⟨h1, h2⟩ := c.own q h
      rw [h1, h2]
      exact hi.gc q ((c.gc' q hq).2 h)
  · intro q hq
    rw [World.lk, c.lk]
    rw [c.fresh] at hq
    have h := hi.fresh q hq
    refine ⟨?_, h.2⟩
    rw [(c.own q (by rw [h.1]; simp)).1]
    exact h.1
  · intro u hu
    have hlk : ∀ q, w2.lk q = w.lk q := fun q => by rw [World.lk, c.lk]
    refine ⟨fun q => by rw [hlk], fun q => by rw [hlk], fun q => by rw [hlk], fun q => hown q u hu, ?_, c.gc, c.ph u hu, c.now, c.maps, ?_⟩
    · intro q hq
      exact c.keep (fun h => hu (hi.other h hq))
    · rintro p ⟨q, h1, h2, h3, h4, h5⟩
      have hq : w.own q ≠ some t := by
        rw [hi.xown q u h3]
        intro e
        cases e
        exact hu rfl
      refine ⟨⟨q, h1, (par_congr (c.own q hq).2).2 h2, ?_, ?_, ?_⟩, c.keep ?_⟩
      · rw [hlk]; exact h3
      · rw [hlk]; exact h4
      · rw [hlk]; exact h5
      · intro e
        have := hi.own_par h1 h2 e
        rw [h5] at this
        cases this

/-! ## What a thread keeps -/

/-- A step of thread `t` (with steps of others before) that keeps its pages, except for those in `E`. -/
structure Kp (cfg : Cfg K) (t : Tid) (E : Ptr → Prop) (w w2 : World K V) : Prop where
  keep : ∀ p, w.Mine t p → ¬ E p → Keep cfg w w2 p
  ph : w2.ps.ph t = w.ps.ph t
  now : w.ps.now ≤ w2.ps.now

theorem Rely.kp (h : Rely cfg t w w2) : Kp cfg t (fun _ => False) w w2 := ⟨fun p hp _ => h.keep p hp, h.ph, h.now⟩

theorem Rely.kp_trans {E : Ptr → Prop} (h : Rely cfg t w w1) (h' : Kp cfg t E w1 w2) : Kp cfg t E w w2 :=
  ⟨fun p hp he => (h.keep p hp).trans (h'.keep p ((h.mine p).2 hp) he), h'.ph.trans h.ph, h.now.trans h'.now⟩

/-- A page of the tree. -/
structure Pg (cfg : Cfg K) (w : World K V) (i : Nat) (p : Ptr) (n : Node K V) (lo : Bd K) : Prop where
  le : i ≤ w.H
  at' : At cfg w.st w.gr i p n lo

theorem Keep.pg {i : Nat} {p : Ptr} {n : Node K V} {lo : Bd K} (h : Keep cfg w w' p) (hp : Pg cfg w i p n lo) : Pg cfg w' i p n lo := by
  obtain ⟨h1, h2⟩ := h.at' i n lo hp.le hp.at'
  exact ⟨h1, h2⟩

theorem Pg.lvl (hi : PInv cfg w) {i : Nat} {p : Ptr} {n : Node K V} {lo : Bd K} (h : Pg cfg w i p n lo) : w.Lvl p i := hi.at_lvl h.le h.at'

/-- Enough for `Below`. -/
theorem Below.mk {S I X O : List Ptr} {r : Nat} (hi : PInv cfg w) (h : TS w t S I X O)
    (hs : ∀ q ∈ S, ∃ l, w.Lvl q l ∧ r < 2 * w.pri q l) (hx : ∀ q ∈ X, ∃ l, w.Lvl q l ∧ r < 2 * w.pri q l + 1)
    (h6 : ∀ q ∈ I, ∃ l, w.Lvl q l ∧ (r < 2 * w.pri q l + 1 ∨ ∃ q', w.Par q' q ∧ q' ∈ I ++ X)) : Below w t r := by
  intro q l hl
  have hg := hi.lvl_live hl
  refine ⟨fun e => ?_, fun e => ?_, fun e => ?_⟩
  · obtain ⟨l', h1, h2⟩ := hs q ((h.s q hg).1 e)
    rw [hi.lvl_unique hl h1]; exact h2
  · obtain ⟨l', h1, h2⟩ := hx q ((h.x q hg).1 e)
    rw [hi.lvl_unique hl h1]; exact h2
  · obtain ⟨l', h1, h2⟩ := h6 q ((h.six q hg).1 e)
    rw [hi.lvl_unique hl h1]
    rcases h2 with h2 | ⟨q', h3, h4⟩
    · exact Or.inl h2
    · refine Or.inr ⟨q', h3, ?_⟩
      have hg' := h.live q' (by simp only [List.mem_append] at h4 ⊢; tauto)
      rcases List.mem_append.1 h4 with h4 | h4
      · exact Or.inl ((h.six q' hg').2 h4)
      · exact Or.inr ((h.x q' hg').2 h4)

end BT.PL
