import Verif.LockLogic
import Verif.PmlSeq
import Verif.Shape

/-!
# Worlds, invariant and rely condition of PML

Ghost state of a world: the pages as they are when all changes under way are ignored (`vh`, a well-formed tree), its root, height and levels,
and for every page the thread that is changing it (`own`).  A structure modification takes effect in `vh` at one instant: when the
page that is split or takes up its sibling (or, at the root, the tree object) is written.
-/

set_option linter.unusedSectionVars false

namespace BT.PL
open Spec
variable {K V : Type} [LinearOrder K]

structure World (K V : Type) [LinearOrder K] where
  mem : Mem K V
  ps : PState K V
  vh : Heap K V
  root : Ptr
  H : Nat
  gr : Nat → List Grp
  own : Ptr → Option Tid

namespace World
variable (w : World K V)
abbrev lk := w.mem.lk
abbrev st : St K V := ⟨w.vh, w.mem.fresh, w.root⟩
/-- The tree object and the pages of the tree. -/
def cells (p : Ptr) : Option (Node K V) := if p = 0 then some (treePage w.root) else w.vh p
/-- `q` refers to `p`. -/
def Par (q p : Ptr) : Prop := ∃ n, w.cells q = some n ∧ n.isInner = true ∧ ∃ r ∈ n.recs, r.pay = .ptr p
/-- Level of a page; the tree object is above the root. -/
def Lvl (p : Ptr) (j : Nat) : Prop := (p = 0 ∧ j = w.H + 1) ∨ (p ≠ 0 ∧ j ≤ w.H ∧ p ∈ flat (w.gr j))
/-- `p` is the root and `q` the tree object. -/
def Gd (q p : Ptr) : Prop := q = 0 ∧ w.Par q p
/-- Rank of a page at level `j`: the leaves from right to left, then the levels above. -/
def pri (p : Ptr) (j : Nat) : Nat :=
  if j = 0 then (flat (w.gr 0)).length - (flat (w.gr 0)).idxOf p else (flat (w.gr 0)).length + j
/-- Pages thread `t` has to do with. -/
def Mine (t : Tid) (p : Ptr) : Prop :=
  t ∈ (w.lk p).s ∨ (w.lk p).six = some t ∨ (w.lk p).x = some t ∨ w.own p = some t
/-- A page nobody else can change: thread `t` holds X on its parent and nobody holds SIX or X on the page. -/
def Rsv (t : Tid) (p : Ptr) : Prop := ∃ q, q ≠ 0 ∧ w.Par q p ∧ (w.lk q).x = some t ∧ (w.lk p).six = none ∧ (w.lk p).x = none
/-- Thread `t` holds SIX or X. -/
def Excl (t : Tid) (p : Ptr) : Prop := (w.lk p).six = some t ∨ (w.lk p).x = some t
end World

structure PInv (cfg : Cfg K) (w : World K V) : Prop where
  good : Good cfg w.st w.H w.gr
  zero : w.vh 0 = none ∧ 0 < w.mem.fresh
  map : mapOf (contents w.st w.gr) = w.ps.maps w.ps.now
  raced : w.mem.raced = false
  lkx : ∀ p t, (w.lk p).x = some t → (w.lk p).six = none ∧ (w.lk p).s = []
  nodup : ∀ p, (w.lk p).s.Nodup
  clean : ∀ p, w.own p = none → w.cells p ≠ none → w.mem.heap p = w.cells p
  owned : ∀ p t, w.own p = some t → w.mem.heap p ≠ none ∧ (w.lk p).s = [] ∧
    ((w.lk p).six = none ∨ (w.lk p).six = some t) ∧ ((w.lk p).x = none ∨ (w.lk p).x = some t)
  guard : ∀ p t, w.own p = some t → w.cells p ≠ none → (w.lk p).x = some t ∨ ∃ q, w.Gd q p ∧ (w.lk q).x = some t
  xown : ∀ p t, (w.lk p).x = some t → w.own p = some t
  gc : ∀ p ∈ w.mem.gc, w.cells p = none ∧ w.own p ≠ none
  fresh : ∀ p, w.mem.fresh ≤ p → w.own p = none ∧ (w.lk p).s = [] ∧ (w.lk p).six = none ∧ (w.lk p).x = none

/-- Page `p` stays as it is. -/
structure Keep (cfg : Cfg K) (w w' : World K V) (p : Ptr) : Prop where
  heap : w'.mem.heap p = w.mem.heap p
  cells : w'.cells p = w.cells p
  gc : p ∈ w'.mem.gc → p ∈ w.mem.gc
  top : p = 0 → w'.H = w.H
  at' : ∀ i n lo, i ≤ w.H → At cfg w.st w.gr i p n lo → i ≤ w'.H ∧ At cfg w'.st w'.gr i p n lo

/-- What other threads may do. -/
structure Rely (cfg : Cfg K) (t : Tid) (w w' : World K V) : Prop where
  s : ∀ p, t ∈ (w'.lk p).s ↔ t ∈ (w.lk p).s
  six : ∀ p, (w'.lk p).six = some t ↔ (w.lk p).six = some t
  x : ∀ p, (w'.lk p).x = some t ↔ (w.lk p).x = some t
  own : ∀ p, w'.own p = some t ↔ w.own p = some t
  keep : ∀ p, w.Mine t p → Keep cfg w w' p
  gc : ∀ p ∈ w.mem.gc, p ∈ w'.mem.gc
  ph : w'.ps.ph t = w.ps.ph t
  now : w.ps.now ≤ w'.ps.now
  maps : ∀ i, i ≤ w.ps.now → w'.ps.maps i = w.ps.maps i
  rsv : ∀ p, w.Rsv t p → w'.Rsv t p ∧ Keep cfg w w' p

variable {cfg : Cfg K} {t : Tid} {w w1 w2 w' : World K V}

theorem Keep.refl (p : Ptr) : Keep cfg w w p := ⟨rfl, rfl, id, fun _ => rfl, fun _ _ _ h1 h2 => ⟨h1, h2⟩⟩

theorem Keep.trans {p : Ptr} (h : Keep cfg w w1 p) (h' : Keep cfg w1 w2 p) : Keep cfg w w2 p where
  heap := h'.heap.trans h.heap
  cells := h'.cells.trans h.cells
  gc := fun e => h.gc (h'.gc e)
  top := fun e => (h'.top e).trans (h.top e)
  at' := fun i n lo h1 h2 => by
    obtain ⟨h3, h4⟩ := h.at' i n lo h1 h2
    exact h'.at' i n lo h3 h4

theorem Rely.mine (h : Rely cfg t w w') (p : Ptr) : w'.Mine t p ↔ w.Mine t p := by
  unfold World.Mine
  rw [h.s, h.six, h.x, h.own]

theorem Rely.refl : Rely cfg t w w :=
  ⟨fun _ => Iff.rfl, fun _ => Iff.rfl, fun _ => Iff.rfl, fun _ => Iff.rfl, fun p _ => Keep.refl p, fun _ h => h, rfl, Nat.le_refl _, fun _ _ => rfl,
    fun p h => ⟨h, Keep.refl p⟩⟩

theorem Rely.trans (h : Rely cfg t w w1) (h' : Rely cfg t w1 w2) : Rely cfg t w w2 where
  s := fun p => (h'.s p).trans (h.s p)
  six := fun p => (h'.six p).trans (h.six p)
  x := fun p => (h'.x p).trans (h.x p)
  own := fun p => (h'.own p).trans (h.own p)
  keep := fun p hp => (h.keep p hp).trans (h'.keep p ((h.mine p).2 hp))
  gc := fun p hp => h'.gc p (h.gc p hp)
  ph := h'.ph.trans h.ph
  now := h.now.trans h'.now
  maps := fun i hi => (h'.maps i (hi.trans h.now)).trans (h.maps i hi)
  rsv := fun p hp => ⟨(h'.rsv p (h.rsv p hp).1).1, (h.rsv p hp).2.trans (h'.rsv p (h.rsv p hp).1).2⟩

/-- Thread `t` holds the locks `S`, `I` (SIX) and `X` and is changing the pages `O`; released pages do not count. -/
structure TS (w : World K V) (t : Tid) (S I X O : List Ptr) : Prop where
  s : ∀ p, p ∉ w.mem.gc → (t ∈ (w.lk p).s ↔ p ∈ S)
  six : ∀ p, p ∉ w.mem.gc → ((w.lk p).six = some t ↔ p ∈ I)
  x : ∀ p, p ∉ w.mem.gc → ((w.lk p).x = some t ↔ p ∈ X)
  own : ∀ p, p ∉ w.mem.gc → (w.own p = some t ↔ p ∈ O)
  live : ∀ p, p ∈ S ++ I ++ X ++ O → p ∉ w.mem.gc

theorem TS.mine {S I X O : List Ptr} (h : TS w t S I X O) {p : Ptr} (hp : p ∈ S ++ I ++ X ++ O) : w.Mine t p := by
  have hl := h.live p hp
  simp only [List.mem_append] at hp
  unfold World.Mine
  rw [h.s p hl, h.six p hl, h.x p hl, h.own p hl]
  tauto

theorem TS.rely {S I X O : List Ptr} (h : TS w t S I X O) (hr : Rely cfg t w w') : TS w' t S I X O where
  s := fun p hp => (hr.s p).trans (h.s p (fun e => hp (hr.gc p e)))
  six := fun p hp => (hr.six p).trans (h.six p (fun e => hp (hr.gc p e)))
  x := fun p hp => (hr.x p).trans (h.x p (fun e => hp (hr.gc p e)))
  own := fun p hp => (hr.own p).trans (h.own p (fun e => hp (hr.gc p e)))
  live := fun p hp e => h.live p hp ((hr.keep p (h.mine hp)).gc e)

/-- All pages of which thread `t` holds a lock while it waits with rank `r` have a higher rank, or it holds the parent as well. -/
def Below (w : World K V) (t : Tid) (r : Nat) : Prop := ∀ q l, w.Lvl q l →
  (t ∈ (w.lk q).s → r < 2 * w.pri q l) ∧ ((w.lk q).x = some t → r < 2 * w.pri q l + 1) ∧
  ((w.lk q).six = some t → r < 2 * w.pri q l + 1 ∨ ∃ q', w.Par q' q ∧ w.Excl t q')

/-- What is known about a waiting thread. -/
def Wait (t : Tid) (w : World K V) : {β : Type} → Act K V β → Prop
  | _, .lockS p => ∃ j, w.Lvl p j ∧ Below w t (2 * w.pri p j + 1)
  | _, .lockSIX p => (∃ j, w.Lvl p j ∧ Below w t (2 * w.pri p j + 1)) ∧ (p = 0 ∨ ∃ q, w.Par q p ∧ w.Excl t q) ∧ ¬ w.Excl t p
  | _, .upgradeX p => (∃ j, w.Lvl p j ∧ Below w t (2 * w.pri p j)) ∧ t ∉ (w.lk p).s
  | _, _ => False

/-- A page is released while another thread has a shared lock on it. -/
def Race (t : Tid) (w : World K V) {β : Type} (a : Act K V β) : Prop :=
  ∃ p u, a.page = some p ∧ u ≠ t ∧ u ∈ (w.lk p).s

/-- Scans take effect in parts. -/
abbrev parts : Bool := true

/-- The logic for PML. -/
def lg (cfg : Cfg K) : LLg K V where
  W := World K V
  mem := World.mem
  parts := parts
  ps := World.ps
  Inv := PInv cfg
  Rely := Rely cfg
  Idle := fun t w => TS w t [] [] [] []
  setPh := fun w t x => { w with ps := ⟨w.ps.now, w.ps.maps, Spec.upd w.ps.ph t x⟩ }
  rely_refl := fun _ _ => Rely.refl
  rely_trans := Rely.trans
  rely_ph := Rely.ph
  idle_stable := fun hr h => h.rely hr
  mem_setPh := fun _ _ _ => rfl
  ps_setPh := fun _ _ _ => rfl
  inv_setPh := fun _ _ h => ⟨h.good, h.zero, h.map, h.raced, h.lkx, h.nodup, h.clean, h.owned, h.guard, h.xown, h.gc, h.fresh⟩
  idle_setPh := fun _ _ h => ⟨h.s, h.six, h.x, h.own, h.live⟩
  rely_setPh := fun w t x t' hne => ⟨fun _ => Iff.rfl, fun _ => Iff.rfl, fun _ => Iff.rfl, fun _ => Iff.rfl,
    fun _ _ => ⟨rfl, rfl, id, fun _ => rfl, fun _ _ _ h1 h2 => ⟨h1, h2⟩⟩, fun _ h => h,
    by simp [Spec.upd, hne], Nat.le_refl _, fun _ _ => rfl,
    fun _ h => ⟨h, ⟨rfl, rfl, id, fun _ => rfl, fun _ _ _ h1 h2 => ⟨h1, h2⟩⟩⟩⟩
  Wait := Wait
  Race := Race

/-! ## Facts about worlds -/

theorem PInv.cells_none (h : PInv cfg w) {p : Ptr} (hp : w.mem.fresh ≤ p) : w.cells p = none := by
  have h0 := h.zero.2
  have hne : p ≠ 0 := by rintro rfl; exact absurd (lt_of_lt_of_le h0 hp) (lt_irrefl _)
  unfold World.cells
  rw [if_neg hne]
  exact h.good.wf.fresh_none (s := w.st) hp

theorem PInv.at_ne (h : PInv cfg w) {i : Nat} {p : Ptr} {n : Node K V} {lo : Bd K} (hat : At cfg w.st w.gr i p n lo) : p ≠ 0 := by
  rintro rfl
  have := hat.heap
  simp only [h.zero.1] at this
  cases this

theorem PInv.at_cells (h : PInv cfg w) {i : Nat} {p : Ptr} {n : Node K V} {lo : Bd K} (hat : At cfg w.st w.gr i p n lo) :
    w.cells p = some n := by
  unfold World.cells
  rw [if_neg (h.at_ne hat)]
  exact hat.heap

theorem PInv.at_lvl (h : PInv cfg w) {i : Nat} {p : Ptr} {n : Node K V} {lo : Bd K} (hi : i ≤ w.H)
    (hat : At cfg w.st w.gr i p n lo) : w.Lvl p i := Or.inr ⟨h.at_ne hat, hi, hat.mem⟩

theorem World.lvl0 (w : World K V) : w.Lvl 0 (w.H + 1) := Or.inl ⟨rfl, rfl⟩

theorem World.pri_up (w : World K V) {p q : Ptr} {i j : Nat} (h : i < j) : 2 * w.pri p i + 1 < 2 * w.pri q j := by
  unfold World.pri
  rw [if_neg (show j ≠ 0 by omega)]
  split <;> omega
theorem World.pri_up' (w : World K V) {p q : Ptr} {i j : Nat} (h : i < j) : 2 * w.pri p i + 1 < 2 * w.pri q j + 1 := by
  have := w.pri_up (p := p) (q := q) h; omega
theorem World.pri_ux (w : World K V) {p q : Ptr} {i j : Nat} (h : i < j) : 2 * w.pri p i < 2 * w.pri q j + 1 := by
  have := w.pri_up (p := p) (q := q) h; omega

/-- The next page of a level has the same rank or, among the leaves, one less. -/
theorem PInv.pri_next (h : PInv cfg w) {i : Nat} {c q : Ptr} {A B : List Ptr} (hi : i ≤ w.H) (he : flat (w.gr i) = A ++ c :: q :: B) :
    w.pri q i ≤ w.pri c i ∧ (i = 0 → w.pri q i + 1 = w.pri c i) := by
  unfold World.pri
  by_cases h0 : i = 0
  · subst h0
    rw [if_pos rfl, if_pos rfl]
    have hn := h.good.wf.nodup hi
    rw [he] at hn ⊢
    have hc : c ∉ A := fun e => by
      have := (List.nodup_append.1 hn).2.2 c e c (by simp)
      exact this rfl
    have hq : q ∉ A := fun e => by
      have := (List.nodup_append.1 hn).2.2 q e q (by simp)
      exact this rfl
    have hcq : c ≠ q := by
      have := (List.nodup_append.1 hn).2.1
      rintro rfl
      simp at this
    rw [List.idxOf_append_of_notMem hc, List.idxOf_append_of_notMem hq, List.idxOf_cons_self, List.idxOf_cons_ne _ hcq, List.idxOf_cons_self]
    simp only [List.length_append, List.length_cons]
    omega
  · rw [if_neg h0, if_neg h0]
    exact ⟨Nat.le_refl _, fun e => absurd e h0⟩

theorem PInv.lvl_unique (h : PInv cfg w) {p : Ptr} {i j : Nat} (h1 : w.Lvl p i) (h2 : w.Lvl p j) : i = j := by
  rcases h1 with ⟨e1, e2⟩ | ⟨e1, e2, e3⟩ <;> rcases h2 with ⟨f1, f2⟩ | ⟨f1, f2, f3⟩
  · omega
  · exact absurd e1 f1
  · exact absurd f1 e1
  · exact h.good.wf.disj i e2 j f2 p e3 f3

theorem PInv.lvl_cells (h : PInv cfg w) {p : Ptr} {j : Nat} (hl : w.Lvl p j) : w.cells p ≠ none := by
  unfold World.cells
  rcases hl with ⟨rfl, -⟩ | ⟨h1, h2, h3⟩
  · simp
  · rw [if_neg h1]
    exact (h.good.wf.alloc p).2 ⟨j, h2, h3⟩

theorem PInv.lvl_live (h : PInv cfg w) {p : Ptr} {j : Nat} (hl : w.Lvl p j) : p ∉ w.mem.gc := fun e => h.lvl_cells hl (h.gc p e).1

theorem PInv.root_ne (h : PInv cfg w) : w.root ≠ 0 := by
  obtain ⟨n, hat, -⟩ := h.good.wf.root_at h.good.np
  exact h.at_ne hat

theorem par0 (w : World K V) : w.Par 0 w.root := ⟨treePage w.root, by simp [World.cells], rfl, ⟨none, .ptr w.root, false⟩, by simp [treePage], rfl⟩

theorem par0_iff {p : Ptr} : w.Par 0 p ↔ p = w.root := by
  constructor
  · rintro ⟨n, h1, -, r, h2, h3⟩
    simp only [World.cells, if_true, Option.some.injEq] at h1
    subst h1
    simp only [treePage, List.mem_singleton] at h2
    subst h2
    simp only [Pay.ptr.injEq] at h3
    exact h3.symm
  · rintro rfl
    exact par0 w

theorem PInv.root_mem (h : PInv cfg w) : w.gr w.H = [(w.root, [])] := by
  obtain ⟨run, hrun⟩ := h.good.wf.top
  have : run = [] := h.good.np w.H (Nat.le_refl _) (w.root, run) (by rw [hrun]; simp)
  rw [hrun, this]

/-- Where the parents are. -/
theorem PInv.par_level (h : PInv cfg w) {q p : Ptr} (hq : q ≠ 0) (hp : w.Par q p) :
    ∃ i, i < w.H ∧ q ∈ flat (w.gr (i + 1)) ∧ p ∈ (slotsOf w.vh q).map Prod.fst ∧ p ∈ (w.gr i).map Prod.fst := by
  obtain ⟨n, h1, h2, r, h3, h4⟩ := hp
  unfold World.cells at h1
  rw [if_neg hq] at h1
  obtain ⟨j, hj, hm⟩ := (h.good.wf.alloc q).1 (by show w.vh q ≠ none; rw [h1]; simp)
  obtain ⟨n', lo, hat⟩ := h.good.wf.at_of_mem hj hm
  have e : n' = n := by have := hat.heap; simp only [h1] at this; exact (Option.some.inj this).symm
  subst e
  have hj0 : j ≠ 0 := by
    rintro rfl
    have := hat.ok0.kind
    rw [h2] at this
    cases this
  obtain ⟨i, rfl⟩ : ∃ i, j = i + 1 := ⟨j - 1, by omega⟩
  have hs : p ∈ (slotsOf w.vh q).map Prod.fst := by
    rw [slotsOf_eq h1, slots_fst]
    exact List.mem_map.2 ⟨r, h3, toPtr_of h4⟩
  refine ⟨i, by omega, hm, hs, ?_⟩
  have hk := h.good.wf.kid i (by omega)
  unfold Kid at hk
  have := congrArg (List.map Prod.fst) hk
  rw [List.map_map, show (Prod.fst ∘ fun g : Grp => (g.1, highOf w.st.heap (lastOf g))) = Prod.fst from rfl] at this
  rw [← this, List.map_flatMap]
  exact List.mem_flatMap.2 ⟨q, hm, hs⟩

theorem flatMap_unique {α β : Type} {f : α → List β} : ∀ {U : List α}, (U.flatMap f).Nodup → ∀ {a b : α} {x : β},
    a ∈ U → b ∈ U → x ∈ f a → x ∈ f b → a = b
  | [], _, _, _, _, h, _, _, _ => by cases h
  | u :: U, hn, a, b, x, ha, hb, h1, h2 => by
    rw [List.flatMap_cons, List.nodup_append] at hn
    obtain ⟨n1, n2, n3⟩ := hn
    rcases List.mem_cons.1 ha with rfl | ha' <;> rcases List.mem_cons.1 hb with rfl | hb'
    · rfl
    · exact absurd rfl (n3 x h1 x (List.mem_flatMap.2 ⟨b, hb', h2⟩))
    · exact absurd rfl (n3 x h2 x (List.mem_flatMap.2 ⟨a, ha', h1⟩))
    · exact flatMap_unique n2 ha' hb' h1 h2

theorem PInv.par_unique (h : PInv cfg w) {q q' p : Ptr} (h1 : w.Par q p) (h2 : w.Par q' p) : q = q' := by
  have key : ∀ {a b : Ptr}, a ≠ 0 → w.Par a p → w.Par b p → a = b := by
    intro a b ha h1 h2
    obtain ⟨i, hi, a1, a2, a3⟩ := h.par_level ha h1
    by_cases hb : b = 0
    · subst hb
      rw [par0_iff] at h2
      subst h2
      have m1 : w.root ∈ flat (w.gr i) := by
        obtain ⟨g, hg, e⟩ := List.mem_map.1 a3
        rw [← e]
        exact fst_mem_flat hg
      have m2 : w.root ∈ flat (w.gr w.H) := by rw [h.root_mem]; simp
      have := h.good.wf.disj i (by omega) w.H (Nat.le_refl _) _ m1 m2
      omega
    · obtain ⟨j, hj, b1, b2, b3⟩ := h.par_level hb h2
      have hm : ∀ {i}, p ∈ (w.gr i).map Prod.fst → p ∈ flat (w.gr i) := by
        intro i a3
        obtain ⟨g, hg, e⟩ := List.mem_map.1 a3
        rw [← e]
        exact fst_mem_flat hg
      have := h.good.wf.disj i (by omega) j (by omega) p (hm a3) (hm b3)
      subst this
      have hk := h.good.wf.kid i hi
      unfold Kid at hk
      have hk' := congrArg (List.map Prod.fst) hk
      rw [List.map_map, show (Prod.fst ∘ fun g : Grp => (g.1, highOf w.st.heap (lastOf g))) = Prod.fst from rfl, List.map_flatMap] at hk'
      have hn := h.good.wf.fst_nodup (i := i) (by omega)
      rw [← hk'] at hn
      exact flatMap_unique hn a1 b1 a2 b2
  by_cases hq : q = 0
  · by_cases hq' : q' = 0
    · rw [hq, hq']
    · exact (key hq' h2 h1).symm
  · exact key hq h1 h2

/-- A child of an inner page. -/
theorem PInv.par_of_at (h : PInv cfg w) {i : Nat} {p c : Ptr} {n : Node K V} {lo : Bd K} {r : Rec K V}
    (hat : At cfg w.st w.gr (i + 1) p n lo) (hr : r ∈ n.recs) (hc : r.pay = .ptr c) : w.Par p c :=
  ⟨n, h.at_cells hat, hat.okS.kind, r, hr, hc⟩

end BT.PL
