import Verif.Conc
import Verif.PmlLive
import Verif.SpecTorn

/-!
# Who holds which lock

A logic for the locks of a thread that needs no assumption about the other threads but that they run code of the same implementation.  `Vis`
is what a thread knows about the memory: the locks it holds, the contents of pages it has read under a lock and the versions it has seen.
`Act.vwp` gives for every action what is known afterwards; undefined behaviour and waiting satisfy every postcondition.  Nothing is said
about the contents of the tree.
-/

set_option linter.unusedSectionVars false

namespace BT

/-- The modes in which a thread holds a lock: how often in mode S, whether in mode SIX and whether in mode X. -/
structure Md where
  s : Nat := 0
  six : Bool := false
  x : Bool := false
  deriving DecidableEq

namespace Md
def none : Md := {}
def share : Md := { s := 1 }
def intent : Md := { six := true }
def excl : Md := { x := true }
end Md

/-- The modes in which thread `t` holds the lock. -/
def Lk.md (l : Lk) (t : Tid) : Md := ⟨l.s.count t, decide (l.six = some t), decide (l.x = some t)⟩

/-- The knowledge of a thread. -/
structure Vis (K V : Type) where
  L : Ptr → Md
  H : Ptr → Option (Node K V)
  vs : Ptr → Nat → Prop
  pk : Ptr → Nat → Node K V → Prop

/-- What differs between the implementations: a property of all pages, whether locks are taken in an order that excludes deadlocks, whether
pages are changed under X locks only, whether a thread waits for readers and X locks only while it holds no X lock, and whether there are no
readers' locks and a thread waits for X locks only while it holds nothing. -/
structure Lp (K V : Type) where
  pg : Node K V → Prop
  d : Bool
  np : Bool
  u : Bool
  z : Bool

variable {K V : Type}

namespace Vis
/-- The thread now holds the lock of `p` in the modes `md`. -/
def set (σ : Vis K V) (p : Ptr) (md : Md) : Vis K V :=
  { σ with L := Spec.upd σ.L p md, H := if md = Md.none then Spec.upd σ.H p Option.none else σ.H }
/-- The thread knows the contents of the page `p`. -/
def know (σ : Vis K V) (P : Lp K V) (p : Ptr) (n : Node K V) : Vis K V :=
  if P.np then { σ with H := Spec.upd σ.H p (some n) } else σ
/-- The version of `p` is at least `v`. -/
def ver (σ : Vis K V) (p : Ptr) (v : Nat) : Vis K V := { σ with vs := fun q w => σ.vs q w ∨ (q = p ∧ w = v) }
/-- Page `p` has been seen without a lock. -/
def saw (σ : Vis K V) (P : Lp K V) (p : Ptr) (n : Node K V) : Vis K V :=
  if P.np then { σ with pk := fun q w n' => σ.pk q w n' ∨ (q = p ∧ σ.vs p w ∧ n' = n) } else σ
/-- The contents of page `p`, if known, belong to version `v`. -/
def tag (σ : Vis K V) (p : Ptr) (v : Nat) (o : Option (Node K V)) : Vis K V :=
  { σ with pk := fun q w n' => σ.pk q w n' ∨ (q = p ∧ w = v ∧ o = some n') }
/-- The thread holds no lock. -/
def Free (σ : Vis K V) : Prop := ∀ p, σ.L p = Md.none
/-- The thread holds locks in mode S at most. -/
def NoW (σ : Vis K V) : Prop := ∀ p, (σ.L p).six = false ∧ (σ.L p).x = false
/-- The thread may wait for the X lock of another thread. -/
def Ask (σ : Vis K V) (P : Lp K V) : Prop := (P.d = true → σ.NoW) ∧ (P.u = true → ∀ p, (σ.L p).x = false) ∧ (P.z = true → σ.Free)
end Vis

/-- What has to be shown before an action, and what is known after it. -/
def Act.vwp (P : Lp K V) : {β : Type} → Act K V β → Vis K V → (β → Vis K V → Prop) → Prop
  | _, .getRoot, σ, Q => ∀ p, Q p σ
  | _, .setRoot _ _, σ, Q => Q () σ
  | _, .isInner _, σ, Q => ∀ b, Q b σ
  | _, .load p, σ, Q => ∀ n, P.pg n → σ.L p ≠ Md.none → (∀ n', σ.H p = some n' → n' = n) → Q n (σ.know P p n)
  | _, .peek p, σ, Q => ∀ n, P.pg n → Q n (σ.saw P p n)
  | _, .store p n, σ, Q => P.pg n ∧ ((σ.L p).x = true → Q () (σ.know P p n))
  | _, .poke _ n, σ, Q => P.np = false ∧ P.pg n ∧ Q () σ
  | _, .alloc n, σ, Q => P.pg n ∧ ∀ p, σ.L p = Md.none → (∀ q, σ.L q ≠ Md.none → q < p) → Q p σ
  | _, .retire _, σ, Q => Q () σ
  | _, .lockS p, σ, Q => σ.Ask P ∧ P.z = false ∧ ((σ.L p).x = false → Q () (σ.set p { σ.L p with s := (σ.L p).s + 1 }))
  | _, .unlockS p, σ, Q => 0 < (σ.L p).s → Q () (σ.set p { σ.L p with s := (σ.L p).s - 1 })
  | _, .lockSIX p, σ, Q => (P.d = true → σ.Free) ∧ ((σ.L p).six = false → (σ.L p).x = false → Q () (σ.set p { σ.L p with six := true }))
  | _, .unlockSIX p, σ, Q => (σ.L p).six = true → Q () (σ.set p { σ.L p with six := false })
  | _, .lockX p, σ, Q =>
    (P.u = true → ∀ q, σ.L q ≠ Md.none → σ.L q = Md.intent ∧ q < p) ∧ (P.z = true → σ.L p = Md.none) ∧
      (σ.L p = Md.none → Q () (σ.set p Md.excl))
  | _, .unlockX p, σ, Q => (σ.L p).x = true → Q () (σ.set p Md.none)
  | _, .unlockXVer p, σ, Q => (σ.L p).x = true → ∀ v, Q v (((σ.set p Md.none).ver p v).tag p v (σ.H p))
  | _, .upgradeX p, σ, Q =>
    (P.u = true → ∀ q, (σ.L q).s = 0 ∧ (σ.L q).x = false) ∧ ((σ.L p).six = true → (σ.L p).s = 0 → Q () (σ.set p Md.excl))
  | _, .downgradeSIX p, σ, Q => (σ.L p).x = true → Q () (σ.set p Md.intent)
  | _, .getVer p, σ, Q => σ.Ask P ∧ ∀ v, Q v (σ.ver p v)
  | _, .same _ _, σ, Q => ∀ b, Q b σ
  | _, .tryLockS p _, σ, Q => P.z = false ∧ Q false σ ∧ Q true (σ.set p { σ.L p with s := (σ.L p).s + 1 })
  | _, .tryLockSIX p v, σ, Q => (P.d = true → σ.Free) ∧ Q false σ ∧
    ((σ.L p).six = false → (σ.L p).x = false → ∀ n, P.pg n → (∀ n', σ.pk p v n' → n' = n) →
      Q true ((σ.set p { σ.L p with six := true }).know P p n))
  | _, .tryLockX p v, σ, Q => (P.u = true → σ.Free) ∧ (P.z = true → σ.Free) ∧ Q false σ ∧
    (σ.L p = Md.none → ∀ n, P.pg n → (∀ n', σ.pk p v n' → n' = n) → Q true ((σ.set p Md.excl).know P p n))
  | _, .note _, σ, Q => Q () σ
  | _, .free _, σ, Q => Q () σ

/-- What has to be shown before a piece of code runs so that `Q` holds when it ends. -/
def Prog.vwp (P : Lp K V) {α : Type} : Prog K V α → Vis K V → (α → Vis K V → Prop) → Prop
  | .ret a, σ, Q => Q a σ
  | .act a k, σ, Q => a.vwp P σ (fun b σ' => (k b).vwp P σ' Q)
  | .ub, _, _ => True
  | .stuck, _, _ => True

theorem Act.vwp_mono {P : Lp K V} {β : Type} {a : Act K V β} {σ : Vis K V} {Q Q' : β → Vis K V → Prop} (h : a.vwp P σ Q)
    (hQ : ∀ b σ', Q b σ' → Q' b σ') : a.vwp P σ Q' := by
  cases a with
  | getRoot => exact fun p => hQ _ _ (h p)
  | setRoot => exact hQ _ _ h
  | isInner => exact fun b => hQ _ _ (h b)
  | load p => exact fun n h1 h2 h3 => hQ _ _ (h n h1 h2 h3)
  | peek p => exact fun n h1 => hQ _ _ (h n h1)
  | store p n => exact ⟨h.1, fun h1 => hQ _ _ (h.2 h1)⟩
  | poke p n => exact ⟨h.1, h.2.1, hQ _ _ h.2.2⟩
  | alloc n => exact ⟨h.1, fun p h1 h2 => hQ _ _ (h.2 p h1 h2)⟩
  | retire => exact hQ _ _ h
  | lockS p => exact ⟨h.1, h.2.1, fun h1 => hQ _ _ (h.2.2 h1)⟩
  | unlockS p => exact fun h1 => hQ _ _ (h h1)
  | lockSIX p => exact ⟨h.1, fun h1 h2 => hQ _ _ (h.2 h1 h2)⟩
  | unlockSIX p => exact fun h1 => hQ _ _ (h h1)
  | lockX p => exact ⟨h.1, h.2.1, fun h1 => hQ _ _ (h.2.2 h1)⟩
  | unlockX p => exact fun h1 => hQ _ _ (h h1)
  | unlockXVer p => exact fun h1 v => hQ _ _ (h h1 v)
  | upgradeX p => exact ⟨h.1, fun h1 h2 => hQ _ _ (h.2 h1 h2)⟩
  | downgradeSIX p => exact fun h1 => hQ _ _ (h h1)
  | getVer p => exact ⟨h.1, fun v => hQ _ _ (h.2 v)⟩
  | same => exact fun b => hQ _ _ (h b)
  | tryLockS p v => exact ⟨h.1, hQ _ _ h.2.1, hQ _ _ h.2.2⟩
  | tryLockSIX p v => exact ⟨h.1, hQ _ _ h.2.1, fun h1 h2 n h3 h4 => hQ _ _ (h.2.2 h1 h2 n h3 h4)⟩
  | tryLockX p v => exact ⟨h.1, h.2.1, hQ _ _ h.2.2.1, fun h1 n h3 h4 => hQ _ _ (h.2.2.2 h1 n h3 h4)⟩
  | note => exact hQ _ _ h
  | free => exact hQ _ _ h

theorem Prog.vwp_mono {P : Lp K V} {α : Type} {c : Prog K V α} {σ : Vis K V} {Q Q' : α → Vis K V → Prop} (h : c.vwp P σ Q)
    (hQ : ∀ b σ', Q b σ' → Q' b σ') : c.vwp P σ Q' := by
  induction c generalizing σ with
  | ret a => exact hQ _ _ h
  | act a k ih => exact Act.vwp_mono h (fun b σ' hb => ih b hb)
  | ub => trivial
  | stuck => trivial

theorem Prog.vwp_bind {P : Lp K V} {α β : Type} {c : Prog K V α} {f : α → Prog K V β} {σ : Vis K V} {Q : β → Vis K V → Prop} :
    (c >>= f).vwp P σ Q ↔ c.vwp P σ (fun a σ' => (f a).vwp P σ' Q) := by
  induction c generalizing σ with
  | ret a => exact Iff.rfl
  | act a k ih =>
    constructor
    · exact fun h => Act.vwp_mono h (fun b σ' hb => (ih b).1 hb)
    · exact fun h => Act.vwp_mono h (fun b σ' hb => (ih b).2 hb)
  | ub => exact Iff.rfl
  | stuck => exact Iff.rfl

/-! ## The memory -/

/-- What holds for the memory at any time. -/
structure MWf (P : Lp K V) (m : Mem K V) : Prop where
  ex : ∀ p u, (m.lk p).x = some u → (m.lk p).six = none ∧ (m.lk p).s = []
  al : ∀ p, m.heap p ≠ none → p < m.fresh
  fr : ∀ p, m.fresh ≤ p → (m.lk p).x = none ∧ (m.lk p).six = none ∧ (m.lk p).s = []
  pg : ∀ p n, m.heap p = some n → P.pg n

/-- The knowledge of thread `t` is true. -/
structure Vis.Sim (P : Lp K V) (σ : Vis K V) (t : Tid) (m : Mem K V) : Prop where
  L : ∀ p, (m.lk p).md t = σ.L p
  H : ∀ p n, σ.H p = some n → m.heap p = some n ∧ σ.L p ≠ Md.none
  vs : ∀ p v, σ.vs p v → v ≤ (m.lk p).ver
  pk : ∀ p v n, σ.pk p v n → v ≤ (m.lk p).ver ∧ ((m.lk p).ver = v → (m.lk p).x = none → m.heap p = some n)
  nk : P.np = false → (∀ p, σ.H p = none) ∧ ∀ p v n, ¬ σ.pk p v n

variable {P : Lp K V} {σ : Vis K V} {m m' : Mem K V} {t u : Tid} {p : Ptr}

theorem Lk.md_x {l : Lk} (h : l.x = some t) : (l.md t).x = true := by simp [Lk.md, h]

theorem Lk.md_excl {l : Lk} (h : l.x = some t) (h1 : l.six = none) (h2 : l.s = []) : l.md t = Md.excl := by
  simp [Lk.md, h, h1, h2, Md.excl]

theorem Lk.md_none {l : Lk} (h : l.x ≠ some t) (h1 : l.six ≠ some t) (h2 : t ∉ l.s) : l.md t = Md.none := by
  simp [Lk.md, h, h1, Md.none, List.count_eq_zero.2 h2]

theorem Lk.md_ne {l : Lk} (h : l.md t ≠ Md.none) : l.x = some t ∨ l.six = some t ∨ t ∈ l.s := by
  by_contra hc
  simp only [not_or] at hc
  exact h (Lk.md_none hc.1 hc.2.1 hc.2.2)

theorem MWf.lt (hw : MWf P m) (h : (m.lk p).md t ≠ Md.none) : p < m.fresh := by
  by_contra hc
  obtain ⟨h1, h2, h3⟩ := hw.fr p (Nat.le_of_not_lt hc)
  exact h (Lk.md_none (by simp [h1]) (by simp [h2]) (by simp [h3]))

theorem MWf.setLk (hw : MWf P m) {l : Lk} (h1 : ∀ u, l.x = some u → l.six = none ∧ l.s = []) (h2 : p < m.fresh) : MWf P (m.setLk p l) where
  ex := by
    intro q u h
    simp only [Mem.setLk] at h ⊢
    split at h
    · next e => rw [if_pos e]; exact h1 u h
    · next e => rw [if_neg e]; exact hw.ex q u h
  al := hw.al
  fr := by
    intro q h
    have : q ≠ p := by rintro rfl; exact absurd h (by simpa [Mem.setLk] using h2)
    simp only [Mem.setLk, if_neg this]
    exact hw.fr q h
  pg := hw.pg

theorem MWf.setHeap (hw : MWf P m) {n : Node K V} (h1 : P.pg n) (h2 : p < m.fresh) : MWf P (m.setHeap p n) where
  ex := hw.ex
  al := by
    intro q h
    by_cases e : q = p
    · subst e; exact h2
    · simp only [Mem.setHeap, if_neg e] at h; exact hw.al q h
  fr := hw.fr
  pg := by
    intro q n' h
    simp only [Mem.setHeap] at h
    split at h
    · cases h; exact h1
    · exact hw.pg q n' h

theorem MWf.alloc (hw : MWf P m) {n : Node K V} (h1 : P.pg n) : MWf P { m.setHeap m.fresh n with fresh := m.fresh + 1 } where
  ex := hw.ex
  al := by
    intro q h
    show q < m.fresh + 1
    by_cases e : q = m.fresh
    · rw [e]; exact Nat.lt_succ_self _
    · simp only [Mem.setHeap, if_neg e] at h
      exact Nat.lt_succ_of_lt (hw.al q h)
  fr := fun q h => hw.fr q (Nat.le_of_succ_le h)
  pg := by
    intro q n' h
    simp only [Mem.setHeap] at h
    split at h
    · cases h; exact h1
    · exact hw.pg q n' h

theorem Vis.Sim.fresh (hs : σ.Sim P t m) (hw : MWf P m) : σ.L m.fresh = Md.none := by
  obtain ⟨h1, h2, h3⟩ := hw.fr m.fresh (le_refl _)
  rw [← hs.L]
  exact Lk.md_none (by simp [h1]) (by simp [h2]) (by simp [h3])

/-- Changes of a lock that do not concern thread `t`. -/
theorem Vis.Sim.setLk (hs : σ.Sim P t m) {l : Lk} (h1 : l.md t = (m.lk p).md t) (h2 : (m.lk p).ver ≤ l.ver)
    (h3 : l.ver = (m.lk p).ver → l.x = none → (m.lk p).x = none) : σ.Sim P t (m.setLk p l) where
  L := by
    intro q
    simp only [Mem.setLk]
    split
    · next e => rw [h1, e, hs.L]
    · exact hs.L q
  H := hs.H
  vs := by
    intro q v h
    have := hs.vs q v h
    simp only [Mem.setLk]
    split
    · next e => subst e; omega
    · exact this
  pk := by
    intro q v n h
    obtain ⟨g1, g2⟩ := hs.pk q v n h
    simp only [Mem.setLk]
    split
    · next e =>
      subst e
      exact ⟨by omega, fun e1 e2 => g2 (by omega) (h3 (by omega) e2)⟩
    · exact ⟨g1, g2⟩
  nk := hs.nk

/-- Changes of a lock by the thread itself. -/
theorem Vis.Sim.own (hs : σ.Sim P t m) {l : Lk} {md : Md} (h1 : l.md t = md) (h2 : (m.lk p).ver ≤ l.ver)
    (h3 : l.ver = (m.lk p).ver → l.x = none → (m.lk p).x = none) : (σ.set p md).Sim P t (m.setLk p l) where
  L := by
    intro q
    simp only [Mem.setLk, Vis.set, Spec.upd]
    split
    · exact h1
    · exact hs.L q
  H := by
    intro q n h
    simp only [Vis.set, Spec.upd] at h ⊢
    by_cases e : md = Md.none
    · rw [if_pos e] at h
      by_cases e2 : q = p
      · rw [e2] at h; simp [Spec.upd] at h
      · simp only [Spec.upd, if_neg e2] at h ⊢
        exact hs.H q n h
    · rw [if_neg e] at h
      refine ⟨(hs.H q n h).1, ?_⟩
      split
      · exact e
      · exact (hs.H q n h).2
  vs := by
    intro q v h
    have := hs.vs q v h
    simp only [Mem.setLk]
    split
    · next e => subst e; omega
    · exact this
  pk := by
    intro q v n h
    obtain ⟨g1, g2⟩ := hs.pk q v n h
    simp only [Mem.setLk]
    split
    · next e =>
      subst e
      exact ⟨by omega, fun e1 e2 => g2 (by omega) (h3 (by omega) e2)⟩
    · exact ⟨g1, g2⟩
  nk := by
    intro h
    obtain ⟨g1, g2⟩ := hs.nk h
    refine ⟨fun q => ?_, g2⟩
    simp only [Vis.set]
    split
    · simp only [Spec.upd]
      split
      · rfl
      · exact g1 q
    · exact g1 q

theorem Vis.Sim.know (hs : σ.Sim P t m) {n : Node K V} (h1 : m.heap p = some n) (h2 : σ.L p ≠ Md.none) : (σ.know P p n).Sim P t m := by
  unfold Vis.know
  split
  · next e =>
    refine ⟨hs.L, ?_, hs.vs, hs.pk, fun h => by rw [e] at h; cases h⟩
    intro q n' h
    simp only [Spec.upd] at h
    split at h
    · next e => cases h; subst e; exact ⟨h1, h2⟩
    · exact hs.H q n' h
  · exact hs

theorem Vis.Sim.saw (hs : σ.Sim P t m) {n : Node K V} (h1 : m.heap p = some n) : (σ.saw P p n).Sim P t m := by
  unfold Vis.saw
  split
  · next e =>
    refine ⟨hs.L, hs.H, hs.vs, ?_, fun h => by rw [e] at h; cases h⟩
    rintro q v n' (h | ⟨rfl, h, rfl⟩)
    · exact hs.pk q v n' h
    · exact ⟨hs.vs _ _ h, fun _ _ => h1⟩
  · exact hs

theorem Vis.Sim.ver (hs : σ.Sim P t m) {v : Nat} (h1 : v ≤ (m.lk p).ver) : (σ.ver p v).Sim P t m := by
  refine ⟨hs.L, hs.H, ?_, hs.pk, hs.nk⟩
  rintro q w (h | ⟨rfl, rfl⟩)
  · exact hs.vs _ _ h
  · exact h1

theorem Vis.Sim.tag (hs : σ.Sim P t m) {v : Nat} {o : Option (Node K V)} (h1 : v ≤ (m.lk p).ver) (h2 : ∀ n, o = some n → m.heap p = some n)
    (h3 : P.np = false → o = none) : (σ.tag p v o).Sim P t m := by
  refine ⟨hs.L, hs.H, hs.vs, ?_, ?_⟩
  · rintro q w n (h | ⟨rfl, rfl, h⟩)
    · exact hs.pk _ _ _ h
    · exact ⟨h1, fun _ _ => h2 _ h⟩
  · intro h
    refine ⟨(hs.nk h).1, ?_⟩
    rintro q w n (h' | ⟨rfl, rfl, h'⟩)
    · exact (hs.nk h).2 _ _ _ h'
    · rw [h3 h] at h'; cases h'

/-- A page is changed that thread `t` does not hold. -/
theorem Vis.Sim.setHeap (hs : σ.Sim P t m) {n : Node K V} (h1 : σ.L p = Md.none) (h2 : (m.lk p).x ≠ none) : σ.Sim P t (m.setHeap p n) := by
  refine ⟨hs.L, ?_, hs.vs, ?_, hs.nk⟩
  · intro q n' h
    obtain ⟨g1, g2⟩ := hs.H q n' h
    have : q ≠ p := by rintro rfl; exact g2 h1
    exact ⟨by simpa [Mem.setHeap, this] using g1, g2⟩
  · intro q v n' h
    obtain ⟨g1, g2⟩ := hs.pk q v n' h
    refine ⟨g1, fun e1 e2 => ?_⟩
    have : q ≠ p := by rintro rfl; exact h2 e2
    simpa [Mem.setHeap, this] using g2 e1 e2

theorem Vis.Sim.alloc (hs : σ.Sim P t m) (hw : MWf P m) {n : Node K V} : σ.Sim P t { m.setHeap m.fresh n with fresh := m.fresh + 1 } := by
  have hn : m.heap m.fresh = none := by
    by_contra h
    exact Nat.lt_irrefl _ (hw.al _ h)
  refine ⟨hs.L, ?_, hs.vs, ?_, hs.nk⟩
  · intro q n' h
    obtain ⟨g1, g2⟩ := hs.H q n' h
    have : q ≠ m.fresh := by rintro rfl; rw [hn] at g1; cases g1
    exact ⟨by simpa [Mem.setHeap, this] using g1, g2⟩
  · intro q v n' h
    obtain ⟨g1, g2⟩ := hs.pk q v n' h
    refine ⟨g1, fun e1 e2 => ?_⟩
    have e := g2 e1 e2
    have : q ≠ m.fresh := by rintro rfl; rw [hn] at e; cases e
    simpa [Mem.setHeap, this] using e

theorem Vis.Sim.heap (hs : σ.Sim P t m) (h1 : m'.lk = m.lk) (h2 : m'.heap = m.heap) : σ.Sim P t m' :=
  ⟨by rw [h1]; exact hs.L, by rw [h2]; exact hs.H, by rw [h1]; exact hs.vs, by rw [h1, h2]; exact hs.pk, hs.nk⟩

theorem MWf.same (hw : MWf P m) (h1 : m'.lk = m.lk) (h2 : m'.heap = m.heap) (h3 : m'.fresh = m.fresh) : MWf P m' :=
  ⟨by rw [h1]; exact hw.ex, by rw [h2, h3]; exact hw.al, by rw [h1, h3]; exact hw.fr, by rw [h2]; exact hw.pg⟩

/-! ## Steps -/

/-- An action of a thread keeps the knowledge of all threads true. -/
theorem Act.vwp_run {β : Type} {a : Act K V β} {Q : β → Vis K V → Prop} {b : β} (h : a.vwp P σ Q) (hs : σ.Sim P t m) (hw : MWf P m)
    (e : a.run t m = .run (b, m')) :
    (∃ σ', Q b σ' ∧ σ'.Sim P t m') ∧ MWf P m' ∧ ∀ u τ, u ≠ t → Vis.Sim P τ u m → Vis.Sim P τ u m' := by
  cases a with
  | getRoot => cases e; exact ⟨⟨_, h _, hs⟩, hw, fun _ _ _ h => h⟩
  | setRoot _ _ => cases e; exact ⟨⟨_, h, hs.heap rfl rfl⟩, hw.same rfl rfl rfl, fun _ _ _ h => h.heap rfl rfl⟩
  | isInner p =>
    simp only [Act.run] at e
    split at e
    · cases e
    · cases e; exact ⟨⟨_, h _, hs⟩, hw, fun _ _ _ h => h⟩
  | load p =>
    simp only [Act.run] at e
    split at e
    · cases e
    · next n hn =>
      split at e
      · next hh =>
        cases e
        have hne : σ.L p ≠ Md.none := by
          rw [← hs.L]
          intro hc
          simp only [Lk.holds, Bool.or_eq_true, decide_eq_true_eq] at hh
          simp only [Lk.md, Md.none, Md.mk.injEq, decide_eq_false_iff_not] at hc
          rcases hh with (hh | hh) | hh
          · exact List.count_eq_zero.1 hc.1 hh
          · exact hc.2.1 hh
          · exact hc.2.2 hh
        refine ⟨⟨_, h b (hw.pg _ _ hn) hne (fun n' hh => ?_), hs.know hn hne⟩, hw, fun _ _ _ h => h⟩
        have := (hs.H _ _ hh).1
        rw [hn] at this
        exact (Option.some.inj this).symm
      · cases e
  | peek p =>
    simp only [Act.run] at e
    split at e
    · cases e
    · next n hn => cases e; exact ⟨⟨_, h b (hw.pg _ _ hn), hs.saw hn⟩, hw, fun _ _ _ h => h⟩
  | store p n =>
    simp only [Act.run] at e
    split at e
    · cases e
    · next n0 hn =>
      split at e
      · next hx =>
        cases e
        have hx' : (σ.L p).x = true := by rw [← hs.L]; exact Lk.md_x hx
        obtain ⟨g1, g2⟩ := hw.ex p t hx
        refine ⟨⟨_, h.2 hx', ?_⟩, hw.setHeap h.1 (hw.al p (by simp [hn])), fun u τ hu hτ => hτ.setHeap ?_ (by simp [hx])⟩
        · have hne : σ.L p ≠ Md.none := by intro hc; rw [hc] at hx'; cases hx'
          unfold Vis.know
          split
          · next enp =>
            refine ⟨hs.L, ?_, hs.vs, ?_, fun h => by rw [enp] at h; cases h⟩
            · intro q n' hq
              simp only [Spec.upd] at hq
              split at hq
              · next e => cases hq; subst e; exact ⟨by simp [Mem.setHeap], hne⟩
              · next e => exact ⟨by simpa [Mem.setHeap, e] using (hs.H q n' hq).1, (hs.H q n' hq).2⟩
            · intro q v n' hq
              obtain ⟨k1, k2⟩ := hs.pk q v n' hq
              refine ⟨k1, fun e1 e2 => ?_⟩
              have : q ≠ p := by
                rintro rfl
                have e2 : (m.lk q).x = none := e2
                rw [hx] at e2; cases e2
              simpa [Mem.setHeap, this] using k2 e1 e2
          · next enp =>
            obtain ⟨k1, k2⟩ := hs.nk (by simpa using enp)
            exact ⟨hs.L, (fun q n' hq => by rw [k1] at hq; cases hq), hs.vs, fun q v n' hq => absurd hq (k2 q v n'), fun _ => ⟨k1, k2⟩⟩
        · rw [← hτ.L]
          exact Lk.md_none (by rw [hx]; simpa using fun h => hu h.symm) (by simp [g1]) (by simp [g2])
      · cases e
  | poke p n =>
    simp only [Act.run] at e
    split at e
    · cases e
    · next n0 hn =>
      split at e
      · cases e
        have key : ∀ u τ, Vis.Sim P τ u m → Vis.Sim P τ u (m.setHeap p n) := by
          intro u τ hτ
          obtain ⟨k1, k2⟩ := hτ.nk h.1
          exact ⟨hτ.L, (fun q n' hq => by rw [k1] at hq; cases hq), hτ.vs, fun q v n' hq => absurd hq (k2 q v n'), fun _ => ⟨k1, k2⟩⟩
        exact ⟨⟨_, h.2.2, key _ _ hs⟩, hw.setHeap h.2.1 (hw.al p (by simp [hn])), fun u τ _ hτ => key u τ hτ⟩
      · cases e
  | alloc n =>
    cases e
    refine ⟨⟨_, h.2 m.fresh (hs.fresh hw) (fun q hq => ?_), hs.alloc hw⟩, hw.alloc h.1, fun u τ _ hτ => hτ.alloc hw⟩
    rw [← hs.L] at hq
    exact hw.lt hq
  | retire _ => cases e; exact ⟨⟨_, h, hs.heap rfl rfl⟩, hw.same rfl rfl rfl, fun _ _ _ h => h.heap rfl rfl⟩
  | lockS p =>
    simp only [Act.run] at e
    split at e
    · cases e
    · next n hn =>
      split at e
      · next hx =>
        cases e
        refine ⟨⟨_, h.2.2 ?_, hs.own ?_ (le_refl _) (fun _ h => h)⟩, hw.setLk (fun u hu => by simp [hx] at hu) (hw.al p (by simp [hn])),
          fun u τ hu hτ => hτ.setLk ?_ (le_refl _) (fun _ h => h)⟩
        · rw [← hs.L]; simp [Lk.md, hx]
        · rw [← hs.L]; simp [Lk.md]
        · simp [Lk.md, Ne.symm hu]
      · cases e
  | unlockS p =>
    simp only [Act.run] at e
    split at e
    · next ht =>
      cases e
      have hc : 0 < (m.lk p).s.count t := List.count_pos_iff.2 ht
      refine ⟨⟨_, h ?_, hs.own ?_ (le_refl _) (fun _ h => h)⟩, hw.setLk (fun u hu => ?_) (hw.lt (t := t) ?_),
        fun u τ hu hτ => hτ.setLk ?_ (le_refl _) (fun _ h => h)⟩
      · rw [← hs.L]; exact hc
      · rw [← hs.L]; simp [Lk.md]
      · have := (hw.ex p u hu).2
        rw [this] at ht; cases ht
      · intro hh
        have : ((m.lk p).md t).s = 0 := by rw [hh]; rfl
        have : (m.lk p).s.count t = 0 := this
        omega
      · simp [Lk.md, List.count_erase_of_ne hu]
    · cases e
  | lockSIX p =>
    simp only [Act.run] at e
    split at e
    · cases e
    · next n hn =>
      split at e
      · next hx =>
        cases e
        refine ⟨⟨_, h.2 ?_ ?_, hs.own ?_ (le_refl _) (fun _ h => h)⟩, hw.setLk (fun u hu => by simp [hx.1] at hu) (hw.al p (by simp [hn])),
          fun u τ hu hτ => hτ.setLk ?_ (le_refl _) (fun _ h => h)⟩
        · rw [← hs.L]; simp [Lk.md, hx.2]
        · rw [← hs.L]; simp [Lk.md, hx.1]
        · rw [← hs.L]; simp [Lk.md]
        · simp [Lk.md, hx.2, Ne.symm hu]
      · cases e
  | unlockSIX p =>
    simp only [Act.run] at e
    split at e
    · next ht =>
      cases e
      have h6 : ((m.lk p).md t).six = true := by simp [Lk.md, ht]
      refine ⟨⟨_, h ?_, hs.own ?_ (le_refl _) (fun _ h => h)⟩, hw.setLk (fun u hu => ?_) (hw.lt (t := t) ?_),
        fun u τ hu hτ => hτ.setLk ?_ (le_refl _) (fun _ h => h)⟩
      · rw [← hs.L]; exact h6
      · rw [← hs.L]; simp [Lk.md]
      · exact ⟨rfl, (hw.ex p u hu).2⟩
      · intro hh; rw [hh] at h6; cases h6
      · simp [Lk.md, ht, Ne.symm hu]
    · cases e
  | lockX p =>
    simp only [Act.run] at e
    split at e
    · cases e
    · next n hn =>
      split at e
      · next hx =>
        cases e
        obtain ⟨h1, h2, h3⟩ := hx
        refine ⟨⟨_, h.2.2 ?_, hs.own ?_ (le_refl _) (fun _ h => by simp at h)⟩, hw.setLk (fun u hu => ⟨h2, h3⟩) (hw.al p (by simp [hn])),
          fun u τ hu hτ => hτ.setLk ?_ (le_refl _) (fun _ h => by simp at h)⟩
        · rw [← hs.L]; exact Lk.md_none (by simp [h1]) (by simp [h2]) (by simp [h3])
        · exact Lk.md_excl rfl h2 h3
        · simp [Lk.md, h1, Ne.symm hu]
      · cases e
  | unlockX p =>
    simp only [Act.run] at e
    split at e
    · next ht =>
      cases e
      obtain ⟨g1, g2⟩ := hw.ex p t ht
      have hx : ((m.lk p).md t).x = true := Lk.md_x ht
      refine ⟨⟨_, h ?_, hs.own ?_ (Nat.le_succ _) (fun h => absurd h (Nat.succ_ne_self _))⟩, hw.setLk (fun u hu => by simp at hu) (hw.lt (t := t) ?_),
        fun u τ hu hτ => hτ.setLk ?_ (Nat.le_succ _) (fun h => absurd h (Nat.succ_ne_self _))⟩
      · rw [← hs.L]; exact hx
      · exact Lk.md_none (by simp) (by simp [g1]) (by simp [g2])
      · intro hh; rw [hh] at hx; cases hx
      · simp [Lk.md, ht, Ne.symm hu]
    · cases e
  | unlockXVer p =>
    simp only [Act.run] at e
    split at e
    · next ht =>
      cases e
      obtain ⟨g1, g2⟩ := hw.ex p t ht
      have hx : ((m.lk p).md t).x = true := Lk.md_x ht
      have hx' : (σ.L p).x = true := by rw [← hs.L]; exact hx
      refine ⟨⟨_, h hx' _, Vis.Sim.tag (Vis.Sim.ver (hs.own ?_ (Nat.le_succ _) (fun h => absurd h (Nat.succ_ne_self _))) ?_) ?_ ?_ ?_⟩,
        hw.setLk (fun u hu => by simp at hu) (hw.lt (t := t) ?_),
        fun u τ hu hτ => hτ.setLk ?_ (Nat.le_succ _) (fun h => absurd h (Nat.succ_ne_self _))⟩
      · exact Lk.md_none (by simp) (by simp [g1]) (by simp [g2])
      · simp [Mem.setLk]
      · simp [Mem.setLk]
      · exact fun n hn => (hs.H _ _ hn).1
      · exact fun hn => (hs.nk hn).1 p
      · intro hh; rw [hh] at hx; cases hx
      · simp [Lk.md, ht, Ne.symm hu]
    · cases e
  | upgradeX p =>
    simp only [Act.run] at e
    split at e
    · next ht =>
      split at e
      · next hsn =>
        cases e
        have h6 : ((m.lk p).md t).six = true := by simp [Lk.md, ht]
        have hx : (m.lk p).x = none := by
          by_contra hc
          obtain ⟨u, hu⟩ := Option.ne_none_iff_exists'.1 hc
          rw [(hw.ex p u hu).1] at ht; cases ht
        refine ⟨⟨_, h.2 ?_ ?_, hs.own ?_ (le_refl _) (fun _ h => by simp at h)⟩, hw.setLk (fun u hu => ⟨rfl, hsn⟩) (hw.lt (t := t) ?_),
          fun u τ hu hτ => hτ.setLk ?_ (le_refl _) (fun _ h => by simp at h)⟩
        · rw [← hs.L]; exact h6
        · rw [← hs.L]; simp [Lk.md, hsn]
        · exact Lk.md_excl rfl rfl hsn
        · intro hh; rw [hh] at h6; cases h6
        · simp [Lk.md, ht, hx, Ne.symm hu]
      · cases e
    · cases e
  | downgradeSIX p =>
    simp only [Act.run] at e
    split at e
    · next ht =>
      cases e
      obtain ⟨g1, g2⟩ := hw.ex p t ht
      have hx : ((m.lk p).md t).x = true := Lk.md_x ht
      refine ⟨⟨_, h ?_, hs.own ?_ (Nat.le_succ _) (fun h => absurd h (Nat.succ_ne_self _))⟩, hw.setLk (fun u hu => by simp at hu) (hw.lt (t := t) ?_),
        fun u τ hu hτ => hτ.setLk ?_ (Nat.le_succ _) (fun h => absurd h (Nat.succ_ne_self _))⟩
      · rw [← hs.L]; exact hx
      · simp [Lk.md, Md.intent, g2]
      · intro hh; rw [hh] at hx; cases hx
      · simp [Lk.md, ht, g1, Ne.symm hu]
    · cases e
  | getVer p =>
    simp only [Act.run] at e
    split at e
    · cases e
    · split at e
      · cases e; exact ⟨⟨_, h.2 _, hs.ver (le_refl _)⟩, hw, fun _ _ _ h => h⟩
      · cases e
  | same p v =>
    simp only [Act.run] at e
    split at e
    · cases e
    · cases e; exact ⟨⟨_, h _, hs⟩, hw, fun _ _ _ h => h⟩
  | tryLockS p v =>
    simp only [Act.run] at e
    split at e
    · cases e
    · next n hn =>
      split at e
      · next hx =>
        cases e
        refine ⟨⟨_, h.2.2, hs.own ?_ (le_refl _) (fun _ h => h)⟩, hw.setLk (fun u hu => by simp [hx.1] at hu) (hw.al p (by simp [hn])),
          fun u τ hu hτ => hτ.setLk ?_ (le_refl _) (fun _ h => h)⟩
        · rw [← hs.L]; simp [Lk.md]
        · simp [Lk.md, Ne.symm hu]
      · cases e; exact ⟨⟨_, h.2.1, hs⟩, hw, fun _ _ _ h => h⟩
  | tryLockSIX p v =>
    simp only [Act.run] at e
    split at e
    · cases e
    · next n hn =>
      split at e
      · next hx =>
        split at e
        · next h6 =>
          cases e
          have hL : (σ.L p).six = false := by rw [← hs.L]; simp [Lk.md, h6]
          refine ⟨⟨_, h.2.2 hL ?_ n (hw.pg _ _ hn) ?_, Vis.Sim.know (hs.own (p := p) (l := { m.lk p with six := some t }) ?_ (le_refl _) (fun _ h => h)) hn ?_⟩,
            hw.setLk (fun u hu => by simp [hx.1] at hu) (hw.al p (by simp [hn])), fun u τ hu hτ => hτ.setLk ?_ (le_refl _) (fun _ h => h)⟩
          · rw [← hs.L]; simp [Lk.md, hx.1]
          · intro n' hp
            have := (hs.pk _ _ _ hp).2 hx.2 hx.1
            rw [hn] at this
            exact (Option.some.inj this).symm
          · rw [← hs.L]; simp [Lk.md]
          · simp [Vis.set, Spec.upd, Md.none]
          · simp [Lk.md, h6, Ne.symm hu]
        · cases e
      · cases e; exact ⟨⟨_, h.2.1, hs⟩, hw, fun _ _ _ h => h⟩
  | tryLockX p v =>
    simp only [Act.run] at e
    split at e
    · cases e
    · next n hn =>
      split at e
      · next hx =>
        split at e
        · next h6 =>
          cases e
          obtain ⟨h2, h3⟩ := h6
          have hL : σ.L p = Md.none := by
            rw [← hs.L]; exact Lk.md_none (by simp [hx.1]) (by simp [h2]) (by simp [h3])
          refine ⟨⟨_, h.2.2.2 hL n (hw.pg _ _ hn) ?_, Vis.Sim.know (hs.own (p := p) (l := { m.lk p with x := some t }) ?_ (le_refl _) (fun _ h => by simp at h)) hn ?_⟩,
            hw.setLk (fun u hu => ⟨h2, h3⟩) (hw.al p (by simp [hn])), fun u τ hu hτ => hτ.setLk ?_ (le_refl _) (fun _ h => by simp at h)⟩
          · intro n' hp
            have := (hs.pk _ _ _ hp).2 hx.2 hx.1
            rw [hn] at this
            exact (Option.some.inj this).symm
          · exact Lk.md_excl rfl h2 h3
          · simp [Vis.set, Spec.upd, Md.excl, Md.none]
          · simp [Lk.md, hx.1, Ne.symm hu]
        · cases e
      · cases e; exact ⟨⟨_, h.2.2.1, hs⟩, hw, fun _ _ _ h => h⟩
  | note _ => cases e; exact ⟨⟨_, h, hs.heap rfl rfl⟩, hw.same rfl rfl rfl, fun _ _ _ h => h.heap rfl rfl⟩
  | free p =>
    simp only [Act.run] at e
    split at e
    · cases e
    · cases e; exact ⟨⟨_, h, hs.heap rfl rfl⟩, hw.same rfl rfl rfl, fun _ _ _ h => h.heap rfl rfl⟩

end BT
