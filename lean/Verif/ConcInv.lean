import Verif.ConcLogic
import Verif.PslConc
import Verif.BlinkNode
import Mathlib.Order.WithBot
import Mathlib.Tactic.Order

/-!
# Worlds, invariant and rely condition of the B-link trees

The ghost state of a world: level and lower border of every page (fixed when the page is published), the status of
every page, the page a merged page has been merged into, the pages that are not (or no longer) known to the level above
(`pend`), the current height and the thread that is just shrinking the tree.
-/

set_option linter.unusedSectionVars false

namespace BT
open Spec
variable {K V : Type} [LinearOrder K]

/-! ## Borders as a linear order -/

namespace Bd
def toW : Bd K → WithBot (WithTop K)
  | bot => ⊥
  | key k => ((k : WithTop K) : WithBot (WithTop K))
  | top => ((⊤ : WithTop K) : WithBot (WithTop K))

theorem toW_inj : Function.Injective (toW : Bd K → WithBot (WithTop K)) := by
  intro a b h
  cases a <;> cases b <;> simp [toW] at h ⊢
  exact h

noncomputable instance : LinearOrder (Bd K) := LinearOrder.lift' toW toW_inj

theorem lt_def (a b : Bd K) : a < b ↔ a.toW < b.toW := Iff.rfl
theorem le_def (a b : Bd K) : a ≤ b ↔ a.toW ≤ b.toW := Iff.rfl

theorem lt_iff {a b : Bd K} : a.lt b ↔ a < b := by
  rw [lt_def]
  cases a <;> cases b <;> simp [toW, lt, WithBot.coe_lt_coe, -WithBot.coe_top]

theorem leKey_iff' {a : Bd K} {k : K} : a.leKey k ↔ a ≤ .key k := by
  rw [le_def]
  cases a <;> simp [toW]

theorem gtKey_iff' {a : Bd K} {k : K} : a.gtKey k ↔ .key k < a := by
  rw [lt_def]
  cases a <;> simp [toW, -WithBot.coe_top]

theorem bot_le (a : Bd K) : (bot : Bd K) ≤ a := by rw [le_def]; simp [toW]
theorem le_top (a : Bd K) : a ≤ (top : Bd K) := by rw [le_def]; cases a <;> simp [toW]
theorem key_lt_top (k : K) : Bd.key k < top := by rw [lt_def]; simp [toW, -WithBot.coe_top]
theorem bot_lt_key (k : K) : bot < Bd.key k := by rw [lt_def]; simp [toW]
theorem bot_lt_top : (bot : Bd K) < top := by rw [lt_def]; simp [toW]
theorem key_lt_key {a b : K} : Bd.key a < Bd.key b ↔ a < b := by rw [lt_def]; simp [toW]
theorem key_le_key {a b : K} : Bd.key a ≤ Bd.key b ↔ a ≤ b := by rw [le_def]; simp [toW]
end Bd

theorem compHigh_iff {n : Node K V} {k : K} : n.compHighKey k = true ↔ Bd.key k < hiB n.high := by
  cases h : n.high with
  | none => simp [Node.compHighKey, h, Bd.key_lt_top]
  | some a => simp [Node.compHighKey, h, Bd.key_lt_key]

/-! ## Worlds -/

/-- Status of a page: not allocated; private to a thread; part of the tree; merged into `q` at time `τ` by thread `t`,
which has not marked the page yet; the same, marked; removed root. -/
inductive PSt where
  | free
  | priv (t : Tid)
  | live
  | stale (τ : Nat) (q : Ptr) (t : Tid)
  | merged (τ : Nat) (q : Ptr)
  | gone
  deriving DecidableEq

structure World (K V : Type) [LinearOrder K] where
  mem : Mem K V
  ps : PState K V
  lvl : Ptr → Nat
  lo : Ptr → Bd K
  born : Ptr → Nat
  st : Ptr → PSt
  rep : Ptr → Ptr
  pend : Ptr → Option Tid
  top : Nat
  shr : Option Tid
  strict : Bool
  /-- calls that write do not overlap -/
  solo : Bool
  /-- the thread that is in such a call -/
  wr : Option Tid

namespace World
variable (w : World K V)
abbrev heap := w.mem.heap
abbrev lk := w.mem.lk
abbrev now := w.ps.now
abbrev maps := w.ps.maps

/-- Published pages. -/
def Pub (p : Ptr) : Prop := match w.st p with | .free => False | .priv _ => False | _ => True
/-- `p` was part of the tree at time `τ` or later, or is a removed root. -/
def Ge (τ : Nat) (p : Ptr) : Prop :=
  match w.st p with
  | .live => True
  | .gone => True
  | .stale τ' _ _ => τ ≤ τ'
  | .merged τ' _ => τ ≤ τ'
  | _ => False
/-- Removed pages: merged into another page, or a removed root. -/
def Dead (p : Ptr) : Prop := match w.st p with | .merged _ _ => True | .gone => True | _ => False
/-- `p`, or the page it has been merged into, is a removed root. -/
def Gone (p : Ptr) : Prop := w.st (w.rep p) = .gone
/-- Thread `t` owns the page exclusively (SIX or X). -/
def Own (t : Tid) (p : Ptr) : Prop := (w.lk p).six = some t ∨ (w.lk p).x = some t
/-- Thread `t` is not in the middle of a merge or of the removal of a root. -/
def NoStale (t : Tid) : Prop := (∀ p τ q, w.st p ≠ .stale τ q t) ∧ w.shr ≠ some t
/-- Thread `t` may change the tree. -/
def Wr (t : Tid) : Prop := w.solo = true → w.wr = some t
/-- Thread `t` has no page that is not known to the level above. -/
def NoPend (t : Tid) : Prop := ∀ p, w.pend p ≠ some t
end World

/-- Children of an inner page with their lower borders. -/
def kidsOf : Bd K → List (Ptr × Option K) → List (Bd K × Ptr)
  | _, [] => []
  | lo, (p, h) :: t => (lo, p) :: kidsOf (hiB h) t

/-- The records of a leaf are the entries of `m` in its range. -/
def Agrees (m : Map K V) (lo : Bd K) (n : Node K V) : Prop :=
  ∀ k, lo ≤ .key k → .key k < hiB n.high → ∀ v, m k = some v ↔ (k, v) ∈ pairs n.recs

/-- The pages of level `i` have right links: all pages of the B-link variants, otherwise the leaves (`Node.hasNext`). -/
def Linked (cfg : Cfg K) (i : Nat) : Prop := cfg.blink = true ∨ i = 0

theorem Linked.hasNext {cfg : Cfg K} {i : Nat} {n : Node K V} (h : Linked cfg i) (hi : n.isInner = decide (i ≠ 0)) :
    n.hasNext cfg = true := by
  rcases h with h | h
  · simp [Node.hasNext, h]
  · simp [Node.hasNext, hi, h]

/-- A well-formed page whose references satisfy `R`.  A page with a highest key has a right neighbour, even when it has no link
to it. -/
structure PageOk (cfg : Cfg K) (lvl : Ptr → Nat) (lo : Ptr → Bd K) (p : Ptr) (n : Node K V) (R : Ptr → Prop) (m : Map K V) :
    Prop where
  ok : NodeOk cfg (decide (lvl p ≠ 0)) (lo p) n
  next : (n.high = none ∧ (Linked cfg (lvl p) → n.next = none)) ∨
    ∃ h q, n.high = some h ∧ (Linked cfg (lvl p) → n.next = some q) ∧ R q ∧ lvl q = lvl p ∧ lo q = .key h
  kids : ∀ i, lvl p = i + 1 → ∀ b c, (b, c) ∈ kidsOf (lo p) (slots n.recs n.high) → R c ∧ lvl c = i ∧ lo c = b
  agree : lvl p = 0 → Agrees m (lo p) n

theorem PageOk.nextB {cfg : Cfg K} {lvl : Ptr → Nat} {lo : Ptr → Bd K} {p : Ptr} {n : Node K V} {R : Ptr → Prop} {m : Map K V}
    (h : PageOk cfg lvl lo p n R m) (hl : Linked cfg (lvl p)) : (n.high = none ∧ n.next = none) ∨
    ∃ h q, n.high = some h ∧ n.next = some q ∧ R q ∧ lvl q = lvl p ∧ lo q = .key h := by
  rcases h.next with ⟨a, b⟩ | ⟨k, q, a, b, c⟩
  · exact Or.inl ⟨a, b hl⟩
  · exact Or.inr ⟨k, q, a, b hl, c⟩

/-- What page `p`, frozen at time `τ`, refers to. -/
def World.Ref (w : World K V) (τ : Nat) (p c : Ptr) : Prop :=
  w.Ge τ c ∧ (w.Gone c → w.Gone p) ∧ (w.lvl c = w.lvl p → w.Gone p → w.Gone c)

structure CInv (cfg : Cfg K) (w : World K V) : Prop where
  base : w.mem.raced = false ∧ w.strict = !cfg.blink
  lkx : ∀ p t, (w.lk p).x = some t → (w.lk p).six = none ∧ (w.lk p).s = []
  lkn : ∀ p u, ¬ w.Pub p → w.Own u p ∨ u ∈ (w.lk p).s → w.st p = .priv u
  alloc : ∀ p, w.heap p = none ↔ w.st p = .free
  fresh : ∀ p, w.mem.fresh ≤ p → w.heap p = none
  live : ∀ p, w.st p = .live → ∃ n, w.heap p = some n ∧ PageOk cfg w.lvl w.lo p n (fun c => w.st c = .live) (w.maps w.now)
  lvle : ∀ p, w.st p = .live → w.lvl p ≤ w.top
  stale : ∀ p τ q u, w.st p = .stale τ q u → τ ≤ w.now ∧ w.Own u p ∧ w.Ge τ q ∧ w.lvl q = w.lvl p ∧ w.lo q < w.lo p ∧
    ∃ n, w.heap p = some n ∧ PageOk cfg w.lvl w.lo p n (w.Ref τ p) (w.maps τ)
  merged : ∀ p τ q, w.st p = .merged τ q → τ ≤ w.now ∧ w.Ge τ q ∧ w.lvl q = w.lvl p ∧ w.lo q < w.lo p ∧
    ∃ n, w.heap p = some n ∧ n.removed = true ∧ n.next = some q ∧
      NodeOk cfg (decide (w.lvl p ≠ 0)) (w.lo p) { n with removed := false } ∧ (w.lvl p = 0 → Agrees (w.maps τ) (w.lo p) n)
  gone : ∀ p, w.st p = .gone → w.lvl p ≠ 0 ∧ ∃ n, w.heap p = some n ∧ n.removed = true ∧ n.next = none ∧
      NodeOk cfg (decide (w.lvl p ≠ 0)) (w.lo p) { n with removed := false }
  disj : ∀ p q n m, w.st p = .live → w.st q = .live → w.lvl p = w.lvl q → w.heap p = some n → w.heap q = some m →
    w.lo p < hiB m.high → w.lo q < hiB n.high → p = q
  pend : ∀ r t, w.pend r = some t → w.st r = .live ∧ (∃ σ, w.lo r = .key σ) ∧
    ∀ p n b, w.st p = .live → w.heap p = some n → w.lvl p ≠ 0 → (b, r) ∉ kidsOf (w.lo p) (slots n.recs n.high)
  root : (w.shr = none ∧ w.st w.mem.root = .live ∧ w.lo w.mem.root = .bot ∧ w.lvl w.mem.root = w.top) ∨
    ∃ t, w.shr = some t ∧ w.st w.mem.root = .gone ∧ w.top < w.lvl w.mem.root
  over : ∀ p τ q u n r, w.st p = .stale τ q u → w.heap p = some n → w.st r = .live → w.lvl p = w.lvl r →
    w.lo p ≤ w.lo r → w.lo r < hiB n.high → τ < w.born r
  born : ∀ p, w.Pub p → w.born p ≤ w.now
  rep : ∀ p, w.Pub p → (w.st (w.rep p) = .live ∨ w.st (w.rep p) = .gone) ∧ w.lvl (w.rep p) = w.lvl p ∧
    w.lo (w.rep p) ≤ w.lo p
  repSelf : ∀ p, w.st p = .live ∨ w.st p = .gone → w.rep p = p
  repStale : ∀ p τ q u, w.st p = .stale τ q u → w.rep p = w.rep q
  repMerged : ∀ p τ q, w.st p = .merged τ q → w.rep p = w.rep q
  full : ∀ r, w.st r = .live → w.lo r = .bot ∨ w.pend r ≠ none ∨
    ∃ p n b, w.st p = .live ∧ w.heap p = some n ∧ w.lvl p ≠ 0 ∧ (b, r) ∈ kidsOf (w.lo p) (slots n.recs n.high)
  solo : w.solo = true → w.strict = false ∧ (∀ q u, w.pend q = some u → w.wr = some u) ∧
    ∀ p τ q u, w.st p = .stale τ q u → w.wr = some u ∧ ∀ n c, w.heap p = some n → n.next = some c → w.st c = .live

/-! ## What the other threads may do -/

/-- How the status of a page may change after time `now`. -/
def StLe (now : Nat) : PSt → PSt → Prop
  | .live, s => match s with
    | .live => True
    | .gone => True
    | .stale τ _ _ => now ≤ τ
    | .merged τ _ => now ≤ τ
    | _ => False
  | .stale τ q t, s => s = .stale τ q t ∨ s = .merged τ q
  | .merged τ q, s => s = .merged τ q
  | .gone, s => s = .gone
  | _, _ => True

/-- Every step of every thread. -/
structure Ext (w w' : World K V) : Prop where
  fixed : ∀ p, w.Pub p → w'.lvl p = w.lvl p ∧ w'.lo p = w.lo p ∧ w'.born p = w.born p
  st : ∀ p, StLe w.now (w.st p) (w'.st p)
  rep : ∀ p, w.Pub p → (w.Gone p → w'.Gone p) ∧ w'.lo (w'.rep p) ≤ w.lo (w.rep p)
  gone : ∀ a b, w.Pub a → w.Pub b → w.lvl a ≤ w.lvl b → ¬ w.Gone a → w'.Gone a → w'.Gone b
  now : w.now ≤ w'.now
  maps : ∀ i, i ≤ w.now → w'.maps i = w.maps i

/-- Steps after which thread `t` owns what it owned before, except for the pages in `E`. -/
structure Kp (t : Tid) (E : Ptr → Prop) (w w' : World K V) : Prop where
  ext : Ext w w'
  ph : w'.ps.ph t = w.ps.ph t
  noStale : ∀ p τ q, w'.st p = .stale τ q t ↔ w.st p = .stale τ q t
  pend : ∀ p, w'.pend p = some t ↔ w.pend p = some t
  shr : w'.shr = some t ↔ w.shr = some t
  six : ∀ p, ¬ E p → ((w'.lk p).six = some t ↔ (w.lk p).six = some t)
  x : ∀ p, ¬ E p → ((w'.lk p).x = some t ↔ (w.lk p).x = some t)
  own : ∀ p, ¬ E p → w.Own t p → w'.heap p = w.heap p ∧ w'.st p = w.st p
  priv : ∀ p, ¬ E p → w.st p = .priv t → w'.st p = .priv t ∧ w'.heap p = w.heap p ∧ w'.lk p = w.lk p
  calm : w.solo = true → w.Wr t → ∀ p, ¬ E p → w.Pub p → w'.heap p = w.heap p
  rt : w.solo = true → w.Wr t → w'.mem.root = w.mem.root
  wr : w'.solo = w.solo ∧ (w.Wr t → w'.Wr t)

structure Rely (t : Tid) (w w' : World K V) : Prop where
  kp : Kp t (fun _ => False) w w'
  s : ∀ p, (w'.lk p).s.count t = (w.lk p).s.count t
  sheap : ∀ p, t ∈ (w.lk p).s → w'.heap p = w.heap p
  root : ∀ n, w.Own t w.mem.root → w.st w.mem.root = .live → w.heap w.mem.root = some n → (w.strict = true ∨ n.high = none) →
    w'.mem.root = w.mem.root ∧ w'.top = w.top
  shr : w.shr = some t → w'.mem.root = w.mem.root ∧ w'.top = w.top
  ver : ∀ p, w.Pub p → (w.lk p).ver ≤ (w'.lk p).ver ∧
    ((w.lk p).x = none → (w'.lk p).x = none → (w'.lk p).ver = (w.lk p).ver → w'.heap p = w.heap p) ∧
    ((w'.lk p).ver = (w.lk p).ver → (w.lk p).x ≠ none → (w'.lk p).x = (w.lk p).x)
  strict : w'.strict = w.strict
  alone : w.solo = true → w.Wr t → (∀ p, w.Pub p → w'.heap p = w.heap p) ∧ w'.mem.root = w.mem.root

/-! ### Reflexivity and transitivity -/

theorem StLe.refl (n : Nat) (s : PSt) : StLe n s s := by
  cases s <;> simp [StLe]

theorem StLe.trans {n n' : Nat} {a b c : PSt} (h : StLe n a b) (h' : StLe n' b c) (hn : n ≤ n') : StLe n a c := by
  cases a with
  | free => trivial
  | priv => trivial
  | live =>
    cases b <;> simp only [StLe] at h h' <;> try (exact h.elim)
    · cases c <;> simp only [StLe] at h' ⊢ <;> omega
    · rcases h' with rfl | rfl <;> simpa [StLe] using h
    · subst h'; simpa [StLe] using h
    · subst h'; trivial
  | stale τ q t =>
    rcases h with rfl | rfl
    · exact h'
    · simp only [StLe] at h' ⊢
      exact Or.inr h'
  | merged τ q =>
    simp only [StLe] at h
    subst h
    exact h'
  | gone =>
    simp only [StLe] at h
    subst h
    exact h'

theorem StLe.pub {w w' : World K V} {n : Nat} {p : Ptr} (h : StLe n (w.st p) (w'.st p)) (hp : w.Pub p) : w'.Pub p := by
  unfold World.Pub at hp ⊢
  cases h1 : w.st p <;> rw [h1] at hp h <;> simp only at hp
  · cases h2 : w'.st p <;> rw [h2] at h <;> simp [StLe] at h ⊢
  · rcases h with h | h <;> rw [h] <;> trivial
  · simp only [StLe] at h; rw [h]; trivial
  · simp only [StLe] at h; rw [h]; trivial

theorem Ext.pub {w w' : World K V} (h : Ext w w') {p : Ptr} (hp : w.Pub p) : w'.Pub p := (h.st p).pub hp

theorem Ext.refl (w : World K V) : Ext w w :=
  ⟨fun _ _ => ⟨rfl, rfl, rfl⟩, fun _ => StLe.refl _ _, fun _ _ => ⟨id, le_refl _⟩, fun _ _ _ _ _ h h' => absurd h' h,
    le_refl _, fun _ _ => rfl⟩

theorem Ext.trans {w w1 w2 : World K V} (h : Ext w w1) (h' : Ext w1 w2) : Ext w w2 where
  fixed p hp := by
    obtain ⟨a, b, c⟩ := h.fixed p hp
    obtain ⟨a', b', c'⟩ := h'.fixed p (h.pub hp)
    exact ⟨a'.trans a, b'.trans b, c'.trans c⟩
  st p := (h.st p).trans (h'.st p) h.now
  rep p hp := ⟨fun g => (h'.rep p (h.pub hp)).1 ((h.rep p hp).1 g), le_trans (h'.rep p (h.pub hp)).2 (h.rep p hp).2⟩
  gone a b ha hb hl hn hg := by
    by_cases h1 : w1.Gone a
    · exact (h'.rep b (h.pub hb)).1 (h.gone a b ha hb hl hn h1)
    · refine h'.gone a b (h.pub ha) (h.pub hb) ?_ h1 hg
      rw [(h.fixed a ha).1, (h.fixed b hb).1]
      exact hl
  now := le_trans h.now h'.now
  maps i hi := (h'.maps i (le_trans hi h.now)).trans (h.maps i hi)

theorem Kp.refl (t : Tid) (E : Ptr → Prop) (w : World K V) : Kp t E w w :=
  ⟨Ext.refl w, rfl, fun _ _ _ => Iff.rfl, fun _ => Iff.rfl, Iff.rfl, fun _ _ => Iff.rfl, fun _ _ => Iff.rfl,
    fun _ _ _ => ⟨rfl, rfl⟩, fun _ _ h => ⟨h, rfl, rfl⟩, fun _ _ _ _ _ => rfl, fun _ _ => rfl, rfl, id⟩

theorem Kp.mono {t : Tid} {E E' : Ptr → Prop} {w w' : World K V} (h : Kp t E w w') (he : ∀ p, E p → E' p) : Kp t E' w w' :=
  ⟨h.ext, h.ph, h.noStale, h.pend, h.shr, fun p hp => h.six p (fun e => hp (he p e)), fun p hp => h.x p (fun e => hp (he p e)),
    fun p hp => h.own p (fun e => hp (he p e)), fun p hp => h.priv p (fun e => hp (he p e)),
    fun hs hw p hp => h.calm hs hw p (fun e => hp (he p e)), h.rt, h.wr⟩

theorem Kp.own_iff {t : Tid} {E : Ptr → Prop} {w w' : World K V} (h : Kp t E w w') {p : Ptr} (hp : ¬ E p) :
    w'.Own t p ↔ w.Own t p := or_congr (h.six p hp) (h.x p hp)

theorem Kp.trans {t : Tid} {E : Ptr → Prop} {w w1 w2 : World K V} (h : Kp t E w w1) (h' : Kp t E w1 w2) : Kp t E w w2 where
  ext := h.ext.trans h'.ext
  ph := h'.ph.trans h.ph
  noStale p τ q := (h'.noStale p τ q).trans (h.noStale p τ q)
  pend p := (h'.pend p).trans (h.pend p)
  shr := h'.shr.trans h.shr
  six p hp := (h'.six p hp).trans (h.six p hp)
  x p hp := (h'.x p hp).trans (h.x p hp)
  own p hp ho := by
    obtain ⟨a, b⟩ := h.own p hp ho
    obtain ⟨a', b'⟩ := h'.own p hp ((h.own_iff hp).2 ho)
    exact ⟨a'.trans a, b'.trans b⟩
  priv p hp hs := by
    obtain ⟨a, b, c⟩ := h.priv p hp hs
    obtain ⟨a', b', c'⟩ := h'.priv p hp a
    exact ⟨a', b'.trans b, c'.trans c⟩
  calm hs hw p hp hpub := (h'.calm (h.wr.1.trans hs) (h.wr.2 hw) p hp (h.ext.pub hpub)).trans (h.calm hs hw p hp hpub)
  rt hs hw := (h'.rt (h.wr.1.trans hs) (h.wr.2 hw)).trans (h.rt hs hw)
  wr := ⟨h'.wr.1.trans h.wr.1, fun e => h'.wr.2 (h.wr.2 e)⟩

theorem Rely.refl (t : Tid) (w : World K V) : Rely t w w :=
  ⟨Kp.refl _ _ _, fun _ => rfl, fun _ _ => rfl, fun _ _ _ _ _ => ⟨rfl, rfl⟩, fun _ => ⟨rfl, rfl⟩,
    fun _ _ => ⟨le_refl _, fun _ _ _ => rfl, fun _ _ => rfl⟩, rfl, fun _ _ => ⟨fun _ _ => rfl, rfl⟩⟩

theorem Rely.trans {t : Tid} {w w1 w2 : World K V} (h : Rely t w w1) (h' : Rely t w1 w2) : Rely t w w2 where
  kp := h.kp.trans h'.kp
  s p := (h'.s p).trans (h.s p)
  sheap p hp := by
    have : t ∈ (w1.lk p).s := by
      rw [← List.count_pos_iff, h.s p, List.count_pos_iff]
      exact hp
    exact (h'.sheap p this).trans (h.sheap p hp)
  root n ho hs hh hn := by
    obtain ⟨a, b⟩ := h.root n ho hs hh hn
    obtain ⟨c, d⟩ := h.kp.own _ (fun e => e) ho
    obtain ⟨a', b'⟩ := h'.root n (by rw [a]; exact (h.kp.own_iff (fun e => e)).2 ho) (by rw [a, d]; exact hs)
      (by rw [a]; exact c.trans hh) (by rw [h.strict]; exact hn)
    exact ⟨a'.trans a, b'.trans b⟩
  shr hs := by
    obtain ⟨a, b⟩ := h.shr hs
    obtain ⟨a', b'⟩ := h'.shr (h.kp.shr.2 hs)
    exact ⟨a'.trans a, b'.trans b⟩
  ver p hp := by
    obtain ⟨a, b, c⟩ := h.ver p hp
    obtain ⟨a', b', c'⟩ := h'.ver p (h.kp.ext.pub hp)
    refine ⟨le_trans a a', ?_, ?_⟩
    · intro h0 h2 hv
      have e1 : (w1.lk p).ver = (w.lk p).ver := by omega
      have e2 : (w2.lk p).ver = (w1.lk p).ver := by omega
      have h1 : (w1.lk p).x = none := by
        by_contra hne
        have := c' e2 hne
        rw [h2] at this
        exact hne this.symm
      exact (b' h1 h2 e2).trans (b h0 h1 e1)
    · intro hv hne
      have e1 : (w1.lk p).ver = (w.lk p).ver := by omega
      have e2 : (w2.lk p).ver = (w1.lk p).ver := by omega
      have h1 := c e1 hne
      exact (c' e2 (by rw [h1]; exact hne)).trans h1
  strict := h'.strict.trans h.strict
  alone hs hw := by
    obtain ⟨a, b⟩ := h.alone hs hw
    obtain ⟨a', b'⟩ := h'.alone (by rw [h.kp.wr.1]; exact hs) (h.kp.wr.2 hw)
    exact ⟨fun p hp => (a' p (h.kp.ext.pub hp)).trans (a p hp), b'.trans b⟩

/-! ## The logic -/

def World.setPh (w : World K V) (t : Tid) (x : PPhase K V) : World K V :=
  { w with ps := ⟨w.ps.now, w.ps.maps, Spec.upd w.ps.ph t x⟩ }

theorem CInv.raced {cfg : Cfg K} {w : World K V} (h : CInv cfg w) : w.mem.raced = false := h.base.1
theorem CInv.strict {cfg : Cfg K} {w : World K V} (h : CInv cfg w) : w.strict = !cfg.blink := h.base.2

theorem CInv.setPh {cfg : Cfg K} {w : World K V} (h : CInv cfg w) (t : Tid) (x : PPhase K V) : CInv cfg (w.setPh t x) := by
  obtain ⟨h1, h2, h2', h3, h4, h5, h6, h7, h8, h9, h10, h11, h12, h13, h14, h15, h16, h17, h18, h19, h20⟩ := h
  exact ⟨h1, h2, h2', h3, h4, h5, h6, h7, h8, h9, h10, h11, h12, h13, h14, h15, h16, h17, h18, h19, h20⟩

theorem rely_setPh (w : World K V) (t : Tid) (x : PPhase K V) (t' : Tid) (h : t' ≠ t) : Rely t' w (w.setPh t x) := by
  have r := Rely.refl t' w
  obtain ⟨⟨⟨e1, e2, e3, e4, e5, e6⟩, k2, k3, k4, k5, k6, k7, k8, k9, kc, kt, k10⟩, r2, r3, r4, r5, r6, r7, r8⟩ := r
  refine ⟨⟨⟨e1, e2, e3, e4, e5, e6⟩, ?_, k3, k4, k5, k6, k7, k8, k9, kc, kt, k10⟩, r2, r3, r4, r5, r6, r7, r8⟩
  show Spec.upd w.ps.ph t x t' = _
  rw [Spec.upd_ne _ _ h]

/-- Thread `t` does not ask for a lock that it has already; locks that nobody else asks for are those of new pages. -/
def Act.Asks {β : Type} (t : Tid) (w : World K V) : Act K V β → Prop
  | .lockSIX p | .tryLockSIX p _ | .tryLockX p _ => ¬ w.Own t p
  | .lockX p => w.st p = .priv t
  | _ => True

/-- Only pages of the tree are marked as removed, removed pages do not become the root, and leaves are merged before they are retired. -/
def Act.Public {β : Type} (w : World K V) : Act K V β → Prop
  | .store p n => n.removed = true → w.Pub p ∧ ¬ w.Dead p
  | .setRoot _ p => ∀ n, w.heap p = some n → n.removed = false
  | .retire p => w.Pub p ∧ (w.lvl p = 0 → ∃ τ q, w.st p = .merged τ q)
  | .free p => w.Pub p ∧ (w.lvl p = 0 → ∃ τ q, w.st p = .merged τ q)
  | _ => True

/-- Thread `t` holds no lock. -/
def World.NoLk (w : World K V) (t : Tid) : Prop := ∀ q, ¬ w.Own t q ∧ t ∉ (w.lk q).s

theorem World.NoLk.rely {w w' : World K V} {t : Tid} (h : w.NoLk t) (r : Rely t w w') : w'.NoLk t := by
  refine fun q => ⟨fun ho => (h q).1 ((r.kp.own_iff (fun e => e)).1 ho), fun hs => (h q).2 ?_⟩
  rw [← List.count_pos_iff, r.s q] at hs
  exact List.count_pos_iff.1 hs

/-- All pages that thread `t` owns come before page `p`: they are on a higher level, or on the same level to the left. -/
def World.Before (w : World K V) (t : Tid) (p : Ptr) : Prop :=
  ∀ q, w.Own t q → w.Pub q ∧ (w.lvl p < w.lvl q ∨ w.lvl q = w.lvl p ∧ w.lo q < w.lo p)

/-- Thread `t` asks for the pages from the top to the bottom and from the left to the right. -/
def Act.Ordered {β : Type} (t : Tid) (w : World K V) : Act K V β → Prop
  | .lockSIX p | .tryLockSIX p _ => w.Pub p ∧ w.Before t p
  | .lockX p => w.st p = .priv t
  | _ => True

theorem World.NoLk.before {w : World K V} {t : Tid} {p : Ptr} (h : w.NoLk t) : w.Before t p := fun q ho => absurd ho (h q).1

theorem World.Before.rely {w w' : World K V} {t : Tid} {p : Ptr} (h : w.Before t p) (hp : w.Pub p) (r : Rely t w w') : w'.Before t p := by
  intro q ho
  obtain ⟨a, b⟩ := h q ((r.kp.own_iff (fun e => e)).1 ho)
  have e1 := r.kp.ext.fixed q a
  have e2 := r.kp.ext.fixed p hp
  refine ⟨r.kp.ext.pub a, ?_⟩
  rw [e1.1, e1.2.1, e2.1, e2.2.1]
  exact b

/-- The logic of the B-link trees. -/
def blg (V : Type) (cfg : Cfg K) : Lg K V where
  W := World K V
  mem := World.mem
  parts := true
  ps := World.ps
  Inv := CInv cfg
  Rely := Rely
  Idle := fun t w => w.NoStale t ∧ w.solo = false ∧ (cfg.blink = false → w.NoLk t) ∧ w.NoPend t
  MayRace := fun w => w.solo = false
  Ask := fun t _ a w => (w.solo = true → a.Asks t w) ∧ a.Public w ∧ (cfg.blink = false → a.Ordered t w)
  Keep := fun w w' => w'.solo = w.solo ∧ w'.wr = w.wr
  setPh := World.setPh
  rely_refl := Rely.refl
  rely_trans := Rely.trans
  rely_ph := fun h => h.kp.ph
  idle_stable := fun h hi => ⟨⟨fun p τ q e => hi.1.1 p τ q ((h.kp.noStale p τ q).1 e), fun e => hi.1.2 (h.kp.shr.1 e)⟩, h.kp.wr.1.trans hi.2.1, fun e => (hi.2.2.1 e).rely h, fun p h' => hi.2.2.2 p ((h.kp.pend p).1 h')⟩
  mem_setPh := fun _ _ _ => rfl
  ps_setPh := fun _ _ _ => rfl
  inv_setPh := fun t x h => h.setPh t x
  idle_setPh := fun _ _ h => h
  rely_setPh := rely_setPh

end BT
