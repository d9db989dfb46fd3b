import Verif.Conc
import Mathlib.Logic.Function.Basic

/-!
# Optimistic reads, word by word

`Conc.lean` reads a whole page by one action.  Optimistic readers of `oml/node_*.hpp` and `osl/node_*.hpp` read field by
field while a writer may be changing the page, and validate the version afterwards.  This file contains a machine for
one page at the granularity of its words, with readers whose next word may depend on the words already read,
and the field-by-field code of node `Read` and `SearchChild`.

Simplifications: sequentially consistent memory; what a word is (a byte, a field, a key) is a parameter of the
machine; the instance below takes one word per field, key, deletion mark and payload.
-/

namespace BT

/-- Code that reads words of a page one after the other.  `ι` names the words, `W i` is the type of word `i`. -/
inductive Rd (ι : Type) (W : ι → Type) (α : Type) : Type where
  | ret (a : α)
  | look (i : ι) (k : W i → Rd ι W α)

namespace Rd
variable {ι α β : Type} {W : ι → Type}

def bind : Rd ι W α → (α → Rd ι W β) → Rd ι W β
  | ret a, f => f a
  | look i k, f => look i (fun w => bind (k w) f)

instance : Monad (Rd ι W) where
  pure := ret
  bind := bind

/-- What the code computes if the page does not change. -/
def run : Rd ι W α → ((i : ι) → W i) → α
  | ret a, _ => a
  | look i k, m => (k (m i)).run m

/-- read one word -/
def word (i : ι) : Rd ι W (W i) := look i ret

@[simp] theorem run_pure (a : α) (m : (i : ι) → W i) : (pure a : Rd ι W α).run m = a := rfl
@[simp] theorem run_ret (a : α) (m : (i : ι) → W i) : (ret a : Rd ι W α).run m = a := rfl
@[simp] theorem run_word (i : ι) (m : (i : ι) → W i) : (word i : Rd ι W (W i)).run m = m i := rfl
@[simp] theorem run_bind (p : Rd ι W α) (f : α → Rd ι W β) (m : (i : ι) → W i) : (p >>= f).run m = (f (p.run m)).run m := by
  show (bind p f).run m = _
  induction p with
  | ret a => rfl
  | look i k ih => exact ih (m i)
end Rd

/-- One page and the attempts of its optimistic readers: the version an attempt has started with and the code it still
has to run. -/
structure PageSt (ι : Type) (W : ι → Type) (α : Type) where
  words : (i : ι) → W i
  lk : Lk
  rd : Tid → Option (Nat × Rd ι W α)

/-- What a thread does to the page.  The lock calls are those of `Act`. -/
inductive PageAct (ι : Type) (W : ι → Type) (α : Type) where
  | lockS (t : Tid) | unlockS (t : Tid)
  | lockSIX (t : Tid) | unlockSIX (t : Tid)
  | lockX (t : Tid) | unlockX (t : Tid)
  | upgradeX (t : Tid) | downgradeSIX (t : Tid)
  /-- write one word -/
  | write (t : Tid) (i : ι) (w : W i)
  /-- `ver = GetVersion()`, then run `p` -/
  | begin (t : Tid) (p : Rd ι W α)
  /-- read the next word -/
  | look (t : Tid)
  /-- the code has come to its end with result `a`; `ok = HasSameVersion(ver)` -/
  | finish (t : Tid) (a : α) (ok : Bool)

variable {ι α : Type} {W : ι → Type} [DecidableEq ι]

/-- The lock calls as in `Act.run` (`Conc.lean`); words are written under an X lock only. -/
inductive PageStep : PageSt ι W α → PageAct ι W α → PageSt ι W α → Prop
  | lockS {s} (t) : s.lk.x = none → PageStep s (.lockS t) { s with lk := { s.lk with s := t :: s.lk.s } }
  | unlockS {s} (t) : t ∈ s.lk.s → PageStep s (.unlockS t) { s with lk := { s.lk with s := s.lk.s.erase t } }
  | lockSIX {s} (t) : s.lk.x = none → s.lk.six = none → PageStep s (.lockSIX t) { s with lk := { s.lk with six := some t } }
  | unlockSIX {s} (t) : s.lk.six = some t → PageStep s (.unlockSIX t) { s with lk := { s.lk with six := none } }
  | lockX {s} (t) : s.lk.x = none → s.lk.six = none → s.lk.s = [] →
      PageStep s (.lockX t) { s with lk := { s.lk with x := some t } }
  | unlockX {s} (t) : s.lk.x = some t → PageStep s (.unlockX t) { s with lk := { s.lk with x := none, ver := s.lk.ver + 1 } }
  | upgradeX {s} (t) : s.lk.six = some t → s.lk.s = [] →
      PageStep s (.upgradeX t) { s with lk := { s.lk with six := none, x := some t } }
  | downgradeSIX {s} (t) : s.lk.x = some t →
      PageStep s (.downgradeSIX t) { s with lk := { s.lk with x := none, six := some t, ver := s.lk.ver + 1 } }
  | write {s} (t i w) : s.lk.x = some t → PageStep s (.write t i w) { s with words := Function.update s.words i w }
  | begin {s} (t p) : s.lk.x = none → s.rd t = none → PageStep s (.begin t p) { s with rd := Function.update s.rd t (some (s.lk.ver, p)) }
  | look {s} (t) {v i k} : s.rd t = some (v, .look i k) →
      PageStep s (.look t) { s with rd := Function.update s.rd t (some (v, k (s.words i))) }
  | finish {s} (t) {v a} : s.rd t = some (v, .ret a) →
      PageStep s (.finish t a (decide (s.lk.x = none ∧ s.lk.ver = v))) { s with rd := Function.update s.rd t none }

/-- `σ 0, σ 1, …, σ N` is an execution; step `n` does `act n`. -/
def PageRun (σ : Nat → PageSt ι W α) (act : Nat → PageAct ι W α) (N : Nat) : Prop :=
  ∀ n, n < N → PageStep (σ n) (act n) (σ (n + 1))

/-- The thread that starts or ends an attempt. -/
def PageAct.edge : PageAct ι W α → Option Tid
  | .begin t _ => some t
  | .finish t _ _ => some t
  | _ => none

/-- Once the version has changed or somebody holds the X lock, version `v` will not be seen again. -/
theorem PageStep.broken {s s' : PageSt ι W α} {x : PageAct ι W α} {v : Nat} (h : PageStep s x s') (hv : v ≤ s.lk.ver)
    (hb : v < s.lk.ver ∨ s.lk.x ≠ none) : v ≤ s'.lk.ver ∧ (v < s'.lk.ver ∨ s'.lk.x ≠ none) := by
  cases h <;> (dsimp only at *; try exact ⟨hv, hb⟩)
  · rename_i h; exact ⟨hv, by simp⟩
  · exact ⟨by omega, Or.inl (by omega)⟩
  · exact ⟨hv, by simp⟩
  · exact ⟨by omega, Or.inl (by omega)⟩

/-- While the version is `v` and no X lock is taken, a step keeps the words and what the reader will compute. -/
theorem PageStep.keeps {s s' : PageSt ι W α} {x : PageAct ι W α} {t : Tid} {v : Nat} {p : Rd ι W α} (h : PageStep s x s')
    (he : x.edge ≠ some t) (hx : s.lk.x = none) (hv : s.lk.ver = v) (hp : s.rd t = some (v, p)) :
    v ≤ s'.lk.ver ∧ ((v < s'.lk.ver ∨ s'.lk.x ≠ none) ∨
      (s'.lk.x = none ∧ s'.lk.ver = v ∧ s'.words = s.words ∧ ∃ q, s'.rd t = some (v, q) ∧ q.run s.words = p.run s.words)) := by
  cases h with
  | write u i w h => rw [hx] at h; cases h
  | unlockX u h => rw [hx] at h; cases h
  | downgradeSIX u h => rw [hx] at h; cases h
  | lockX u _ _ _ => exact ⟨Nat.le_of_eq hv.symm, Or.inl (Or.inr (by simp))⟩
  | upgradeX u _ _ => exact ⟨Nat.le_of_eq hv.symm, Or.inl (Or.inr (by simp))⟩
  | begin u q _ _ =>
    have hu : t ≠ u := by rintro rfl; exact he rfl
    refine ⟨Nat.le_of_eq hv.symm, Or.inr ⟨hx, hv, rfl, p, ?_, rfl⟩⟩
    show Function.update s.rd u _ t = _
    rw [Function.update_of_ne hu]; exact hp
  | finish u _ =>
    have hu : t ≠ u := by rintro rfl; exact he rfl
    refine ⟨Nat.le_of_eq hv.symm, Or.inr ⟨hx, hv, rfl, p, ?_, rfl⟩⟩
    show Function.update s.rd u _ t = _
    rw [Function.update_of_ne hu]; exact hp
  | @look u v' i k h =>
    by_cases hu : t = u
    · subst hu
      rw [hp] at h
      cases h
      refine ⟨Nat.le_of_eq hv.symm, Or.inr ⟨hx, hv, rfl, k (s.words i), ?_, rfl⟩⟩
      show Function.update s.rd t _ t = _
      rw [Function.update_self]
    · refine ⟨Nat.le_of_eq hv.symm, Or.inr ⟨hx, hv, rfl, p, ?_, rfl⟩⟩
      show Function.update s.rd u _ t = _
      rw [Function.update_of_ne hu]; exact hp
  | lockS | unlockS | lockSIX | unlockSIX => exact ⟨Nat.le_of_eq hv.symm, Or.inr ⟨hx, hv, rfl, p, hp, rfl⟩⟩

/-- The version of an attempt does not change. -/
theorem PageStep.rdVer {s s' : PageSt ι W α} {x : PageAct ι W α} {t : Tid} {v : Nat} {p : Rd ι W α} (h : PageStep s x s')
    (he : x.edge ≠ some t) (hp : s.rd t = some (v, p)) : ∃ q, s'.rd t = some (v, q) := by
  cases h with
  | begin u q _ _ =>
    have hu : t ≠ u := by rintro rfl; exact he rfl
    exact ⟨p, (Function.update_of_ne hu _ _).trans hp⟩
  | finish u _ =>
    have hu : t ≠ u := by rintro rfl; exact he rfl
    exact ⟨p, (Function.update_of_ne hu _ _).trans hp⟩
  | @look u v' i k h =>
    by_cases hu : t = u
    · subst hu
      rw [hp] at h
      cases h
      exact ⟨_, Function.update_self _ _ _⟩
    · exact ⟨p, (Function.update_of_ne hu _ _).trans hp⟩
  | _ => exact ⟨p, hp⟩

private theorem attemptVer {σ : Nat → PageSt ι W α} {act : Nat → PageAct ι W α} {N i j : Nat} {t : Tid} {p : Rd ι W α}
    (hrun : PageRun σ act N) (hj : j < N) (hb : act i = .begin t p) (hone : ∀ m, i < m → m < j → (act m).edge ≠ some t) :
    ∀ d, i + 1 + d ≤ j → ∃ q, (σ (i + 1 + d)).rd t = some ((σ i).lk.ver, q)
  | 0, hd => by
    have h := hrun i (by omega)
    rw [hb] at h
    rw [Nat.add_zero]
    generalize σ (i + 1) = s' at h ⊢
    cases h with
    | begin _ _ hx _ => exact ⟨p, Function.update_self _ _ _⟩
  | d + 1, hd => by
    obtain ⟨q, hq⟩ := attemptVer hrun hj hb hone d (by omega)
    exact (hrun (i + 1 + d) (by omega)).rdVer (hone _ (by omega) (by omega)) hq

/-- State of an attempt of `t` with version `v` at instant `m`. -/
private theorem attempt {σ : Nat → PageSt ι W α} {act : Nat → PageAct ι W α} {N i j : Nat} {t : Tid} {p : Rd ι W α}
    (hrun : PageRun σ act N) (hj : j < N) (hb : act i = .begin t p) (hone : ∀ m, i < m → m < j → (act m).edge ≠ some t) :
    ∀ d, i + 1 + d ≤ j → (σ i).lk.ver ≤ (σ (i + 1 + d)).lk.ver ∧
      (((σ i).lk.ver < (σ (i + 1 + d)).lk.ver ∨ (σ (i + 1 + d)).lk.x ≠ none) ∨
       ((σ (i + 1 + d)).lk.x = none ∧ (σ (i + 1 + d)).lk.ver = (σ i).lk.ver ∧ (σ (i + 1 + d)).words = (σ i).words ∧
        ∃ q, (σ (i + 1 + d)).rd t = some ((σ i).lk.ver, q) ∧ q.run (σ i).words = p.run (σ i).words))
  | 0, hd => by
    have h := hrun i (by omega)
    rw [hb] at h
    rw [Nat.add_zero]
    generalize σ (i + 1) = s' at h ⊢
    cases h with
    | begin _ _ hx _ =>
      refine ⟨Nat.le_refl _, Or.inr ⟨hx, rfl, rfl, p, ?_, rfl⟩⟩
      show Function.update (σ i).rd t _ t = _
      rw [Function.update_self]
  | d + 1, hd => by
    obtain ⟨h1, h2⟩ := attempt hrun hj hb hone d (by omega)
    have h := hrun (i + 1 + d) (by omega)
    rcases h2 with h2 | ⟨hx, hv, hw, q, hq, hr⟩
    · obtain ⟨a, b⟩ := h.broken h1 h2
      exact ⟨a, Or.inl b⟩
    · obtain ⟨a, b⟩ := h.keeps (hone _ (by omega) (by omega)) hx hv hq
      refine ⟨a, ?_⟩
      rcases b with b | ⟨b1, b2, b3, q', b4, b5⟩
      · exact Or.inl b
      · rw [hw] at b3 b5
        exact Or.inr ⟨b1, b2, b3, q', b4, b5.trans hr⟩

private theorem stays {σ : Nat → PageSt ι W α} {act : Nat → PageAct ι W α} {N v m : Nat} (hrun : PageRun σ act N)
    (h1 : v ≤ (σ m).lk.ver) (h2 : v < (σ m).lk.ver ∨ (σ m).lk.x ≠ none) :
    ∀ d, m + d ≤ N → v ≤ (σ (m + d)).lk.ver ∧ (v < (σ (m + d)).lk.ver ∨ (σ (m + d)).lk.x ≠ none)
  | 0, _ => ⟨h1, h2⟩
  | d + 1, hd => by
    obtain ⟨a, b⟩ := stays hrun h1 h2 d (by omega)
    exact (hrun (m + d) (by omega)).broken a b

/-- A validated attempt has read one state of the page, which the page was in at every instant of the attempt. -/
theorem PageRun.snapshot {σ : Nat → PageSt ι W α} {act : Nat → PageAct ι W α} {N i j : Nat} {t : Tid} {p : Rd ι W α} {a : α}
    (hrun : PageRun σ act N) (hij : i < j) (hj : j < N) (hb : act i = .begin t p) (hf : act j = .finish t a true)
    (hone : ∀ m, i < m → m < j → (act m).edge ≠ some t) :
    ∀ m, i ≤ m → m ≤ j → (σ m).words = (σ i).words ∧ p.run (σ m).words = a := by
  obtain ⟨d, rfl⟩ : ∃ d, j = i + 1 + d := ⟨j - (i + 1), by omega⟩
  have hgood : (σ (i + 1 + d)).lk.x = none ∧ (σ (i + 1 + d)).lk.ver = (σ i).lk.ver ∧ p.run (σ i).words = a := by
    obtain ⟨h1, h2⟩ := attempt hrun hj hb hone d (Nat.le_refl _)
    have h := hrun (i + 1 + d) hj
    rw [hf] at h
    generalize hs : σ (i + 1 + d + 1) = s' at h
    generalize hbool : true = ok at h
    cases h with
    | @finish _ v _ hrd =>
      have hdec := of_decide_eq_true hbool.symm
      rcases h2 with h2 | ⟨g1, g2, -, q, g3, g4⟩
      · obtain ⟨c1, c2⟩ := hdec
        obtain ⟨q, hq⟩ := attemptVer hrun hj hb hone d (Nat.le_refl _)
        rw [hrd] at hq
        cases hq
        rcases h2 with h2 | h2
        · rw [c2] at h2; exact absurd h2 (Nat.lt_irrefl _)
        · exact absurd c1 h2
      · rw [hrd] at g3
        cases g3
        exact ⟨g1, g2, g4.symm⟩
  intro m hm hmj
  have hwords : (σ m).words = (σ i).words := by
    rcases Nat.eq_or_lt_of_le hm with rfl | hm
    · rfl
    obtain ⟨e, rfl⟩ : ∃ e, m = i + 1 + e := ⟨m - (i + 1), by omega⟩
    obtain ⟨h1, h2⟩ := attempt hrun hj hb hone e hmj
    rcases h2 with h2 | ⟨-, -, h, -⟩
    · obtain ⟨-, h4⟩ := stays hrun h1 h2 (d - e) (by omega)
      rw [show i + 1 + e + (d - e) = i + 1 + d by omega] at h4
      rcases h4 with h4 | h4
      · rw [hgood.2.1] at h4; exact absurd h4 (Nat.lt_irrefl _)
      · exact absurd hgood.1 h4
    · exact h
  exact ⟨hwords, by rw [hwords]; exact hgood.2.2⟩

/-! ## The fields of a page -/

/-- The words that `Read` and `SearchChild` look at. -/
inductive Fld where
  | removed | inner | count | high | next
  | key (i : Nat) | mark (i : Nat) | pay (i : Nat)
  deriving DecidableEq

/-- Their types.  A slot that is not in use has no key, mark or payload. -/
def Fld.Ty (K V : Type) : Fld → Type
  | .removed => Bool
  | .inner => Bool
  | .count => Nat
  | .high => Option K
  | .next => Option Ptr
  | .key _ => Option (Option K)
  | .mark _ => Option Bool
  | .pay _ => Option (Pay V)

variable {K V : Type}

/-- The words of a page. -/
def Node.words (n : Node K V) : (f : Fld) → f.Ty K V
  | .removed => n.removed
  | .inner => n.isInner
  | .count => n.recs.length
  | .high => n.high
  | .next => n.next
  | .key i => (n.recs[i]?).map (·.key)
  | .mark i => (n.recs[i]?).map (·.del)
  | .pay i => (n.recs[i]?).map (·.pay)

/-- Code that reads fields. -/
abbrev RdF (K V α : Type) := Rd Fld (Fld.Ty K V) α

variable [LinearOrder K]

/-- The loop of `SearchRecord`, field by field: osl varlen 459-473, fixlen 425-437; oml varlen 492-506, fixlen 474-486.
Looking at a slot that is not in use gives `ub`. -/
def searchLoopF (k : K) : Nat → Nat → Nat → RdF K V (Res (NodeRC × Nat))
  | 0, _, _ => .ret .fuel
  | f + 1, b, e =>
    if b < e then
      let pos := (b + e - 1) / 2
      .look (.key pos) fun
        | none => .ret .ub
        | some none => .ret .ub
        | some (some ik) =>
          if k < ik then searchLoopF k f b pos
          else if ik < k then searchLoopF k f (pos + 1) e
          else .look (.mark pos) fun
            | none => .ret .ub
            | some del => .ret (.ok (if del then .keyAlreadyDeleted else .keyAlreadyInserted, pos))
    else .ret (.ok (.keyNotInserted, b))

/-- `SearchRecord`, field by field: osl varlen 454-476, fixlen 420-440; oml varlen 487-509, fixlen 469-489. -/
def searchRecordF (k : K) : RdF K V (Res (NodeRC × Nat)) :=
  .look .inner fun inner => .look .count fun count => body inner count
where
  body (inner : Bool) (count : Nat) : RdF K V (Res (NodeRC × Nat)) := do
    let r ← searchLoopF k (count + 1) (if inner then 1 else 0) count
    return match r with
    | .ok (.keyNotInserted, b) => .ok (.keyNotInserted, b - (if inner then 1 else 0))
    | r => r

/-- Where an attempt leads: to the page on the right (or nowhere), or to an answer. -/
inductive Lead (α : Type) where
  | right (p : Option Ptr)
  | here (a : α)
  deriving DecidableEq

/-- The header test of `CheckKeyRange`: osl varlen 544-560, fixlen 508-524; `inside` goes on if the page is in charge of the key. -/
def inRangeF {α : Type} (k : K) (inside : RdF K V (Res α)) : RdF K V (Res (Lead α)) :=
  .look .removed fun removed => .look .high fun high => body removed high
where
  body (removed : Bool) (high : Option K) : RdF K V (Res (Lead α)) :=
    if removed = false ∧ (match high with | none => true | some h => decide (k < h)) = true then do
      let r ← inside
      return do
        let a ← r
        return .here a
    else .look .next fun p => .ret (.ok (.right p))

/-- One attempt of node `Read`, field by field: osl varlen 652-662, fixlen 616-625.  (The version is also compared at the end of
`CheckKeyRange`; that comparison can only end the attempt earlier.) -/
def nodeReadF (k : K) : RdF K V (Res (Lead (Option V))) :=
  inRangeF k do
    let r ← searchRecordF k
    match r with
    | .ok (.keyAlreadyInserted, pos) => .look (.pay pos) fun
      | some (.val v) => .ret (.ok (some v))
      | _ => .ret .ub
    | .ok _ => .ret (.ok none)
    | .ub => .ret .ub
    | .fuel => .ret .fuel

/-- One attempt of `SearchChild`, field by field: osl varlen 494-501, fixlen 458-465. -/
def searchChildF (k : K) : RdF K V (Res (Lead Ptr)) :=
  inRangeF k do
    let r ← searchRecordF k
    match r with
    | .ok (_, pos) => .look (.pay pos) fun
      | some (.ptr p) => .ret (.ok p)
      | _ => .ret .ub
    | .ub => .ret .ub
    | .fuel => .ret .fuel

theorem searchLoopF_run (n : Node K V) (k : K) : ∀ f b e,
    (searchLoopF k f b e : RdF K V _).run n.words = Node.searchLoop n.recs k f b e
  | 0, _, _ => rfl
  | f + 1, b, e => by
    rw [searchLoopF, Node.searchLoop]
    by_cases hbe : b < e
    · rw [if_pos hbe, if_pos hbe]
      simp only [Rd.run, Node.words]
      cases hr : n.recs[(b + e - 1) / 2]? with
      | none => rfl
      | some r =>
        simp only [Option.map_some]
        cases hk : r.key with
        | none => rfl
        | some ik =>
          dsimp only
          by_cases h1 : k < ik
          · simp only [if_pos h1]; exact searchLoopF_run n k f _ _
          · by_cases h2 : ik < k
            · simp only [if_neg h1, if_pos h2]; exact searchLoopF_run n k f _ _
            · simp only [if_neg h1, if_neg h2, Rd.run, Node.words, hr, Option.map_some]
    · rw [if_neg hbe, if_neg hbe]; rfl

theorem searchRecordF_run (n : Node K V) (k : K) : (searchRecordF k : RdF K V _).run n.words = n.searchRecord k := by
  show (searchRecordF.body k n.isInner n.recs.length : RdF K V _).run n.words = _
  simp only [searchRecordF.body, Rd.run_bind, Rd.run_pure, searchLoopF_run, Node.searchRecord, Node.rc]
  rcases Node.searchLoop n.recs k (n.recs.length + 1) (if n.isInner then 1 else 0) n.recs.length with ⟨rc, b⟩ | _ | _
  · cases rc <;> rfl
  · rfl
  · rfl

/-- What `CheckKeyRange` and the code behind it do on a page that does not change. -/
def Node.lead {α : Type} (n : Node K V) (k : K) (inside : Res α) : Res (Lead α) :=
  if n.removed = false ∧ n.compHighKey k = true then inside >>= fun a => return .here a else return .right n.next

theorem inRangeF_run {α : Type} (n : Node K V) (k : K) (inside : RdF K V (Res α)) :
    (inRangeF k inside).run n.words = n.lead k (inside.run n.words) := by
  show (inRangeF.body k inside n.removed n.high).run n.words = _
  unfold inRangeF.body Node.lead
  by_cases h : n.removed = false ∧ n.compHighKey k = true
  · rw [if_pos h]
    refine Eq.trans (congrArg (Rd.run · n.words) (if_pos h)) ?_
    simp only [Rd.run_bind, Rd.run_pure]
  · rw [if_neg h]
    exact congrArg (Rd.run · n.words) (if_neg h)

theorem nodeReadF_run (n : Node K V) (k : K) : (nodeReadF k : RdF K V _).run n.words = n.lead k (n.read k) := by
  rw [nodeReadF, inRangeF_run]
  congr 1
  simp only [Rd.run_bind, searchRecordF_run, Node.read]
  rcases h : n.searchRecord k with ⟨rc, pos⟩ | _ | _
  · have hb : (Res.ok (rc, pos) >>= fun (x : NodeRC × Nat) =>
        if x.1 = .keyAlreadyInserted then n.getVal x.2 >>= fun v => (pure (some v) : Res (Option V)) else pure none) =
        if rc = .keyAlreadyInserted then n.getVal pos >>= fun v => pure (some v) else pure none := rfl
    refine Eq.trans ?_ hb.symm
    by_cases hrc : rc = .keyAlreadyInserted
    · subst hrc
      rw [if_pos rfl]
      simp only [Rd.run, Node.words, Node.getVal]
      rcases n.recs[pos]? with _ | ⟨_, _ | _, _⟩ <;> rfl
    · rw [if_neg hrc]
      cases rc <;> first | rfl | exact absurd rfl hrc
  · rfl
  · rfl

theorem searchChildF_run (n : Node K V) (k : K) :
    (searchChildF k : RdF K V _).run n.words = n.lead k (do let (_, pos) ← n.searchRecord k; n.getChild pos) := by
  rw [searchChildF, inRangeF_run]
  congr 1
  simp only [Rd.run_bind, searchRecordF_run]
  rcases h : n.searchRecord k with ⟨rc, pos⟩ | _ | _
  · refine Eq.trans ?_ (show n.getChild pos = _ from rfl)
    simp only [Rd.run, Node.words, Node.getChild]
    rcases n.recs[pos]? with _ | ⟨_, _ | _, _⟩ <;> rfl
  · rfl
  · rfl

end BT
