import Verif.PslOk
import Verif.OmlOk
import Verif.Variants

/-!
# Two scan iterators of one thread

A thread opens two iterators and advances them in turns.  A turn is `if (it) { use(*it); ++it; }`.
-/

set_option linter.unusedSectionVars false

namespace BT
variable {K V : Type} [LinearOrder K]
open M

/-- What `Scan` hands to the constructor of `RecordIterator`: pml/b_tree.hpp:149-162, psl/b_tree.hpp:166-179 (the part of `scanFrom`
before the caller's loop). -/
def Iter.make (b e : ScanKey K) (leaf : Ptr) : M K V (Iter K) := do
  let n ← load leaf
  let pos ← match b with
    | none => lift (.ok 0)
    | some (k, closed) => lift (scanBegin n k closed)
  let (isEnd, endPos) ← lift (n.searchEndPositionFor e)
  return ⟨some leaf, pos, endPos, e, isEnd⟩

/-- `Scan` of PML, returning the iterator: pml/b_tree.hpp:140-163. -/
def Pml.scanIter (fuel : Nat) (b e : ScanKey K) : M K V (Iter K) := do
  let root ← getRoot
  let leaf ← match b with
    | some (k, _) => Pml.descendForRead k fuel root
    | none => Pml.descendLeft fuel root
  Iter.make b e leaf

/-- `Scan` of PSL, returning the iterator: psl/b_tree.hpp:151-173. -/
def Psl.scanIter (fuel : Nat) (b e : ScanKey K) : M K V (Iter K) := do
  let root ← getRoot
  let leaf ← match b with
    | some (k, _) => Psl.descendForRead k fuel root
    | none => Psl.descendLeft fuel root
  Iter.make b e leaf

/-- One turn of a loop over a `RecordIterator`: record_iterator.hpp:84-115. -/
def Iter.turn (fuel : Nat) (it : Iter K) : M K V (Option (K × V) × Iter K) := do
  let (b, it) ← hasRecord fuel it
  if b then
    let x ← getRecord it
    return (some x, { it with pos := it.pos + 1 })
  else return (none, it)

/-- Turns of the iterators `its false` and `its true` in the order given; returns the records with the iterator they come from. -/
def alternate (fuel : Nat) : List Bool → (Bool → Iter K) → M K V (List (Bool × K × V))
  | [], _ => return []
  | i :: is, its => do
    let (x, it) ← Iter.turn fuel (its i)
    let rest ← alternate fuel is (fun j => if j = i then it else its j)
    return match x with
      | some x => (i, x) :: rest
      | none => rest

/-- `Scan` twice, then turns in the order given. -/
def twoScans (scan : Nat → ScanKey K → ScanKey K → M K V (Iter K)) (b e : Bool → ScanKey K) (turns : List Bool) (fuel : Nat) :
    M K V (List (Bool × K × V)) := do
  let it0 ← scan fuel (b false) (e false)
  let it1 ← scan fuel (b true) (e true)
  alternate fuel turns (fun i => if i then it1 else it0)

/-- `Scan` of OSL, returning the iterator and the new content of `key_`: osl/b_tree.hpp:150-160. -/
def Osl.scanIter (key : Option K) (fuel : Nat) (b e : ScanKey K) : M K V (OIter K V × Option K) := do
  let root ← getRoot
  let leaf ← match b with
    | some (k, _) => Osl.descend k fuel root
    | none => Osl.descendLeft fuel root
  OIter.make fuel key b e leaf

/-- `Scan` of OML, returning the iterator and the new content of `key_`: oml/b_tree.hpp:150-160. -/
def Oml.scanIter (key : Option K) (fuel : Nat) (b e : ScanKey K) : M K V (OIter K V × Option K) := do
  let root ← getRoot
  let leaf ← match b with
    | some (k, _) => Oml.descendForRead k fuel root
    | none => Oml.descendLeft fuel root
  OIter.make fuel key b e leaf

/-- One turn of a loop over an `OptimisticRecordIterator`: optimistic_record_iterator.hpp:106-131. -/
def OIter.turn (fuel : Nat) (key : Option K) (it : OIter K V) : M K V (Option (K × V) × OIter K V × Option K) := do
  let (b, it, key) ← OIter.hasRecord fuel key it
  if b then
    let x ← OIter.get key it
    return (some x, { it with pos := it.pos + 1 }, key)
  else return (none, it, key)

/-- `alternate` for optimistic iterators, which share `key_`. -/
def oalternate (fuel : Nat) : List Bool → Option K → (Bool → OIter K V) → M K V (List (Bool × K × V))
  | [], _, _ => return []
  | i :: is, key, its => do
    let (x, it, key) ← OIter.turn fuel key (its i)
    let rest ← oalternate fuel is key (fun j => if j = i then it else its j)
    return match x with
      | some x => (i, x) :: rest
      | none => rest

/-- `twoScans` for optimistic iterators. -/
def twoOScans (scan : Option K → Nat → ScanKey K → ScanKey K → M K V (OIter K V × Option K)) (key : Option K)
    (b e : Bool → ScanKey K) (turns : List Bool) (fuel : Nat) : M K V (List (Bool × K × V)) := do
  let (it0, key) ← scan key fuel (b false) (e false)
  let (it1, key) ← scan key fuel (b true) (e true)
  oalternate fuel turns key (fun i => if i then it1 else it0)

/-- Two scans; then `HasRecord` of the first, `HasRecord` of the second, `*` of the first. -/
def peekTwo (scan : Option K → Nat → ScanKey K → ScanKey K → M K V (OIter K V × Option K)) (key : Option K)
    (b e : Bool → ScanKey K) (fuel : Nat) : M K V (K × V) := do
  let (it0, key) ← scan key fuel (b false) (e false)
  let (it1, key) ← scan key fuel (b true) (e true)
  let (_, it0, key) ← OIter.hasRecord fuel key it0
  let (_, _, key) ← OIter.hasRecord fuel key it1
  OIter.get key it0

/-! ## Facts about `RecordIterator` -/

theorem bind_inv {α β : Type} {m : M K V α} {f : α → M K V β} {s s' : St K V} {r : β} (h : (m >>= f) s = .ok (r, s')) :
    ∃ a t, m s = .ok (a, t) ∧ f a t = .ok (r, s') := by
  rw [M.bind_run] at h
  split at h
  · next a t e => exact ⟨a, t, e, h⟩
  · cases h
  · cases h

theorem load_inv {p : Ptr} {s s' : St K V} {n : Node K V} (h : (load p : M K V (Node K V)) s = .ok (n, s')) : s' = s := by
  unfold M.load at h; split at h <;> cases h; rfl

theorem lift_inv {α : Type} {r : Res α} {a : α} {s s' : St K V} (h : (lift r : M K V α) s = .ok (a, s')) : s' = s ∧ r = .ok a := by
  unfold M.lift at h; split at h <;> cases h; exact ⟨rfl, rfl⟩

/-- `HasRecord` changes no page, and an answer "no" is for ever. -/
theorem hasRecord_pure : ∀ (f : Nat) (it : Iter K) (s s' : St K V) (b : Bool) (it' : Iter K),
    hasRecord f it s = .ok ((b, it'), s') → s' = s ∧ (b = false → it'.node = none)
  | 0, it, s, s', b, it', h => by cases h
  | f + 1, it, s, s', b, it', h => by
    unfold hasRecord at h
    cases e : it.node with
    | none => rw [e] at h; cases h; exact ⟨rfl, fun _ => e⟩
    | some p =>
      rw [e] at h
      obtain ⟨n, s1, h1, g1⟩ := bind_inv h
      clear h
      cases load_inv h1
      obtain ⟨pos, s2, h2, g2⟩ := bind_inv g1
      clear g1
      cases (lift_inv h2).1
      by_cases c1 : pos < it.endPos
      · rw [if_pos c1] at g2; cases g2; exact ⟨rfl, by simp⟩
      · rw [if_neg c1] at g2
        by_cases c2 : it.isEnd = true
        · rw [if_pos c2] at g2; cases g2; exact ⟨rfl, fun _ => rfl⟩
        · rw [if_neg c2] at g2
          cases e : n.next with
          | none => rw [e] at g2; cases g2
          | some q =>
            rw [e] at g2
            obtain ⟨qn, s3, h3, g3⟩ := bind_inv g2
            clear g2
            cases load_inv h3
            obtain ⟨⟨isEnd, endPos⟩, s4, h4, g4⟩ := bind_inv g3
            cases (lift_inv h4).1
            exact hasRecord_pure f _ _ _ _ _ g4

theorem getRecord_pure {it : Iter K} {s s' : St K V} {x : K × V} (h : getRecord it s = .ok (x, s')) : s' = s := by
  unfold getRecord at h
  cases e : it.node with
  | none => rw [e] at h; cases h
  | some p =>
    rw [e] at h
    obtain ⟨n, s1, h1, g⟩ := bind_inv h
    clear h
    cases load_inv h1
    rcases hr : n.recs[it.pos]? with _ | ⟨_ | k, _ | _, d⟩ <;> rw [hr] at g <;> cases g
    rfl

/-- The iterator still has the records `l` to give. -/
def Iter.Has (fuel : Nat) (s : St K V) (it : Iter K) (l : List (K × V)) : Prop := ∃ f, f ≤ fuel ∧ collect f it s = .ok (l, s)

theorem Iter.turn_ok {fuel : Nat} {s : St K V} {it : Iter K} {l : List (K × V)} (h : it.Has fuel s l) :
    ∃ it', Iter.turn fuel it s = .ok ((l.head?, it'), s) ∧ it'.Has fuel s l.tail := by
  obtain ⟨f, hf, h⟩ := h
  cases f with
  | zero => cases h
  | succ f =>
    unfold collect at h
    obtain ⟨⟨b, it1⟩, s1, h1, h⟩ := bind_inv h
    obtain ⟨rfl, hn⟩ := hasRecord_pure _ _ _ _ _ _ h1
    have h1' := (hasRecord_mono it (f + 1) fuel hf).le _ _ h1
    cases b with
    | false =>
      simp only [Bool.false_eq_true, if_false] at h
      cases h
      refine ⟨it1, ?_, f + 1, hf, ?_⟩
      · unfold Iter.turn
        rw [M.bind_ok h1']
        rfl
      · unfold collect
        have : hasRecord (f + 1) it1 s1 = .ok ((false, it1), s1) := by unfold hasRecord; rw [hn rfl]; rfl
        rw [M.bind_ok this]
        rfl
    | true =>
      simp only [if_true] at h
      obtain ⟨x, s2, h2, h⟩ := bind_inv h
      cases getRecord_pure h2
      obtain ⟨rest, s2, h3, h⟩ := bind_inv h
      cases h
      refine ⟨_, ?_, f, by omega, h3⟩
      unfold Iter.turn
      rw [M.bind_ok h1']
      simp only [if_true]
      rw [M.bind_ok h2]
      rfl

theorem alternate_ok {fuel : Nat} {s : St K V} : ∀ (turns : List Bool) (its : Bool → Iter K) (l : Bool → List (K × V)),
    (∀ i, (its i).Has fuel s (l i)) → ∃ outs, alternate fuel turns its s = .ok (outs, s) ∧
      ∀ i, (outs.filter (fun x => x.1 == i)).map Prod.snd = (l i).take (turns.count i)
  | [], its, l, _ => ⟨[], rfl, fun i => by simp⟩
  | i :: is, its, l, h => by
    obtain ⟨it', h1, h2⟩ := Iter.turn_ok (h i)
    obtain ⟨outs, h3, h4⟩ := alternate_ok is (fun j => if j = i then it' else its j) (fun j => if j = i then (l i).tail else l j)
      (fun j => by
        by_cases hj : j = i
        · simp only [hj, if_true]; exact h2
        · simp only [hj, if_false]; exact h j)
    have e : alternate fuel (i :: is) its s = .ok ((match (l i).head? with | some x => (i, x) :: outs | none => outs), s) := by
      unfold alternate
      rw [M.bind_ok h1]
      dsimp only
      rw [M.bind_ok h3]
      rfl
    refine ⟨_, e, fun j => ?_⟩
    have h5 := h4 j
    by_cases hj : j = i
    · subst hj
      simp only [if_true] at h5
      cases hl : l j with
      | nil => rw [hl] at h5; simpa using h5
      | cons x xs => rw [hl] at h5; simpa using h5
    · simp only [hj, if_false] at h5
      have hj' : ¬ i = j := fun e => hj e.symm
      cases hl : l i with
      | nil => simpa [hj', List.count_cons] using h5
      | cons x xs => simpa [hj', List.count_cons] using h5

theorem Mbind_assoc {α β γ : Type} (m : M K V α) (f : α → M K V β) (g : β → M K V γ) :
    m >>= f >>= g = m >>= fun a => f a >>= g := by
  funext s
  simp only [M.bind_run]
  cases m s <;> rfl

theorem Mpure_bind {α β : Type} (a : α) (f : α → M K V β) : (Pure.pure a >>= f : M K V β) = f a := rfl

theorem scanFrom_eq (fuel : Nat) (b e : ScanKey K) (leaf : Ptr) :
    scanFrom fuel b e leaf = (Iter.make b e leaf >>= collect fuel : M K V _) := by
  unfold scanFrom Iter.make
  cases b <;> simp only [Mbind_assoc, Mpure_bind]

theorem make_pure {b e : ScanKey K} {leaf : Ptr} {s s' : St K V} {it : Iter K} (h : (Iter.make b e leaf : M K V _) s = .ok (it, s')) :
    s' = s := by
  unfold Iter.make at h
  obtain ⟨n, s1, h1, g1⟩ := bind_inv h
  clear h
  cases load_inv h1
  cases b with
  | none =>
    obtain ⟨pos, s2, h2, g2⟩ := bind_inv g1
    clear g1
    cases (lift_inv h2).1
    obtain ⟨x, s3, h3, g3⟩ := bind_inv g2
    cases (lift_inv h3).1
    cases g3; rfl
  | some kc =>
    obtain ⟨pos, s2, h2, g2⟩ := bind_inv g1
    clear g1
    cases (lift_inv h2).1
    obtain ⟨x, s3, h3, g3⟩ := bind_inv g2
    cases (lift_inv h3).1
    cases g3; rfl

theorem collect_pure : ∀ (f : Nat) {it : Iter K} {s t : St K V} {l : List (K × V)}, collect f it s = .ok (l, t) → t = s
  | 0, it, s, t, l, h => by cases h
  | f + 1, it, s, t, l, h => by
    unfold collect at h
    obtain ⟨⟨c, it1⟩, s1, h1, g1⟩ := bind_inv h
    clear h
    cases (hasRecord_pure _ _ _ _ _ _ h1).1
    cases c with
    | false => cases g1; rfl
    | true =>
      simp only [if_true] at g1
      obtain ⟨x, s2, h2, g2⟩ := bind_inv g1
      clear g1
      cases getRecord_pure h2
      obtain ⟨rest, s3, h3, g3⟩ := bind_inv g2
      cases g3
      exact collect_pure f h3

/-- A scan that runs to its end can be cut after the construction of the iterator. -/
theorem Pml.scan_split {fuel : Nat} {b e : ScanKey K} {s s' : St K V} {l : List (K × V)} (h : Pml.scan fuel b e s = .ok (l, s')) :
    ∃ it, Pml.scanIter fuel b e s = .ok (it, s') ∧ collect fuel it s' = .ok (l, s') := by
  have e : Pml.scan fuel b e = (Pml.scanIter fuel b e >>= collect fuel : M K V _) := by
    unfold Pml.scan Pml.scanIter
    cases b <;> simp only [Mbind_assoc, scanFrom_eq]
  rw [e] at h
  obtain ⟨it, s1, h1, g⟩ := bind_inv h
  cases collect_pure _ g
  exact ⟨it, h1, g⟩

theorem Psl.scan_split {fuel : Nat} {b e : ScanKey K} {s s' : St K V} {l : List (K × V)} (h : Psl.scan fuel b e s = .ok (l, s')) :
    ∃ it, Psl.scanIter fuel b e s = .ok (it, s') ∧ collect fuel it s' = .ok (l, s') := by
  have e : Psl.scan fuel b e = (Psl.scanIter fuel b e >>= collect fuel : M K V _) := by
    unfold Psl.scan Psl.scanIter
    cases b <;> simp only [Mbind_assoc, scanFrom_eq]
  rw [e] at h
  obtain ⟨it, s1, h1, g⟩ := bind_inv h
  cases collect_pure _ g
  exact ⟨it, h1, g⟩

end BT
