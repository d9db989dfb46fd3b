import Verif.Pml

/-!
# `component/record_iterator.hpp` and the `Scan` of PML

The caller's loop `for (auto &&it = Scan(b, e); it; ++it) { use(*it); }` is modelled by `collect`.
-/

namespace BT
variable {K V : Type} [LinearOrder K]
open M

/-- The members of `RecordIterator`, record_iterator.hpp:185-202. -/
structure Iter (K : Type) where
  node : Option Ptr
  pos : Nat
  endPos : Nat
  endKey : ScanKey K
  isEnd : Bool

/-- The inner loop of `HasRecord` skipping deleted records, record_iterator.hpp:144-146.  `m` bounds the
number of slots left (`end_pos_ - pos_`). -/
def skipDeleted (recs : List (Rec K V)) (endPos : Nat) : Nat → Nat → Res Nat
  | 0, pos => .ok pos
  | m + 1, pos =>
    if pos < endPos then
      match recs[pos]? with
      | none => .ub
      | some r => if r.del then skipDeleted recs endPos m (pos + 1) else .ok pos
    else .ok pos

/-- `HasRecord`, record_iterator.hpp:138-163, with `GetNextNodeForRead` (pml varlen 327-335). -/
def hasRecord : Nat → Iter K → M K V (Bool × Iter K)
  | 0, _ => outOfFuel
  | f + 1, it =>
    match it.node with
    | none => return (false, it)
    | some p => do
      let n ← load p
      let pos ← lift (skipDeleted n.recs it.endPos (it.endPos - it.pos) it.pos)
      if pos < it.endPos then return (true, { it with pos := pos })
      else if it.isEnd then return (false, { it with node := none, pos := pos })
      else
        match n.next with
        | none => ub
        | some q => do
          let qn ← load q
          let (isEnd, endPos) ← lift (qn.searchEndPositionFor it.endKey)
          hasRecord f { it with node := some q, pos := 0, isEnd := isEnd, endPos := endPos }

/-- `operator*` → `GetRecord`, record_iterator.hpp:110-115. -/
def getRecord (it : Iter K) : M K V (K × V) :=
  match it.node with
  | none => ub
  | some p => do
    let n ← load p
    match n.recs[it.pos]? with
    | some ⟨some k, .val v, _⟩ => return (k, v)
    | _ => ub

/-- The caller's loop over the iterator. -/
def collect : Nat → Iter K → M K V (List (K × V))
  | 0, _ => outOfFuel
  | f + 1, it => do
    let (b, it) ← hasRecord (f + 1) it
    if b then
      let x ← getRecord it
      let rest ← collect f { it with pos := it.pos + 1 }
      return x :: rest
    else return []

/-- Begin position inside the first leaf: pml/b_tree.hpp:149-154, psl/b_tree.hpp:166-171. -/
def scanBegin (n : Node K V) (k : K) (closed : Bool) : Res Nat := do
  let (rc, pos) ← n.searchRecord k
  return if rc = .keyAlreadyInserted ∧ closed = false then pos + 1 else pos

/-- `Scan` once the first leaf is known: pml/b_tree.hpp:149-162, psl/b_tree.hpp:166-179. -/
def scanFrom (fuel : Nat) (b e : ScanKey K) (leaf : Ptr) : M K V (List (K × V)) := do
  let n ← load leaf
  let pos ← match b with
    | none => lift (.ok 0)
    | some (k, closed) => lift (scanBegin n k closed)
  let (isEnd, endPos) ← lift (n.searchEndPositionFor e)
  collect fuel ⟨some leaf, pos, endPos, e, isEnd⟩

/-- `Scan` and iterating to the end: pml/b_tree.hpp:140-163. -/
def Pml.scan (fuel : Nat) (b e : ScanKey K) : M K V (List (K × V)) := do
  let root ← getRoot
  let leaf ← match b with
    | some (k, _) => Pml.descendForRead k fuel root
    | none => Pml.descendLeft fuel root
  scanFrom fuel b e leaf

end BT
