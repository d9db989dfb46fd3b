import Verif.Scan

/-!
# `CheckKeyRange` and `component/optimistic_record_iterator.hpp`, as executed by one thread

Version checks are dropped: with one thread and no write during the iteration every check succeeds.
`key_` is a `static thread_local` variable (line 320), so it is threaded through as a separate cell that all
iterators of the thread share, not as a member of the iterator.
-/

namespace BT
variable {K V : Type} [LinearOrder K]
open M

/-- `CheckKeyRange`: oml varlen 621-645, fixlen 601-625; osl varlen 539-563, fixlen 503-527; and
`CheckKeyRangeAndLockForRead/Write` of psl (varlen 486-503, 515-532, fixlen 462-479, 491-508).
Follow the sibling links until the page is in use and its upper bound exceeds the key.  A null link is
dereferenced by the callers. -/
def checkKeyRange (k : K) : Nat → Ptr → M K V Ptr
  | 0, _ => outOfFuel
  | f + 1, p => do
    let n ← load p
    if n.removed = false ∧ n.compHighKey k = true then return p
    else
      match n.next with
      | none => ub
      | some q => checkKeyRange k f q

/-- The members of `OptimisticRecordIterator` (lines 290-317) without `ver_` and `guard_`; `key_` is not a
member. -/
structure OIter (K V : Type) where
  node : Option Ptr
  pos : Nat
  endPos : Nat
  endKey : ScanKey K
  isEnd : Bool
  hasKey : Bool
  closed : Bool
  payload : Option V

/-- `ResetIterator`: lines 269-283.  `key` is the content of the thread-local cell. -/
def OIter.reset (fuel : Nat) (key : Option K) (it : OIter K V) : M K V (OIter K V) :=
  match it.node with
  | none => ub
  | some p =>
    if it.hasKey then
      match key with
      | none => ub
      | some k => do
        let p ← checkKeyRange k fuel p
        let n ← load p
        let (rc, pos) ← lift (n.searchRecord k)
        let (isEnd, endPos) ← lift (n.searchEndPositionFor it.endKey)
        return { it with
          node := some p
          pos := if rc = .keyAlreadyInserted ∧ it.closed = false then pos + 1 else pos
          isEnd := isEnd
          endPos := endPos }
    else do
      let n ← load p
      let (isEnd, endPos) ← lift (n.searchEndPositionFor it.endKey)
      return { it with pos := 0, isEnd := isEnd, endPos := endPos }

/-- `HasRecord`: lines 141-215.  Returns the answer, the iterator and the new content of `key_`. -/
def OIter.hasRecord : Nat → Option K → OIter K V → M K V (Bool × OIter K V × Option K)
  | 0, _, _ => outOfFuel
  | f + 1, key, it =>
    match it.node with
    | none => return (false, it, key)
    | some p => do
      let n ← load p
      if it.pos < it.endPos then
        match n.recs[it.pos]? with
        | none => ub
        | some r =>
          match r.key with
          | none => ub
          | some k =>
            if r.del then
              OIter.hasRecord f (some k) { it with pos := it.pos + 1, hasKey := true, closed := false }
            else
              match r.pay with
              | .ptr _ => ub
              | .val v =>
                return (true, { it with payload := some v, hasKey := true, closed := false }, some k)
      else if it.isEnd then return (false, { it with node := none }, key)
      else
        match n.next with
        | none => ub
        | some q => do
          let it ← OIter.reset f key { it with node := some q }
          OIter.hasRecord f key it

/-- `operator*`: lines 116-121.  The key comes from the shared cell. -/
def OIter.get (key : Option K) (it : OIter K V) : M K V (K × V) :=
  match key, it.payload with
  | some k, some v => return (k, v)
  | _, _ => ub

/-- The constructor: lines 62-84.  Returns the iterator and the content of `key_`. -/
def OIter.make (fuel : Nat) (key : Option K) (b e : ScanKey K) (leaf : Ptr) : M K V (OIter K V × Option K) := do
  let key' := match b with
    | some (k, _) => some k
    | none => key
  let closed := match b with
    | some (_, c) => c
    | none => false
  let it ← OIter.reset fuel key' ⟨some leaf, 0, 0, e, false, b.isSome, closed, none⟩
  return (it, key')

/-- The caller's loop `for (auto &&it = Scan(b, e); it; ++it)` with a single iterator. -/
def OIter.collect : Nat → Option K → OIter K V → M K V (List (K × V))
  | 0, _, _ => outOfFuel
  | f + 1, key, it => do
    let (b, it, key) ← OIter.hasRecord (f + 1) key it
    if b then
      let x ← OIter.get key it
      let rest ← OIter.collect f key { it with pos := it.pos + 1 }
      return x :: rest
    else return []

/-- `Scan` once the first leaf is known.  The thread-local cell initially holds an arbitrary key or
nothing. -/
def oscanFrom (fuel : Nat) (key : Option K) (b e : ScanKey K) (leaf : Ptr) : M K V (List (K × V)) := do
  let (it, key) ← OIter.make fuel key b e leaf
  OIter.collect fuel key it

end BT
