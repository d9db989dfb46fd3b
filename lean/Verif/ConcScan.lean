import Verif.PslConc
import Verif.OslConc
import Verif.OmlConc
import Verif.IterConc

/-!
# `Scan` with several threads: the iterators with their locks and version checks

A scan is the call of `Scan` together with the caller's loop over the iterator, `for (auto &&it = Scan(b, e); it; ++it)`;
its answer is the list of the records the loop sees.
-/

namespace BT
variable {K V : Type} [LinearOrder K]

namespace CPsl
open Prog

/-- `SearchLeftmostLeaf`: psl/b_tree.hpp:506-520 after the load of `root_`, with `GetLeftmostChild`: psl varlen 309-323, fixlen 285-300. -/
def leftmost : Nat → Ptr → Prog K V Ptr
  | 0, _ => stuck
  | f + 1, p => do
    let inner ← isInner p
    if inner then
      lockS p
      let n ← load p
      if n.removed then
        unlockS p
        let root ← getRoot
        leftmost f root
      else
        let child ← lift (n.getChild 0)
        unlockS p
        leftmost f child
    else
      lockS p
      return p

/-- The loop over a `RecordIterator` (`CScan.iterate`) in PSL: record_iterator.hpp:138-163 with `GetNextNodeForRead` (psl varlen 157-165,
fixlen 153-160).  The code does not look at `is_removed_`; that an iterator is in a page that has been merged into its left neighbour is
noted (the fourth noted situation). -/
def iterate (e : ScanKey K) : Nat → Ptr → Nat → Prog K V (List (K × V))
  | 0, _, _ => stuck
  | f + 1, p, pos => do
    let n ← load p
    note n.removed
    let (isEnd, endPos) ← lift (n.searchEndPositionFor e)
    let l ← lift (leafPart n.recs (endPos - pos) pos)
    if isEnd then do
      unlockS p
      return l
    else
      match n.next with
      | none => ub
      | some q => do
        lockS q
        unlockS p
        let l' ← iterate e f q 0
        return l ++ l'

/-- `Scan`: psl/b_tree.hpp:152-175, with the loop over the iterator. -/
def scan (fuel : Nat) (b e : ScanKey K) : Prog K V (List (K × V)) := do
  let root ← getRoot
  let leaf ← match b with
    | some (k, _) => searchLeafR k fuel root
    | none => leftmost fuel root
  let n ← load leaf
  let pos ← lift (CScan.beginPos b n)
  iterate e fuel leaf pos

/-- PSL's entry points with `Scan`. -/
def execS (cfg : Cfg K) : CImpl K V := fun fuel op =>
  match op with
  | .scan b e => do
    let l ← scan fuel b e
    return .recs l
  | op => exec cfg fuel op

end CPsl

namespace COsl
open Prog

/-- The members of `OptimisticRecordIterator` (optimistic_record_iterator.hpp:290-317); `key` stands for `key_` and `has_key_`. -/
structure It (K : Type) where
  node : Ptr
  ver : Nat
  pos : Nat
  endPos : Nat
  isEnd : Bool
  key : Option K
  closed : Bool

/-- `SearchEndPositionFor` on a page that others may change meanwhile: osl varlen 515-529, fixlen 479-493 (oml varlen 597-611, fixlen
577-591).  `IsRightmostOf` is one look at the page, the search for the end key or `record_count_` another. -/
def endPosition (e : ScanKey K) (p : Ptr) : Prog K V (Bool × Nat) := do
  let n ← peek p
  if n.isRightmostOf e then
    match e with
    | some (k, closed) => do
      let n ← peek p
      let (rc, pos) ← lift (n.searchRecord k)
      return (true, if rc = .keyAlreadyInserted ∧ closed = true then pos + 1 else pos)
    | none => do
      let n ← peek p
      return (true, n.rc)
  else do
    let n ← peek p
    return (false, n.rc)

/-- `ResetIterator`: optimistic_record_iterator.hpp:269-283.  `CheckKeyRange` leaves a null pointer in `node_` when it runs off the right
end; it is dereferenced (`ub`). -/
def seek (e : ScanKey K) (f : Nat) (it : It K) : Prog K V (It K) :=
  match it.key with
  | some k => do
    match ← checkO k f it.node with
    | none => ub
    | some (p, ver) => do
      let n ← peek p
      let (rc, pos) ← lift (n.searchRecord k)
      let (isEnd, endPos) ← endPosition e p
      return ⟨p, ver, if rc = .keyAlreadyInserted ∧ it.closed = false then pos + 1 else pos, endPos, isEnd, it.key, it.closed⟩
  | none => do
    let ver ← getVer it.node
    let (isEnd, endPos) ← endPosition e it.node
    return ⟨it.node, ver, 0, endPos, isEnd, none, it.closed⟩

/-- Not part of the code.  If the iterator is at its end as soon as it has been reset, `HasRecord` does not check the version of the page
any more; that the page has been changed since the version was taken is noted (the fourth noted situation). -/
def noteEnd (it : It K) : Prog K V Unit :=
  if it.isEnd = true ∧ it.endPos ≤ it.pos then do
    let ok ← same it.node it.ver
    note (!ok)
  else return ()

/-- `ResetIterator` (`seek`), with the note. -/
def reset (e : ScanKey K) (f : Nat) (it : It K) : Prog K V (It K) := do
  let it ← seek e f it
  noteEnd it
  return it

/-- The loop over an `OptimisticRecordIterator`: `HasRecord` (optimistic_record_iterator.hpp:141-215), `operator*` and `operator++`.
Simplifications: key, deletion flag and payload of a record are one look at the page; a look at a position without a record is harmless if
the version check that follows fails, and undefined behaviour otherwise. -/
def iterate (e : ScanKey K) : Nat → It K → Prog K V (List (K × V))
  | 0, _ => stuck
  | f + 1, it => do
    if it.pos < it.endPos then
      let n ← peek it.node
      let ok ← same it.node it.ver
      if ok then
        match n.recs[it.pos]? with
        | none => ub
        | some r =>
          match r.key with
          | none => ub
          | some k =>
            let it' : It K := { it with pos := it.pos + 1, key := some k, closed := false }
            if r.del then iterate e f it'
            else
              match r.pay with
              | .ptr _ => ub
              | .val v => do
                let l ← iterate e f it'
                return (k, v) :: l
      else do
        let it ← reset e (f + 1) it
        iterate e f it
    else if it.isEnd then return []
    else do
      let n ← peek it.node
      let ok ← same it.node it.ver
      if ok then
        match n.next with
        | none => ub
        | some q => do
          let it ← reset e (f + 1) { it with node := q }
          iterate e f it
      else do
        let it ← reset e (f + 1) it
        iterate e f it

/-- `GetLeftmostChild`: osl varlen 330-344, fixlen 296-310 and OML's copies.  `none`: the page is removed. -/
def leftmostChild : Nat → Ptr → Prog K V (Option Ptr)
  | 0, _ => stuck
  | f + 1, p => do
    let ver ← getVer p
    let n ← peek p
    let ok ← same p ver
    if ok then
      if n.removed then return none
      else do
        let child ← lift (n.getChild 0)
        return some child
    else leftmostChild f p

/-- `SearchLeftmostLeaf`: osl/b_tree.hpp:487-501, oml/b_tree.hpp:491-503, after the load of `root_`. -/
def leftmost : Nat → Ptr → Prog K V Ptr
  | 0, _ => stuck
  | f + 1, p => do
    let inner ← isInner p
    if inner then
      match ← leftmostChild (f + 1) p with
      | none => do
        let root ← getRoot
        leftmost f root
      | some child => leftmost f child
    else return p

/-- `Scan` with the loop over the iterator, once the first leaf is known: osl/b_tree.hpp:157-159, with the constructor of the iterator
(optimistic_record_iterator.hpp:62-84). -/
def scanFrom (fuel : Nat) (b e : ScanKey K) (leaf : Ptr) : Prog K V (List (K × V)) := do
  let it ← reset e fuel ⟨leaf, 0, 0, 0, false, b.map Prod.fst, (b.map Prod.snd).getD false⟩
  iterate e fuel it

/-- `Scan`: osl/b_tree.hpp:151-160. -/
def scan (fuel : Nat) (b e : ScanKey K) : Prog K V (List (K × V)) := do
  let root ← getRoot
  let leaf ← match b with
    | some (k, _) => searchLeaf k fuel root
    | none => leftmost fuel root
  scanFrom fuel b e leaf

/-- OSL's entry points with `Scan`. -/
def execS (cfg : Cfg K) : CImpl K V := fun fuel op =>
  match op with
  | .scan b e => do
    let l ← scan fuel b e
    return .recs l
  | op => exec cfg fuel op

end COsl

namespace COml
open Prog

/-- `Scan`: oml/b_tree.hpp:150-160; the iterator is the same as OSL's. -/
def scan (fuel : Nat) (b e : ScanKey K) : Prog K V (List (K × V)) := do
  let root ← getRoot
  let leaf ← match b with
    | some (k, _) => descendForRead k fuel root
    | none => COsl.leftmost fuel root
  COsl.scanFrom fuel b e leaf

/-- OML's entry points with `Scan`. -/
def execS (cfg : Cfg K) (junk : Node K V → Node K V → K) : CImpl K V := fun fuel op =>
  match op with
  | .scan b e => do
    let l ← scan fuel b e
    return .recs l
  | op => exec cfg junk fuel op

end COml
end BT
