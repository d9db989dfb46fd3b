import Verif.Conc
import Verif.Scan

/-!
# The loop over a `RecordIterator` (PML, PSL) with its locks

A scan is the call of `Scan` together with the caller's loop over the iterator, `for (auto &&it = Scan(b, e); it; ++it)`;
its answer is the list of the records the loop sees.
-/

namespace BT
variable {K V : Type} [LinearOrder K]

/-- The records from `pos` on, at most `m` of them, without the deleted ones: what `HasRecord` and `operator*` deliver from one page
(record_iterator.hpp:110-115, 143-147).  Undefined behaviour if a position has no record. -/
def leafPart (recs : List (Rec K V)) : Nat → Nat → Res (List (K × V))
  | 0, _ => .ok []
  | m + 1, pos =>
    match recs[pos]? with
    | none => .ub
    | some r =>
      if r.del then leafPart recs m (pos + 1)
      else
        match r.key, r.pay with
        | some k, .val v => do
          let l ← leafPart recs m (pos + 1)
          return (k, v) :: l
        | _, _ => .ub

namespace CScan
open Prog

/-- The loop over a `RecordIterator` from position `pos` of the S-locked page `p` on: record_iterator.hpp:138-163 with
`GetNextNodeForRead` (pml varlen 192-200, fixlen 182-190, psl varlen 157-165) and `SearchEndPositionFor`.  A page cannot change while it is S-locked,
so the page is looked at once. -/
def iterate (e : ScanKey K) : Nat → Ptr → Nat → Prog K V (List (K × V))
  | 0, _, _ => stuck
  | f + 1, p, pos => do
    let n ← load p
    let (isEnd, endPos) ← lift (n.searchEndPositionFor e)
    let l ← lift (leafPart n.recs (endPos - pos) pos)
    if isEnd then do
      unlockS p
      return l
    else
      match n.next with
      | none => ub
      | some q => do
        lockS q
        unlockS p
        let l' ← iterate e f q 0
        return l ++ l'

/-- The begin position in the first leaf: pml/b_tree.hpp:149-154, psl/b_tree.hpp:166-171. -/
def beginPos (b : ScanKey K) (n : Node K V) : Res Nat :=
  match b with
  | none => .ok 0
  | some (k, closed) => scanBegin n k closed

end CScan

end BT
