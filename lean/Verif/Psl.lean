import Verif.Blink
import Verif.Oml

/-!
# PSL: `component/psl/b_tree.hpp` (B-link tree with single pessimistic locks), as executed by one thread

See `Blink.lean` for the conventions.  A null result of `CheckKeyRangeAndLockForRead/Write` (the page was
removed by another thread) is `ub` here and shown not to occur with one thread.
-/

namespace BT
variable {K V : Type} [LinearOrder K]

namespace Psl
open M

/-- `SearchLeafNodeForRead`: psl/b_tree.hpp:478-495, with `SearchChild` (psl varlen 442-459, fixlen 418-435). -/
def descendForRead (k : K) : Nat → Ptr → M K V Ptr
  | 0, _ => outOfFuel
  | f + 1, node => do
    let node ← checkKeyRange k (f + 1) node
    let n ← load node
    if n.isInner then
      let (_, pos) ← lift (n.searchRecord k)
      let child ← lift (n.getChild pos)
      descendForRead k f child
    else return node

/-- `SearchLeftmostLeaf`: psl/b_tree.hpp:506-519, with `GetLeftmostChild` (psl varlen 309-323,
fixlen 286-300); the same steps as OML's. -/
def descendLeft (fuel : Nat) (p : Ptr) : M K V Ptr := Oml.descendLeft fuel p

/-- The loop of `SearchLeafNodeForWrite`: psl/b_tree.hpp:531-560. -/
def descendForWrite (k : K) : Nat → List Ptr → Ptr → M K V (List Ptr)
  | 0, _, _ => outOfFuel
  | f + 1, stack, node => do
    let n ← load node
    let node ← checkKeyRange k (f + 1) node
    if n.isInner then
      let n ← load node
      let (_, pos) ← lift (n.searchRecord k)
      let child ← lift (n.getChild pos)
      descendForWrite k f (node :: stack) child
    else return node :: stack

/-- `SearchLeafNodeForWrite`: psl/b_tree.hpp:531-560. -/
def searchLeafForWrite (fuel : Nat) (k : K) : M K V (Ptr × List Ptr) := do
  let root ← getRoot
  let stack ← descendForWrite k fuel [] root
  match stack with
  | [] => ub
  | leaf :: stack => return (leaf, stack)

/-- `Read`: psl/b_tree.hpp:127-142; node `Read`: psl varlen 548-567, fixlen 524-542. -/
def read (fuel : Nat) (k : K) : M K V (Option V) := do
  let root ← getRoot
  let leaf ← descendForRead k fuel root
  let n ← load leaf
  lift (n.read k)

/-- `Write`: psl/b_tree.hpp:187-211.  The result of the second node `Write` is ignored by the code, so it is
here. -/
def write (cfg : Cfg K) (fuel : Nat) (k : K) (v : V) : M K V RC := do
  let (leaf, stack) ← searchLeafForWrite fuel k
  let n ← load leaf
  let (rc, n) ← lift (Blink.leafWrite cfg n k v)
  store leaf n
  if rc = .needSplit then
    let r ← Blink.halfSplit cfg leaf
    let ln ← load leaf
    let target := Pml.validSplitNode leaf ln k r
    let tn ← load target
    let (_, tn) ← lift (Blink.leafWrite cfg tn k v)
    store target tn
    let sep ← Blink.separatorKey (decide (target = leaf)) tn
    Blink.completeSplit cfg fuel stack none leaf r sep
    return .success
  else return .success

/-- `Insert`: psl/b_tree.hpp:223-250. -/
def insert (cfg : Cfg K) (fuel : Nat) (k : K) (v : V) : M K V RC := do
  let (leaf, stack) ← searchLeafForWrite fuel k
  let n ← load leaf
  let (rc, n) ← lift (Blink.leafInsert cfg n k v)
  store leaf n
  if rc = .keyAlreadyInserted then return .keyExist
  else if rc = .needSplit then
    let r ← Blink.halfSplit cfg leaf
    let ln ← load leaf
    let target := Pml.validSplitNode leaf ln k r
    let tn ← load target
    let (_, tn) ← lift (Blink.leafInsert cfg tn k v)
    store target tn
    let sep ← Blink.separatorKey (decide (target = leaf)) tn
    Blink.completeSplit cfg fuel stack none leaf r sep
    return .success
  else return .success

/-- `Update`: psl/b_tree.hpp:260-272; node `Update`: psl varlen 669-690, fixlen 624-645. -/
def update (fuel : Nat) (k : K) (v : V) : M K V RC := do
  let (leaf, _) ← searchLeafForWrite fuel k
  let n ← load leaf
  let (rc, n) ← lift (n.leafUpdate k v)
  store leaf n
  return rc

/-- `Delete`: psl/b_tree.hpp:282-301. -/
def delete (cfg : Cfg K) (fuel : Nat) (k : K) : M K V RC := do
  let (leaf, stack) ← searchLeafForWrite fuel k
  let n ← load leaf
  let (rc, n) ← lift (Blink.leafDelete cfg n k)
  store leaf n
  if rc = .keyNotInserted then return .keyNotExist
  else if rc = .needMerge then
    Blink.mergeLoop cfg fuel stack none leaf
    return .success
  else return .success

/-- `Scan` and iterating to the end: psl/b_tree.hpp:151-173 and `component/record_iterator.hpp`. -/
def scan (fuel : Nat) (b e : ScanKey K) : M K V (List (K × V)) := do
  let root ← getRoot
  let leaf ← match b with
    | some (k, _) => descendForRead k fuel root
    | none => descendLeft fuel root
  scanFrom fuel b e leaf

/-- PSL's entry points. -/
def impl (cfg : Cfg K) : Impl K V where
  read := read
  write := write cfg
  insert := insert cfg
  update := update
  delete := delete cfg
  scan := scan

end Psl
end BT
