import Verif.Blink
import Verif.Oml

/-!
# OSL: `component/osl/b_tree.hpp` (B-link tree with optimistic locks), as executed by one thread

See `Blink.lean` for the conventions.
-/

namespace BT
variable {K V : Type} [LinearOrder K]

namespace Osl
open M

/-- `SearchLeafNode`: osl/b_tree.hpp:464-484, with `SearchChild` (osl varlen 487-519, fixlen 451-483).  The leaf
itself is not checked against the key. -/
def descend (k : K) : Nat → Ptr → M K V Ptr
  | 0, _ => outOfFuel
  | f + 1, node => do
    let n ← load node
    if n.isInner then
      let node ← checkKeyRange k (f + 1) node
      let n ← load node
      let (_, pos) ← lift (n.searchRecord k)
      let child ← lift (n.getChild pos)
      descend k f child
    else return node

/-- `SearchLeftmostLeaf`: osl/b_tree.hpp:489-502, with `GetLeftmostChild` (osl varlen 330-344,
fixlen 296-310); the same steps as OML's. -/
def descendLeft (fuel : Nat) (p : Ptr) : M K V Ptr := Oml.descendLeft fuel p

/-- The loop of `SearchLeafNodeForWrite`: osl/b_tree.hpp:510-534; returns the leaf and the stack below it. -/
def descendForWrite (k : K) : Nat → List Ptr → Ptr → M K V (Ptr × List Ptr)
  | 0, _, _ => outOfFuel
  | f + 1, stack, node => do
    let n ← load node
    if n.isInner then
      let node ← checkKeyRange k (f + 1) node
      let n ← load node
      let (_, pos) ← lift (n.searchRecord k)
      let child ← lift (n.getChild pos)
      descendForWrite k f (node :: stack) child
    else return (node, stack)

/-- `SearchLeafNodeForWrite` and the `CheckKeyRange…` all its callers continue with. -/
def searchLeafForWrite (fuel : Nat) (k : K) : M K V (Ptr × List Ptr) := do
  let root ← getRoot
  let (leaf, stack) ← descendForWrite k fuel [] root
  let leaf ← checkKeyRange k fuel leaf
  return (leaf, stack)

/-- `Read`: osl/b_tree.hpp:127-141; node `Read`: osl varlen 645-664, fixlen 609-628. -/
def read (fuel : Nat) (k : K) : M K V (Option V) := do
  let root ← getRoot
  let leaf ← descend k fuel root
  let leaf ← checkKeyRange k fuel leaf
  let n ← load leaf
  lift (n.read k)

/-- `target_node->InsertRecord(…, target_node->SearchRecord(key).second)`: osl/b_tree.hpp:193-194, 231-232,
with `InsertRecord` (osl varlen 788-814, fixlen 730-757).  There is no space check here. -/
def insertInto (cfg : Cfg K) (n : Node K V) (k : K) (v : V) : Res (Node K V) := do
  let (_, pos) ← n.searchRecord k
  n.insertRecord cfg k (.val v) pos

/-- The tail of `Write` and `Insert` after `kNeedSplit`: osl/b_tree.hpp:188-200, 226-238. -/
def splitAndInsert (cfg : Cfg K) (fuel : Nat) (leaf : Ptr) (stack : List Ptr) (k : K) (v : V) : M K V RC := do
  let r ← Blink.halfSplit cfg leaf
  let ln ← load leaf
  let target := Pml.validSplitNode leaf ln k r
  let tn ← load target
  let tn ← lift (insertInto cfg tn k v)
  store target tn
  let sep ← Blink.separatorKey (decide (target = leaf)) tn
  Blink.completeSplit cfg fuel stack none leaf r sep
  return .success

/-- `Write`: osl/b_tree.hpp:174-201. -/
def write (cfg : Cfg K) (fuel : Nat) (k : K) (v : V) : M K V RC := do
  let (leaf, stack) ← searchLeafForWrite fuel k
  let n ← load leaf
  let (rc, n) ← lift (Blink.leafWrite cfg n k v)
  store leaf n
  if rc = .needSplit then splitAndInsert cfg fuel leaf stack k v
  else return .success

/-- `Insert`: osl/b_tree.hpp:212-239. -/
def insert (cfg : Cfg K) (fuel : Nat) (k : K) (v : V) : M K V RC := do
  let (leaf, stack) ← searchLeafForWrite fuel k
  let n ← load leaf
  let (rc, n) ← lift (Blink.leafInsert cfg n k v)
  store leaf n
  if rc = .keyAlreadyInserted then return .keyExist
  else if rc = .needSplit then splitAndInsert cfg fuel leaf stack k v
  else return .success

/-- `Update`: osl/b_tree.hpp:250-261; node `Update`: osl varlen 828-854, fixlen 772-798. -/
def update (fuel : Nat) (k : K) (v : V) : M K V RC := do
  let root ← getRoot
  let leaf ← descend k fuel root
  let leaf ← checkKeyRange k fuel leaf
  let n ← load leaf
  let (rc, n) ← lift (n.leafUpdate k v)
  store leaf n
  return rc

/-- `Delete`: osl/b_tree.hpp:271-289. -/
def delete (cfg : Cfg K) (fuel : Nat) (k : K) : M K V RC := do
  let (leaf, stack) ← searchLeafForWrite fuel k
  let n ← load leaf
  let (rc, n) ← lift (Blink.leafDelete cfg n k)
  store leaf n
  if rc = .keyNotInserted then return .keyNotExist
  else if rc = .needMerge then
    Blink.mergeLoop cfg fuel stack none leaf
    return .success
  else return .success

/-- `Scan` and iterating to the end: osl/b_tree.hpp:150-160.  `key` is the previous content of the iterator's
thread-local key cell. -/
def scan (key : Option K) (fuel : Nat) (b e : ScanKey K) : M K V (List (K × V)) := do
  let root ← getRoot
  let leaf ← match b with
    | some (k, _) => descend k fuel root
    | none => descendLeft fuel root
  oscanFrom fuel key b e leaf

/-- OSL's entry points. -/
def impl (cfg : Cfg K) (key : Option K) : Impl K V where
  read := read
  write := write cfg
  insert := insert cfg
  update := update
  delete := delete cfg
  scan := scan key

end Osl
end BT
