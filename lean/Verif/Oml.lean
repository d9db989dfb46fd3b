import Verif.Pml
import Verif.OScan
import Verif.Impl

/-!
# OML: `component/oml/b_tree.hpp` (optimistic lock coupling), as executed by one thread

Locks and version checks are dropped (with one thread every version check succeeds).  Handing a page to the
garbage collector is `M.free`: nothing may touch it afterwards.
-/

namespace BT
variable {K V : Type} [LinearOrder K]

namespace Oml
open M

/-- `NeedSplit`: oml varlen 1326-1349 (may clean the page up), fixlen 1230-1239. -/
def needSplit (cfg : Cfg K) (n : Node K V) (newLen : Nat) : Res (Bool × Node K V) :=
  match cfg.layout with
  | .fix => .ok (decide (n.usedSize cfg + newLen > cfg.cap), n)
  | .var =>
    let total := cfg.metaLen * (n.rc + 1) + n.block + newLen
    if total ≤ cfg.cap then .ok (false, n)
    else if total - n.dead > cfg.maxUsed then .ok (true, n)
    else do
      let n ← n.cleanUp cfg
      return (false, n)

/-- `NeedMerge`: oml varlen 1358-1378 (may clean the page up), fixlen 1246-1255. -/
def needMerge (cfg : Cfg K) (n : Node K V) : Res (Bool × Node K V) :=
  match cfg.layout with
  | .fix => .ok (decide (n.usedSize cfg < cfg.minUsed), n)
  | .var =>
    if n.usedSize cfg < cfg.minUsed then .ok (true, n)
    else if n.dead ≤ cfg.maxDeleted then .ok (false, n)
    else do
      let n ← n.cleanUp cfg
      return (false, n)

/-- `CheckSMOs`: oml varlen 1389-1401, fixlen 1266-1278. -/
def checkSMOs (cfg : Cfg K) (n : Node K V) (newLen : Nat) : Res (NodeRC × Node K V) := do
  let (need, n) ← needSplit cfg n newLen
  if need then return (.needSplit, n)
  else
    let (need, n) ← needMerge cfg n
    return (if need then .needMerge else .completed, n)

/-- `CheckNodeStatus`: oml varlen 221-242, fixlen 226-247. -/
def checkNodeStatus (cfg : Cfg K) (n : Node K V) (newLen : Nat) : Res (NodeRC × Node K V) :=
  if n.removed then .ok (.needRetry, n) else checkSMOs cfg n newLen

/-- `GetRootForWrite` with `TryRootSplit` and `TryShrinkTree`: oml/b_tree.hpp:437-455, 659-686, 736-756.
`TryRootSplit` does what PML's `RootSplit` does.  `GetRecordCount() > 1 || !IsInner()` makes
`TryShrinkTree` succeed without doing anything. -/
def getRootForWrite (cfg : Cfg K) (k : K) : Nat → M K V Ptr
  | 0 => outOfFuel
  | f + 1 => do
    let root ← getRoot
    let n ← load root
    let (rc, n) ← lift (checkNodeStatus cfg n (cfg.maxKeyLen + cfg.maxPayLen))
    store root n
    if rc = .needRetry then getRootForWrite cfg k f
    else if rc = .needSplit then Pml.rootSplit cfg k
    else if rc = .needMerge then
      if n.rc > 1 ∨ n.isInner = false then return root
      else
        let child ← lift (n.getChild 0)
        free root
        setRoot child
        getRootForWrite cfg k f
    else return root

/-- `TrySplit`: oml/b_tree.hpp:621-647.  `GetValidSplitNode` (reading the left node only) and
`InsertChild` (changing the parent only) are modelled in the opposite order. -/
def trySplit (cfg : Cfg K) (k : K) (child parent : Ptr) (pos : Nat) : M K V Ptr := do
  let r ← Pml.split cfg child parent pos
  let cn ← load child
  return Pml.validSplitNode child cn k r

/-- `TryMerge` with `GetMergeableRightChild`: oml/b_tree.hpp:700-725, oml varlen 328-353, fixlen 313-338; the same steps as
PML's `Merge`. -/
def tryMerge (cfg : Cfg K) (child parent : Ptr) (pos : Nat) : M K V Unit := Pml.merge cfg child parent pos

/-- The loop of `SearchLeafNodeForWrite`: oml/b_tree.hpp:516-544, with `SearchChild` (oml varlen 558-587,
fixlen 538-567). -/
def descendForWrite (cfg : Cfg K) (k : K) : Nat → Ptr → M K V Ptr
  | 0, _ => outOfFuel
  | f + 1, node => do
    let n ← load node
    if n.isInner then
      if n.removed = true ∨ n.compHighKey k = false then
        let node ← getRootForWrite cfg k (f + 1)
        descendForWrite cfg k f node
      else
        let (_, pos) ← lift (n.searchRecord k)
        let child ← lift (n.getChild pos)
        let cn ← load child
        let (rc, cn) ← lift (checkNodeStatus cfg cn (cfg.maxKeyLen + cfg.maxPayLen))
        store child cn
        if rc = .needRetry then descendForWrite cfg k f node
        else if rc = .needSplit then
          let child ← trySplit cfg k child node pos
          descendForWrite cfg k f child
        else if rc = .needMerge then
          tryMerge cfg child node pos
          descendForWrite cfg k f child
        else descendForWrite cfg k f child
    else return node

/-- `SearchLeafNodeForWrite`: oml/b_tree.hpp:516-544. -/
def searchLeafForWrite (cfg : Cfg K) (fuel : Nat) (k : K) : M K V Ptr := do
  let root ← getRootForWrite cfg k fuel
  descendForWrite cfg k fuel root

/-- `SearchLeafNodeForRead`: oml/b_tree.hpp:467-480, with `SearchChild` (oml varlen 520-542, fixlen 500-522). -/
def descendForRead (k : K) : Nat → Ptr → M K V Ptr
  | 0, _ => outOfFuel
  | f + 1, node => do
    let n ← load node
    if n.isInner then
      if n.removed = true ∨ n.compHighKey k = false then
        let root ← getRoot
        descendForRead k f root
      else
        let (_, pos) ← lift (n.searchRecord k)
        let child ← lift (n.getChild pos)
        descendForRead k f child
    else return node

/-- `SearchLeftmostLeaf`: oml/b_tree.hpp:491-503, with `GetLeftmostChild` (oml varlen 300-314,
fixlen 285-299). -/
def descendLeft : Nat → Ptr → M K V Ptr
  | 0, _ => outOfFuel
  | f + 1, node => do
    let n ← load node
    if n.isInner then
      if n.removed = true then
        let root ← getRoot
        descendLeft f root
      else
        let child ← lift (n.getChild 0)
        descendLeft f child
    else return node

/-- `Read`: oml/b_tree.hpp:128-140; node `Read`: oml varlen 713-730, fixlen 693-710. -/
def read (fuel : Nat) (k : K) : M K V (Option V) := do
  let root ← getRoot
  let leaf ← descendForRead k fuel root
  let leaf ← checkKeyRange k fuel leaf
  let n ← load leaf
  lift (n.read k)

/-- `Write`: oml/b_tree.hpp:175-190, with `CheckKeyRangeAndLockForWrite` (oml varlen 678-695, fixlen 658-675)
and node `Write` (oml varlen 749-770, fixlen 729-748). -/
def write (cfg : Cfg K) (k : K) (v : V) : Nat → M K V RC
  | 0 => outOfFuel
  | f + 1 => do
    let leaf ← searchLeafForWrite cfg (f + 1) k
    let leaf ← checkKeyRange k (f + 1) leaf
    let n ← load leaf
    let (rc, n) ← lift (checkSMOs cfg n (cfg.klen k + cfg.payLen))
    store leaf n
    if rc = .needSplit then write cfg k v f
    else
      let n ← lift (n.leafWrite cfg k v)
      store leaf n
      return .success

/-- `Insert`: oml/b_tree.hpp:202-216; node `Insert`: oml varlen 789-825, fixlen 767-798. -/
def insert (cfg : Cfg K) (k : K) (v : V) : Nat → M K V RC
  | 0 => outOfFuel
  | f + 1 => do
    let leaf ← searchLeafForWrite cfg (f + 1) k
    let leaf ← checkKeyRange k (f + 1) leaf
    let n ← load leaf
    let (rc, n) ← lift (checkSMOs cfg n (cfg.klen k + cfg.payLen))
    store leaf n
    if rc = .needSplit then insert cfg k v f
    else
      let (rc, n) ← lift (n.leafInsert cfg k v)
      store leaf n
      return rc

/-- `Update`: oml/b_tree.hpp:228-238; node `Update`: oml varlen 842-866, fixlen 815-839. -/
def update (cfg : Cfg K) (fuel : Nat) (k : K) (v : V) : M K V RC := do
  let leaf ← searchLeafForWrite cfg fuel k
  let leaf ← checkKeyRange k fuel leaf
  let n ← load leaf
  let (rc, n) ← lift (n.leafUpdate k v)
  store leaf n
  return rc

/-- `Delete`: oml/b_tree.hpp:249-258; node `Delete`: oml varlen 881-904, fixlen 854-887. -/
def delete (cfg : Cfg K) (fuel : Nat) (k : K) : M K V RC := do
  let leaf ← searchLeafForWrite cfg fuel k
  let leaf ← checkKeyRange k fuel leaf
  let n ← load leaf
  let (rc, n) ← lift (n.leafDelete cfg k)
  store leaf n
  return rc

/-- `Scan` and iterating to the end: oml/b_tree.hpp:150-160.  `key` is the previous content of the
iterator's thread-local key cell. -/
def scan (key : Option K) (fuel : Nat) (b e : ScanKey K) : M K V (List (K × V)) := do
  let root ← getRoot
  let leaf ← match b with
    | some (k, _) => descendForRead k fuel root
    | none => descendLeft fuel root
  oscanFrom fuel key b e leaf

/-- OML's entry points. -/
def impl (cfg : Cfg K) (key : Option K) : Impl K V where
  read := read
  write := fun fuel k v => write cfg k v fuel
  insert := fun fuel k v => insert cfg k v fuel
  update := update cfg
  delete := delete cfg
  scan := scan key

end Oml
end BT
