import Verif.Node

/-!
# PML: `component/pml/b_tree.hpp` (lock coupling), as executed by one thread

Lock calls are dropped; `Release<Page>` is `M.free`, `new (GetNodePage()) Node_t` is `M.alloc`.
Loops carry fuel; theorems show that some fuel always suffices.
-/

namespace BT
variable {K V : Type} [LinearOrder K]

namespace Node

/-- The page a write ends in, common to the four variants: insert, reuse a deleted slot, or overwrite.
pml varlen 531-551, fixlen 529-544. -/
def leafWrite (cfg : Cfg K) (n : Node K V) (k : K) (v : V) : Res (Node K V) := do
  let (rc, pos) ← n.searchRecord k
  if rc = .keyNotInserted then n.insertRecord cfg k (.val v) pos
  else if rc = .keyAlreadyDeleted ∧ cfg.layout = .var then n.reuseRecord cfg pos v
  else n.setPayload pos v

/-- `Insert`: pml varlen 567-591, fixlen 560-580. -/
def leafInsert (cfg : Cfg K) (n : Node K V) (k : K) (v : V) : Res (RC × Node K V) := do
  let (rc, pos) ← n.searchRecord k
  if rc = .keyNotInserted then
    let n ← n.insertRecord cfg k (.val v) pos
    return (.success, n)
  else if rc = .keyAlreadyDeleted ∧ cfg.layout = .var then
    let n ← n.reuseRecord cfg pos v
    return (.success, n)
  else return (.keyExist, n)

/-- `Update`: pml varlen 606-624, fixlen 595-613. -/
def leafUpdate (n : Node K V) (k : K) (v : V) : Res (RC × Node K V) := do
  let (rc, pos) ← n.searchRecord k
  if rc = .keyAlreadyInserted then
    let n ← n.setPayload pos v
    return (.success, n)
  else return (.keyNotExist, n)

/-- `Delete`: pml varlen 634-651, fixlen 626-652. -/
def leafDelete (cfg : Cfg K) (n : Node K V) (k : K) : Res (RC × Node K V) := do
  let (rc, pos) ← n.searchRecord k
  if rc = .keyAlreadyInserted then
    let n ← n.removeRecord cfg pos
    return (.success, n)
  else return (.keyNotExist, n)

end Node

namespace Pml
open M

/-- `NeedSplit`: pml varlen 134-148 (may clean the page up as a side effect), fixlen 127-133.
Returns the decision and the page as left behind. -/
def needSplit (cfg : Cfg K) (n : Node K V) (newLen : Nat) : Res (Bool × Node K V) :=
  match cfg.layout with
  | .fix => .ok (decide (n.usedSize cfg + newLen > cfg.cap), n)
  | .var =>
    let total := cfg.metaLen * n.rc + n.block + newLen
    if total ≤ cfg.cap then .ok (false, n)
    else if total - n.dead > cfg.maxUsed then .ok (true, n)
    else do
      let n ← n.cleanUp cfg
      return (false, n)

/-- `NeedMerge`: pml varlen 154-167, fixlen 139-144. -/
def needMerge (cfg : Cfg K) (n : Node K V) : Res (Bool × Node K V) :=
  match cfg.layout with
  | .fix => .ok (decide (n.usedSize cfg < cfg.minUsed), n)
  | .var =>
    if n.usedSize cfg < cfg.minUsed then .ok (true, n)
    else if n.dead ≤ cfg.maxDeleted then .ok (false, n)
    else do
      let n ← n.cleanUp cfg
      return (false, n)

/-- `GetValidSplitNode`: pml varlen 209-223, fixlen copy. -/
def validSplitNode (l : Ptr) (lnode : Node K V) (k : K) (r : Ptr) : Ptr :=
  if lnode.compHighKey k then l else r

/-- `ShrinkTreeIfNeeded`: pml/b_tree.hpp:663-677. -/
def shrinkTree : Nat → M K V Unit
  | 0 => outOfFuel
  | f + 1 => do
    let root ← getRoot
    let n ← load root
    if n.rc = 1 ∧ n.isInner then
      let child ← lift (n.getChild 0)
      free root
      setRoot child
      shrinkTree f
    else return ()

/-- `RootSplit`: pml/b_tree.hpp:620-634. -/
def rootSplit (cfg : Cfg K) (k : K) : M K V Ptr := do
  let l ← getRoot
  let ln ← load l
  let r ← alloc { isInner := ln.isInner, recs := [] }
  let (ln', rn) ← lift (ln.split cfg r)
  store l ln'
  store r rn
  let rootNode ← lift (Node.newRoot cfg ln'.high l r)
  let root ← alloc rootNode
  setRoot root
  return validSplitNode l ln' k r

/-- `GetRootForWrite`: pml/b_tree.hpp:435-448. -/
def getRootForWrite (cfg : Cfg K) (fuel : Nat) (k : K) : M K V Ptr := do
  shrinkTree fuel
  let root ← getRoot
  let n ← load root
  let (need, n) ← lift (needSplit cfg n cfg.maxRecLen)
  store root n
  if need then rootSplit cfg k else return root

/-- `Split`: pml/b_tree.hpp:600-612. -/
def split (cfg : Cfg K) (l parent : Ptr) (pos : Nat) : M K V Ptr := do
  let ln ← load l
  let r ← alloc { isInner := ln.isInner, recs := [] }
  let (ln', rn) ← lift (ln.split cfg r)
  store l ln'
  store r rn
  let pn ← load parent
  let pn ← lift (pn.placeChild cfg ln'.high r pos)
  store parent pn
  return r

/-- `Merge` with `GetMergeableRightChild`: pml/b_tree.hpp:642-657, pml varlen 297-323, fixlen copy. -/
def merge (cfg : Cfg K) (l parent : Ptr) (pos : Nat) : M K V Unit := do
  let pn ← load parent
  let ln ← load l
  if pos + 1 = pn.rc then return ()
  else
    let r ← lift (pn.getChild (pos + 1))
    let rn ← load r
    if ln.canMerge cfg rn then
      let ln ← lift (ln.merge cfg rn)
      store l ln
      let pn ← lift (pn.dropChild cfg (pos + 1))
      store parent pn
      free r
    else return ()

/-- The loop of `SearchLeafNodeForWrite`: pml/b_tree.hpp:507-525. -/
def descendForWrite (cfg : Cfg K) (k : K) : Nat → Ptr → M K V Ptr
  | 0, _ => outOfFuel
  | f + 1, node => do
    let n ← load node
    if n.isInner then
      let (_, pos) ← lift (n.searchRecord k)
      let child ← lift (n.getChild pos)
      let cn ← load child
      let (need, cn) ← lift (needSplit cfg cn cfg.maxRecLen)
      store child cn
      if need then
        let r ← split cfg child node pos
        let cn ← load child
        descendForWrite cfg k f (validSplitNode child cn k r)
      else
        let (need, cn) ← lift (needMerge cfg cn)
        store child cn
        if need then
          merge cfg child node pos
          descendForWrite cfg k f child
        else descendForWrite cfg k f child
    else return node

/-- `SearchLeafNodeForWrite`: pml/b_tree.hpp:502-529. -/
def searchLeafForWrite (cfg : Cfg K) (fuel : Nat) (k : K) : M K V Ptr := do
  let root ← getRootForWrite cfg fuel k
  descendForWrite cfg k fuel root

/-- `SearchLeafNodeForRead`: pml/b_tree.hpp:459-470. -/
def descendForRead (k : K) : Nat → Ptr → M K V Ptr
  | 0, _ => outOfFuel
  | f + 1, node => do
    let n ← load node
    if n.isInner then
      let (_, pos) ← lift (n.searchRecord k)
      let child ← lift (n.getChild pos)
      descendForRead k f child
    else return node

/-- `SearchLeftmostLeaf`: pml/b_tree.hpp:480-490. -/
def descendLeft : Nat → Ptr → M K V Ptr
  | 0, _ => outOfFuel
  | f + 1, node => do
    let n ← load node
    if n.isInner then
      let child ← lift (n.getChild 0)
      descendLeft f child
    else return node

/-- `Read`: pml/b_tree.hpp:118-131. -/
def read (fuel : Nat) (k : K) : M K V (Option V) := do
  let root ← getRoot
  let leaf ← descendForRead k fuel root
  let n ← load leaf
  lift (n.read k)

/-- `Write`: pml/b_tree.hpp:174-183. -/
def write (cfg : Cfg K) (fuel : Nat) (k : K) (v : V) : M K V RC := do
  let leaf ← searchLeafForWrite cfg fuel k
  let n ← load leaf
  let n ← lift (n.leafWrite cfg k v)
  store leaf n
  return .success

/-- `Insert`: pml/b_tree.hpp:195-203. -/
def insert (cfg : Cfg K) (fuel : Nat) (k : K) (v : V) : M K V RC := do
  let leaf ← searchLeafForWrite cfg fuel k
  let n ← load leaf
  let (rc, n) ← lift (n.leafInsert cfg k v)
  store leaf n
  return rc

/-- `Update`: pml/b_tree.hpp:215-223. -/
def update (cfg : Cfg K) (fuel : Nat) (k : K) (v : V) : M K V RC := do
  let leaf ← searchLeafForWrite cfg fuel k
  let n ← load leaf
  let (rc, n) ← lift (n.leafUpdate k v)
  store leaf n
  return rc

/-- `Delete`: pml/b_tree.hpp:234-241. -/
def delete (cfg : Cfg K) (fuel : Nat) (k : K) : M K V RC := do
  let leaf ← searchLeafForWrite cfg fuel k
  let n ← load leaf
  let (rc, n) ← lift (n.leafDelete cfg k)
  store leaf n
  return rc

end Pml

/-- Constructor `BTree()`: an empty leaf is the root (pml/b_tree.hpp:83-93, psl 92-102, oml 92-102,
osl 92-102). -/
def initSt : St K V where
  heap := fun p => if p = 0 then some Node.emptyLeaf else none
  fresh := 1
  root := 0

end BT
