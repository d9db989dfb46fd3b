import Verif.IterConc
import Verif.Pml

/-!
# PML with its locks: `component/pml/b_tree.hpp`

The page computations are those of `Node.lean` and `Pml.lean`; this file adds the order in which the tree object and the
pages are locked, read, written, unlocked and released.

`root_` and the tree latch `mutex_` are page 0 of the machine: its contents hold one pointer, `root_`, so reading `root_`
without the latch or writing it without X is undefined behaviour as for any other page.  A page that has just been
allocated is written without a lock in the code; `store` wants one, so here it is locked for the time of that write
(nobody else knows the page).

Not part of this file: `Bulkload`, `CollectStatisticalData` and the destructor.
-/

namespace BT
variable {K V : Type}

/-- The page an action works on. -/
def Act.page {β : Type} : Act K V β → Option Ptr
  | .isInner p | .load p | .peek p | .store p _ | .poke p _ | .retire p | .lockS p | .unlockS p | .lockSIX p | .unlockSIX p | .lockX p
  | .unlockX p | .unlockXVer p | .upgradeX p | .downgradeSIX p | .getVer p | .same p _ | .tryLockS p _ | .tryLockSIX p _
  | .tryLockX p _ | .free p => some p
  | .getRoot | .setRoot _ _ | .alloc _ | .note _ => none

/-- The next action of thread `t` uses page `p`. -/
def Conf.Touches (c : Conf K V) (t : Tid) (p : Ptr) : Prop :=
  ∃ (β : Type) (a : Act K V β) (k : β → Prog K V (Out K V)), c.thr t = some (.act a k) ∧ a.page = some p

/-- The tree object as a page: `root_`. -/
def treePage (root : Ptr) : Node K V := { isInner := true, recs := [⟨none, .ptr root, false⟩] }

/-- The constructor `BTree()` of PML: pml/b_tree.hpp:83-93.  Page 0 is the tree object, page 1 the empty leaf. -/
def Conf.initPml : Conf K V where
  mem := { heap := fun p => if p = 0 then some (treePage 1) else if p = 1 then some Node.emptyLeaf else none,
           lk := fun _ => {}, fresh := 2, root := 0, gc := [], raced := false }
  thr := fun _ => none
  hist := []

namespace CPml
open Prog
variable [LinearOrder K]

/-- `root_`. -/
def rootPtr : Prog K V Ptr := do
  let tn ← load 0
  lift (tn.getChild 0)

/-- `GetRootForRead`: pml/b_tree.hpp:413-425. -/
def getRootForRead : Prog K V Ptr := do
  lockS 0
  let root ← rootPtr
  lockS root
  unlockS 0
  return root

/-- The loop of `SearchLeafNodeForRead`: pml/b_tree.hpp:463-469, with `GetChildForRead`: pml varlen 258-267,
fixlen copy. -/
def descendForRead (k : K) : Nat → Ptr → Prog K V Ptr
  | 0, _ => stuck
  | f + 1, node => do
    let n ← load node
    if n.isInner then do
      let (_, pos) ← lift (n.searchRecord k)
      let child ← lift (n.getChild pos)
      lockS child
      unlockS node
      descendForRead k f child
    else return node

/-- `Read`: pml/b_tree.hpp:118-131, node `Read`: pml varlen 492-509, fixlen copy. -/
def read (fuel : Nat) (k : K) : Prog K V (Option V) := do
  let root ← getRootForRead
  let leaf ← descendForRead k fuel root
  let n ← load leaf
  let v ← lift (n.read k)
  unlockS leaf
  return v

/-- The part of `NeedSplit`/`NeedMerge` that cleans the page up under X: pml varlen 143-147, 162-166. -/
def cleanUp (cfg : Cfg K) (p : Ptr) (n : Node K V) : Prog K V Unit := do
  upgradeX p
  let n ← lift (n.cleanUp cfg)
  store p n
  downgradeSIX p

/-- `NeedSplit(kMaxRecLen)`: pml varlen 134-148, fixlen 127-133. -/
def needSplit (cfg : Cfg K) (p : Ptr) : Prog K V Bool := do
  let n ← load p
  match cfg.layout with
  | .fix => return decide (n.usedSize cfg + cfg.maxRecLen > cfg.cap)
  | .var =>
    if cfg.metaLen * n.rc + n.block + cfg.maxRecLen ≤ cfg.cap then return false
    else if cfg.metaLen * n.rc + n.block + cfg.maxRecLen - n.dead > cfg.maxUsed then return true
    else do
      cleanUp cfg p n
      return false

/-- `NeedMerge`: pml varlen 154-167, fixlen 139-144. -/
def needMerge (cfg : Cfg K) (p : Ptr) : Prog K V Bool := do
  let n ← load p
  match cfg.layout with
  | .fix => return decide (n.usedSize cfg < cfg.minUsed)
  | .var =>
    if n.usedSize cfg < cfg.minUsed then return true
    else if n.dead ≤ cfg.maxDeleted then return false
    else do
      cleanUp cfg p n
      return false

/-- The loop of `ShrinkTreeIfNeeded`: pml/b_tree.hpp:663-677.  The lock of the released page is never given up. -/
def shrinkTree : Nat → Prog K V Unit
  | 0 => stuck
  | f + 1 => do
    let root ← rootPtr
    let n ← load root
    if n.rc = 1 ∧ n.isInner = true then do
      upgradeX 0
      let child ← lift (n.getChild 0)
      lockSIX child
      free root
      store 0 (treePage child)
      downgradeSIX 0
      shrinkTree f
    else return ()

/-- Allocation of the right page and `Split` of a node: pml/b_tree.hpp:607-608, 626-627, pml varlen 714-768,
fixlen 700-738. -/
def splitNode (cfg : Cfg K) (l : Ptr) : Prog K V Ptr := do
  let n ← load l
  let r ← alloc { isInner := n.isInner, recs := [] }
  let (ln, rn) ← lift (n.split cfg r)
  lockX r
  store r rn
  unlockX r
  upgradeX l
  store l ln
  downgradeSIX l
  lockSIX r
  return r

/-- `GetValidSplitNode`: pml varlen 209-223, fixlen copy. -/
def validSplitNode (k : K) (l r : Ptr) : Prog K V Ptr := do
  let n ← load l
  if n.compHighKey k then do
    unlockSIX r
    return l
  else do
    unlockSIX l
    return r

/-- `RootSplit`: pml/b_tree.hpp:620-634. -/
def rootSplit (cfg : Cfg K) (k : K) : Prog K V Ptr := do
  upgradeX 0
  let l ← rootPtr
  let r ← splitNode cfg l
  let ln ← load l
  let rootNode ← lift (Node.newRoot cfg ln.high l r)
  let root ← alloc rootNode
  store 0 (treePage root)
  downgradeSIX 0
  validSplitNode k l r

/-- `GetRootForWrite`: pml/b_tree.hpp:435-448. -/
def getRootForWrite (cfg : Cfg K) (fuel : Nat) (k : K) : Prog K V Ptr := do
  lockSIX 0
  let root ← rootPtr
  lockSIX root
  shrinkTree fuel
  let root ← rootPtr
  let need ← needSplit cfg root
  let node ← if need then rootSplit cfg k else pure root
  unlockSIX 0
  return node

/-- `Split`: pml/b_tree.hpp:600-612, `InsertChild`: pml varlen 660-683, fixlen 662-685. -/
def split (cfg : Cfg K) (l parent : Ptr) (pos : Nat) : Prog K V Ptr := do
  upgradeX parent
  let r ← splitNode cfg l
  let pn ← load parent
  let ln ← load l
  let pn ← lift (pn.placeChild cfg ln.high r pos)
  store parent pn
  unlockX parent
  return r

/-- `Merge`: pml/b_tree.hpp:642-657, with `GetMergeableRightChild` (pml varlen 297-323), node `Merge` (pml varlen 775-807,
fixlen 745-773) and `DeleteChild` (pml varlen 690-704, fixlen 692-710). -/
def merge (cfg : Cfg K) (l parent : Ptr) (pos : Nat) : Prog K V Unit := do
  let pn ← load parent
  if pos + 1 = pn.rc then unlockSIX parent
  else do
    let r ← lift (pn.getChild (pos + 1))
    lockSIX r
    let ln ← load l
    let rn ← load r
    if ln.canMerge cfg rn then do
      upgradeX parent
      upgradeX l
      upgradeX r
      let ln ← lift (ln.merge cfg rn)
      store l ln
      downgradeSIX l
      let pn ← lift (pn.dropChild cfg (pos + 1))
      store parent pn
      unlockX parent
      free r
    else do
      unlockSIX parent
      unlockSIX r

/-- The loop of `SearchLeafNodeForWrite`: pml/b_tree.hpp:507-525. -/
def descendForWrite (cfg : Cfg K) (k : K) : Nat → Ptr → Prog K V Ptr
  | 0, _ => stuck
  | f + 1, node => do
    let n ← load node
    if n.isInner then do
      let (_, pos) ← lift (n.searchRecord k)
      let child ← lift (n.getChild pos)
      lockSIX child
      let need ← needSplit cfg child
      if need then do
        let r ← split cfg child node pos
        let child ← validSplitNode k child r
        descendForWrite cfg k f child
      else do
        let need ← needMerge cfg child
        if need then do
          merge cfg child node pos
          descendForWrite cfg k f child
        else do
          unlockSIX node
          descendForWrite cfg k f child
    else return node

/-- `SearchLeafNodeForWrite`: pml/b_tree.hpp:502-529. -/
def searchLeafForWrite (cfg : Cfg K) (fuel : Nat) (k : K) : Prog K V Ptr := do
  let root ← getRootForWrite cfg fuel k
  let leaf ← descendForWrite cfg k fuel root
  upgradeX leaf
  return leaf

/-- `Write`: pml/b_tree.hpp:174-183, node `Write`: pml varlen 531-551, fixlen 529-544. -/
def write (cfg : Cfg K) (fuel : Nat) (k : K) (v : V) : Prog K V RC := do
  let leaf ← searchLeafForWrite cfg fuel k
  let n ← load leaf
  let n ← lift (n.leafWrite cfg k v)
  store leaf n
  unlockX leaf
  return .success

/-- The common part of the node operations `Insert`, `Update` and `Delete`. -/
def leafOp (leaf : Ptr) (op : Node K V → Res (RC × Node K V)) : Prog K V RC := do
  let n ← load leaf
  let (rc, n) ← lift (op n)
  store leaf n
  unlockX leaf
  return rc

/-- `Insert`: pml/b_tree.hpp:195-203, node `Insert`: pml varlen 567-591, fixlen 560-580. -/
def insert (cfg : Cfg K) (fuel : Nat) (k : K) (v : V) : Prog K V RC := do
  let leaf ← searchLeafForWrite cfg fuel k
  leafOp leaf (fun n => n.leafInsert cfg k v)

/-- `Update`: pml/b_tree.hpp:215-223, node `Update`: pml varlen 606-624, fixlen 595-613. -/
def update (cfg : Cfg K) (fuel : Nat) (k : K) (v : V) : Prog K V RC := do
  let leaf ← searchLeafForWrite cfg fuel k
  leafOp leaf (fun n => n.leafUpdate k v)

/-- `Delete`: pml/b_tree.hpp:234-241, node `Delete`: pml varlen 634-651, fixlen 626-652. -/
def delete (cfg : Cfg K) (fuel : Nat) (k : K) : Prog K V RC := do
  let leaf ← searchLeafForWrite cfg fuel k
  leafOp leaf (fun n => n.leafDelete cfg k)

/-- The loop of `SearchLeftmostLeaf`: pml/b_tree.hpp:485-487, `GetChildForRead(0)` as in `descendForRead`. -/
def leftmost : Nat → Ptr → Prog K V Ptr
  | 0, _ => stuck
  | f + 1, node => do
    let n ← load node
    if n.isInner then do
      let child ← lift (n.getChild 0)
      lockS child
      unlockS node
      leftmost f child
    else return node

/-- The first leaf of a scan, `SearchLeafNodeForRead` or `SearchLeftmostLeaf`: pml/b_tree.hpp:149-156. -/
def firstLeaf (fuel : Nat) (b : ScanKey K) (root : Ptr) : Prog K V Ptr :=
  match b with
  | some (k, _) => descendForRead k fuel root
  | none => leftmost fuel root

/-- `Scan`: pml/b_tree.hpp:140-163, with the loop over the iterator. -/
def scan (fuel : Nat) (b e : ScanKey K) : Prog K V (List (K × V)) := do
  let root ← getRootForRead
  let leaf ← firstLeaf fuel b root
  let n ← load leaf
  let pos ← lift (CScan.beginPos b n)
  CScan.iterate e fuel leaf pos

/-- PML's entry points. -/
def exec (cfg : Cfg K) : CImpl K V := fun fuel op =>
  match op with
  | .read k => do
    let o ← read fuel k
    return .payload o
  | .write k v => do
    let rc ← write cfg fuel k v
    return .code rc
  | .insert k v => do
    let rc ← insert cfg fuel k v
    return .code rc
  | .update k v => do
    let rc ← update cfg fuel k v
    return .code rc
  | .delete k => do
    let rc ← delete cfg fuel k
    return .code rc
  | .scan b e => do
    let l ← scan fuel b e
    return .recs l

end CPml
end BT
