import Verif.Conc
import Verif.Osl

/-!
# What PSL and OSL share, with their locks

`component/psl/b_tree.hpp` and `component/osl/b_tree.hpp` have the same structure modifications; they differ in the way
they search (`Nav`).  Line numbers are those of PSL; OSL's copies are cited in `Blink.lean`.

The page computations are those of `Node.lean` and `Blink.lean`; this file adds the order in which pages are locked,
read, written and unlocked.  `note` and the first argument of `setRoot` are ghost code: they have no effect on the
program and record in `Mem.raced` that one of the three situations of `DESIGN.md` ("Defects of PSL/OSL under
concurrency") occurs:
(a) the separator key read in `Write`/`Insert`/`CompleteSplit` is not the one of the own split,
(b) `root_` is overwritten although it is no longer the page the thread compared it with,
(c) `TryShrinkTree` removes a root that has a right sibling.
-/

namespace BT
variable {K V : Type} [LinearOrder K]

namespace Blink
/-- `leafWrite` behind its clean-up. -/
def leafWriteCore (cfg : Cfg K) (n : Node K V) (k : K) (v : V) : Res (NodeRC × Node K V) := do
  let (rc, pos) ← n.searchRecord k
  if rc = .keyNotInserted then
    if needSplit cfg n (cfg.klen k + cfg.payLen) then return (.needSplit, n)
    else
      let n ← n.insertRecord cfg k (.val v) pos
      return (.completed, n)
  else if rc = .keyAlreadyDeleted ∧ cfg.layout = .var then
    let n ← n.reuseRecord cfg pos v
    return (.completed, n)
  else
    let n ← n.setPayload pos v
    return (.completed, n)

/-- `leafInsert` behind its clean-up. -/
def leafInsertCore (cfg : Cfg K) (n : Node K V) (k : K) (v : V) : Res (NodeRC × Node K V) := do
  let (rc, pos) ← n.searchRecord k
  if rc = .keyNotInserted then
    if needSplit cfg n (cfg.klen k + cfg.payLen) then return (.needSplit, n)
    else
      let n ← n.insertRecord cfg k (.val v) pos
      return (.completed, n)
  else if rc = .keyAlreadyDeleted ∧ cfg.layout = .var then
    let n ← n.reuseRecord cfg pos v
    return (.completed, n)
  else return (.keyAlreadyInserted, n)

/-- `insertChild` behind its clean-up. -/
def insertChildCore (cfg : Cfg K) (n : Node K V) (r : Ptr) (sep : K) : Res (NodeRC × Node K V) := do
  let (rc, pos) ← n.searchRecord sep
  if rc = .keyAlreadyInserted then return (.needRetry, n)
  else if needSplit cfg n (cfg.klen sep + cfg.ptrLen) then return (.needSplit, n)
  else
    let n ← n.placeChild cfg (some sep) r pos
    return (.completed, n)

theorem leafWrite_core (cfg : Cfg K) (n : Node K V) (k : K) (v : V) :
    leafWrite cfg n k v = cleanUpIfNeeded cfg n (cfg.klen k + cfg.payLen) >>= fun n => leafWriteCore cfg n k v := rfl
theorem leafInsert_core (cfg : Cfg K) (n : Node K V) (k : K) (v : V) :
    leafInsert cfg n k v = cleanUpIfNeeded cfg n (cfg.klen k + cfg.payLen) >>= fun n => leafInsertCore cfg n k v := rfl
theorem insertChild_core (cfg : Cfg K) (n : Node K V) (r : Ptr) (k : K) :
    insertChild cfg n r k = cleanUpIfNeeded cfg n (cfg.klen k + cfg.ptrLen) >>= fun n => insertChildCore cfg n r k := rfl

/-- The test of `CleanUpIfNeeded`: psl varlen 1128-1141. -/
def wantsCleanUp (cfg : Cfg K) (n : Node K V) (newLen : Nat) : Bool :=
  match cfg.layout with
  | .fix => false
  | .var =>
    let total := cfg.metaLen * (n.rc + 1) + n.block + newLen
    !decide (total ≤ cfg.cap ∨ total - n.dead > cfg.maxUsed)
end Blink

namespace CBlink
open Prog

/-- What the structure modifications need from the search code: `CheckKeyRangeAndLockForWrite` and `SearchParentNode`
(the latter after its load of `root_`). -/
structure Nav (K V : Type) where
  checkW : K → Nat → Ptr → Prog K V (Option Ptr)
  searchParent : K → Ptr → Nat → List Ptr → Ptr → Prog K V (List Ptr)

/-- `CleanUpIfNeeded`: psl varlen 1128-1141. -/
def cleanUpIfNeeded (cfg : Cfg K) (p : Ptr) (len : Nat) : Prog K V Unit := do
  let n ← load p
  if Blink.wantsCleanUp cfg n len then
    upgradeX p
    let n ← lift (n.cleanUp cfg)
    store p n
    downgradeSIX p
  else return ()

/-- The end of a node operation: change the page and give up the lock, or hand the page back as it is. -/
def commit (p : Ptr) (rc : NodeRC) (n : Node K V) : Prog K V NodeRC :=
  match rc with
  | .needSplit => return rc
  | .needMerge => do
    upgradeX p
    store p n
    downgradeSIX p
    return rc
  | .completed => do
    upgradeX p
    store p n
    unlockX p
    return rc
  | _ => do
    unlockSIX p
    return rc

/-- Node `Write`: psl varlen 584-612 (with `InsertRecord` 1352-1378), fixlen 559-582. -/
def leafWrite (cfg : Cfg K) (p : Ptr) (k : K) (v : V) : Prog K V NodeRC := do
  cleanUpIfNeeded cfg p (cfg.klen k + cfg.payLen)
  let n ← load p
  let (rc, n) ← lift (Blink.leafWriteCore cfg n k v)
  commit p rc n

/-- Node `Insert`: psl varlen 628-655, fixlen 595-609. -/
def leafInsert (cfg : Cfg K) (p : Ptr) (k : K) (v : V) : Prog K V NodeRC := do
  cleanUpIfNeeded cfg p (cfg.klen k + cfg.payLen)
  let n ← load p
  let (rc, n) ← lift (Blink.leafInsertCore cfg n k v)
  commit p rc n

/-- Node `Delete`: psl varlen 704-729, fixlen 659-689. -/
def leafDelete (cfg : Cfg K) (p : Ptr) (k : K) : Prog K V NodeRC := do
  let n ← load p
  let (rc, n) ← lift (Blink.leafDelete cfg n k)
  commit p rc n

/-- `InsertChild`: psl varlen 739-775, fixlen 701-743. -/
def insertChild (cfg : Cfg K) (p r : Ptr) (sep : K) : Prog K V NodeRC := do
  cleanUpIfNeeded cfg p (cfg.klen sep + cfg.ptrLen)
  let n ← load p
  let (rc, n) ← lift (Blink.insertChildCore cfg n r sep)
  commit p rc n

/-- `DeleteChild`: psl varlen 787-825, fixlen 754-795. -/
def deleteChild (cfg : Cfg K) (p : Ptr) (k : K) : Prog K V NodeRC := do
  let n ← load p
  let (rc, n) ← lift (Blink.deleteChild cfg n k)
  commit p rc n

/-- `HalfSplit`: psl/b_tree.hpp:667-675, with `Split`: psl varlen 835-905, fixlen 806-840.  Also returns the separator
(the lowest key of the new page) for `note`. -/
def halfSplit (cfg : Cfg K) (l : Ptr) : Prog K V (Ptr × Option K) := do
  let inner ← isInner l
  let r ← alloc { isInner := inner, recs := [] }
  let n ← load l
  let (ln, rn) ← lift (n.split cfg r)
  lockX r
  store r rn
  downgradeSIX r
  upgradeX l
  store l ln
  downgradeSIX l
  return (r, rn.low)

/-- `GetValidSplitNode`: psl varlen 170-188, fixlen 165-183. -/
def validSplitNode (l : Ptr) (k : K) : Prog K V Ptr := do
  let n ← load l
  match n.next with
  | none => ub
  | some r =>
    if n.compHighKey k then do
      unlockSIX r
      return l
    else do
      unlockSIX l
      return r

/-- `GetSeparatorKey(target == left)`: psl varlen 246-273, fixlen 230-247.  The page is read without a lock. -/
def separatorKey (target l : Ptr) (sep : Option K) : Prog K V K := do
  let n ← peek target
  let key := if target = l then n.high else n.low
  note (decide (key ≠ sep))
  match key with
  | none => ub
  | some k => return k

/-- `TryRootSplit`: psl/b_tree.hpp:750-765. -/
def tryRootSplit (cfg : Cfg K) (l r : Ptr) (sep : K) : Prog K V Bool := do
  let root ← getRoot
  if root ≠ l then return false
  else do
    let n ← lift (Node.newRoot cfg (some sep) l r)
    let p ← alloc n
    setRoot l p
    return true

/-- The loop of `CompleteSplit`: psl/b_tree.hpp:686-736.  The stack is the one after `pop_back`. -/
def completeSplit (nav : Nav K V) (cfg : Cfg K) : Nat → List Ptr → Option Ptr → Ptr → Ptr → K → Prog K V Unit
  | 0, _, _, _, _, _ => stuck
  | f + 1, stack, node, l, r, key =>
    match stack with
    | [] => do
      let done ← tryRootSplit cfg l r key
      if done then return ()
      else do
        let root ← getRoot
        let stack ← nav.searchParent key r (f + 1) [] root
        completeSplit nav cfg f stack node l r key
    | top :: rest => do
      match ← nav.checkW key (f + 1) (node.getD top) with
      | none => do
        let done ← tryRootSplit cfg l r key
        if done then return ()
        else do
          let root ← getRoot
          let stack ← nav.searchParent key r (f + 1) (top :: rest) root
          completeSplit nav cfg f stack none l r key
      | some node => do
        let rc ← insertChild cfg node r key
        if rc = .completed then return ()
        else if rc = .needSplit then do
          let (r', sep) ← halfSplit cfg node
          let target ← validSplitNode node key
          let _ ← insertChild cfg target r key
          let key ← separatorKey target node sep
          completeSplit nav cfg f rest none node r' key
        else completeSplit nav cfg f (top :: rest) (some node) l r key

/-- `RemoveRoot`: psl varlen 958-975, fixlen 882-899. -/
def removeRoot (node : Ptr) : Prog K V Ptr := do
  upgradeX node
  let n ← load node
  note n.high.isSome
  let child ← lift (n.getChild 0)
  lockSIX child
  store node { n with removed := true, next := none }
  unlockX node
  return child

/-- The loop of `TryShrinkTree`: psl/b_tree.hpp:848-854.  `old` is the page that `root_` still points to. -/
def shrinkLoop (old : Ptr) : Nat → Ptr → Prog K V Ptr
  | 0, _ => stuck
  | f + 1, node => do
    retire node
    let child ← removeRoot node
    let cn ← load child
    if cn.rc = 1 ∧ cn.isInner = true then shrinkLoop old f child
    else do
      setRoot old child
      return child

/-- `TryShrinkTree`: psl/b_tree.hpp:845-858. -/
def tryShrinkTree (fuel : Nat) (node : Ptr) : Prog K V Unit := do
  let root ← getRoot
  let n ← load node
  if node = root ∧ n.rc = 1 then do
    let c ← shrinkLoop root fuel node
    unlockSIX c
  else unlockSIX node

/-- Node `Merge`: psl varlen 913-951, fixlen 848-875. -/
def mergeInto (cfg : Cfg K) (l r : Ptr) : Prog K V Unit := do
  let ln ← load l
  let rn ← load r
  let n ← lift (ln.merge cfg rn)
  upgradeX l
  store l n
  unlockX l
  upgradeX r
  store r { rn with removed := true, next := some l }
  unlockX r

/-- The loop of `Merge`: psl/b_tree.hpp:773-839, with `GetMergeableSiblingNode` (psl varlen 199-218, fixlen 194-213)
and `GetHighKey`.  The stack is the one after `pop_back`. -/
def merge (nav : Nav K V) (cfg : Cfg K) : Nat → List Ptr → Option Ptr → Ptr → Prog K V Unit
  | 0, _, _, _ => stuck
  | f + 1, stack, node, l => do
    let ln ← load l
    match ln.next with
    | none => unlockSIX l
    | some r => do
      lockSIX r
      let rn ← load r
      if ln.canMerge cfg rn = false then do
        unlockSIX r
        unlockSIX l
      else
        match ln.high with
        | none => ub
        | some key =>
          match stack with
          | [] => do
            let root ← getRoot
            let stack ← nav.searchParent key r (f + 1) [] root
            merge nav cfg f stack node l
          | top :: rest => do
            let (p, stack) := match node with
              | some p => (p, top :: rest)
              | none => (top, rest)
            match ← nav.checkW key (f + 1) p with
            | none => do
              let root ← getRoot
              let stack ← nav.searchParent key r (f + 1) stack root
              merge nav cfg f stack none l
            | some p => do
              let rc ← deleteChild cfg p key
              if rc = .abortMerge then do
                unlockSIX l
                unlockSIX r
              else if rc = .needRetry then merge nav cfg f stack (some p) l
              else do
                mergeInto cfg l r
                retire r
                if rc = .completed then return ()
                else
                  match stack with
                  | [] => tryShrinkTree (f + 1) p
                  | _ :: _ => merge nav cfg f stack none p

/-- The tail of `Write` and `Insert` after `kNeedSplit`: psl/b_tree.hpp:200-208, 239-247; `op` is the node operation,
whose result is ignored. -/
def splitAnd (nav : Nav K V) (cfg : Cfg K) (fuel : Nat) (leaf : Ptr) (stack : List Ptr) (k : K) (op : Ptr → Prog K V NodeRC) :
    Prog K V Unit := do
  let (r, sep) ← halfSplit cfg leaf
  let target ← validSplitNode leaf k
  let _ ← op target
  let key ← separatorKey target leaf sep
  completeSplit nav cfg fuel stack none leaf r key

end CBlink
end BT
