import Verif.Pml
import Verif.OScan

/-!
# What PSL and OSL share: node operations that report SMOs, and the bottom-up SMOs of a B-link tree

`component/psl/b_tree.hpp` and `component/osl/b_tree.hpp` have textually the same `CompleteSplit`,
`TryRootSplit`, `Merge` and `TryShrinkTree`, and their nodes have the same `Write`, `Insert`, `Delete`,
`InsertChild` and `DeleteChild` up to the way locks are taken.  This file models one thread: locks and version
checks are dropped.  A page handed to the garbage collector is `M.free`d.  Stacks are lists whose head is the
`back()` of the C++ vector.

`CheckKeyRange…` returns null only when it runs into a page another thread has removed; `checkKeyRange`
answers `ub` then, and the theorems show that this does not happen with one thread.
-/

namespace BT
variable {K V : Type} [LinearOrder K]

namespace Blink
open M

/-- `CleanUpIfNeeded`: psl varlen 1128-1141; osl varlen `NeedCleanUp` 1306-1314 followed by `CleanUp`.
The fixed-length nodes have no dead space. -/
def cleanUpIfNeeded (cfg : Cfg K) (n : Node K V) (newLen : Nat) : Res (Node K V) :=
  match cfg.layout with
  | .fix => .ok n
  | .var =>
    let total := cfg.metaLen * (n.rc + 1) + n.block + newLen
    if total ≤ cfg.cap ∨ total - n.dead > cfg.maxUsed then .ok n else n.cleanUp cfg

/-- `NeedSplit`: psl varlen 1147-1154, osl varlen 1321-1328; the same test inside psl fixlen 723, 1106 and
osl fixlen 661, 705, 887. -/
def needSplit (cfg : Cfg K) (n : Node K V) (newLen : Nat) : Bool :=
  match cfg.layout with
  | .fix => decide (n.usedSize cfg + newLen > cfg.cap)
  | .var => decide (cfg.metaLen * (n.rc + 1) + n.block + newLen > cfg.cap)

/-- `NeedMerge`: psl varlen 1160-1171, osl varlen 1334-1345 (may clean the page up); in the fixed-length nodes
the test of psl fixlen 681, 787 and osl fixlen 836, 951.  The same function as PML's. -/
def needMerge (cfg : Cfg K) (n : Node K V) : Res (Bool × Node K V) := Pml.needMerge cfg n

/-- Node `Write`: psl varlen 584-612 (with `InsertRecord` 1352-1378), fixlen 559-582 (`InsertRecord`
1098-1127); osl varlen 683-716, fixlen 646-673. -/
def leafWrite (cfg : Cfg K) (n : Node K V) (k : K) (v : V) : Res (NodeRC × Node K V) := do
  let n ← cleanUpIfNeeded cfg n (cfg.klen k + cfg.payLen)
  let (rc, pos) ← n.searchRecord k
  if rc = .keyNotInserted then
    if needSplit cfg n (cfg.klen k + cfg.payLen) then return (.needSplit, n)
    else
      let n ← n.insertRecord cfg k (.val v) pos
      return (.completed, n)
  else if rc = .keyAlreadyDeleted ∧ cfg.layout = .var then
    let n ← n.reuseRecord cfg pos v
    return (.completed, n)
  else
    let n ← n.setPayload pos v
    return (.completed, n)

/-- Node `Insert`: psl varlen 628-655, fixlen 595-609; osl varlen 735-773, fixlen 690-717. -/
def leafInsert (cfg : Cfg K) (n : Node K V) (k : K) (v : V) : Res (NodeRC × Node K V) := do
  let n ← cleanUpIfNeeded cfg n (cfg.klen k + cfg.payLen)
  let (rc, pos) ← n.searchRecord k
  if rc = .keyNotInserted then
    if needSplit cfg n (cfg.klen k + cfg.payLen) then return (.needSplit, n)
    else
      let n ← n.insertRecord cfg k (.val v) pos
      return (.completed, n)
  else if rc = .keyAlreadyDeleted ∧ cfg.layout = .var then
    let n ← n.reuseRecord cfg pos v
    return (.completed, n)
  else return (.keyAlreadyInserted, n)

/-- Node `Delete`: psl varlen 704-729, fixlen 659-689; osl varlen 870-901, fixlen 814-851. -/
def leafDelete (cfg : Cfg K) (n : Node K V) (k : K) : Res (NodeRC × Node K V) := do
  let (rc, pos) ← n.searchRecord k
  if rc = .keyAlreadyInserted then
    let n ← n.removeRecord cfg pos
    let (need, n) ← needMerge cfg n
    return (if need then .needMerge else .completed, n)
  else return (.keyNotInserted, n)

/-- `InsertChild`: psl varlen 739-775, fixlen 701-743; osl varlen 912-954, fixlen 865-907. -/
def insertChild (cfg : Cfg K) (n : Node K V) (r : Ptr) (sep : K) : Res (NodeRC × Node K V) := do
  let n ← cleanUpIfNeeded cfg n (cfg.klen sep + cfg.ptrLen)
  let (rc, pos) ← n.searchRecord sep
  if rc = .keyAlreadyInserted then return (.needRetry, n)
  else if needSplit cfg n (cfg.klen sep + cfg.ptrLen) then return (.needSplit, n)
  else
    let n ← n.placeChild cfg (some sep) r pos
    return (.completed, n)

/-- `DeleteChild`: psl varlen 787-825, fixlen 754-795; osl varlen 965-1003, fixlen 918-959. -/
def deleteChild (cfg : Cfg K) (n : Node K V) (k : K) : Res (NodeRC × Node K V) :=
  if n.rc ≤ 1 then .ok (.abortMerge, n)
  else
    match n.recs[1]? with
    | none => .ub
    | some r1 =>
      match r1.key with
      | none => .ub
      | some k1 =>
        if k < k1 then .ok (.abortMerge, n)
        else do
          let (rc, pos) ← n.searchRecord k
          if rc = .keyNotInserted then return (.needRetry, n)
          else
            let n ← n.dropChild cfg pos
            let (need, n) ← needMerge cfg n
            return (if need then .needMerge else .completed, n)

/-- `HalfSplit`: psl/b_tree.hpp:667-675, osl/b_tree.hpp:640-648. -/
def halfSplit (cfg : Cfg K) (l : Ptr) : M K V Ptr := do
  let ln ← load l
  let r ← alloc { isInner := ln.isInner, recs := [] }
  let (ln, rn) ← lift (ln.split cfg r)
  store l ln
  store r rn
  return r

/-- `GetSeparatorKey`: psl varlen 246-273, fixlen 230-247; osl varlen 256-283, fixlen 240-257. -/
def separatorKey (isLeft : Bool) (n : Node K V) : M K V K :=
  match (if isLeft then n.high else n.low) with
  | some k => return k
  | none => ub

/-- `TryRootSplit`: psl/b_tree.hpp:750-765, osl/b_tree.hpp:723-738. -/
def tryRootSplit (cfg : Cfg K) (l r : Ptr) (sep : K) : M K V Bool := do
  let root ← getRoot
  if root ≠ l then return false
  else
    let n ← lift (Node.newRoot cfg (some sep) l r)
    let p ← alloc n
    setRoot p
    return true

/-- `SearchParentNode`: psl/b_tree.hpp:569-597, osl/b_tree.hpp:543-567.  Descends from the root and pushes the
pages above `target` on the given stack.  Reaching a leaf that is not `target` is `ub`: psl reads a child
pointer out of a leaf then, osl keeps following a stale one. -/
def searchParentNode (k : K) (target : Ptr) : Nat → List Ptr → Ptr → M K V (List Ptr)
  | 0, _, _ => outOfFuel
  | f + 1, stack, node => do
    let node ← checkKeyRange k (f + 1) node
    if node = target then return stack
    else
      let n ← load node
      if n.isInner then
        let (_, pos) ← lift (n.searchRecord k)
        let child ← lift (n.getChild pos)
        searchParentNode k target f (node :: stack) child
      else ub

/-- The loop of `CompleteSplit`: psl/b_tree.hpp:686-736, osl/b_tree.hpp:659-709.  The stack is the one after
`pop_back`; `node` is the local variable of that name. -/
def completeSplit (cfg : Cfg K) : Nat → List Ptr → Option Ptr → Ptr → Ptr → K → M K V Unit
  | 0, _, _, _, _, _ => outOfFuel
  | f + 1, stack, node, l, r, key =>
    match stack with
    | [] => do
      let done ← tryRootSplit cfg l r key
      if done then return ()
      else
        let root ← getRoot
        let stack ← searchParentNode key r (f + 1) [] root
        completeSplit cfg f stack node l r key
    | top :: rest => do
      let node ← checkKeyRange key (f + 1) (node.getD top)
      let n ← load node
      let (rc, n) ← lift (insertChild cfg n r key)
      store node n
      if rc = .completed then return ()
      else if rc = .needSplit then
        let r' ← halfSplit cfg node
        let ln ← load node
        let target := Pml.validSplitNode node ln key r'
        let tn ← load target
        let (_, tn) ← lift (insertChild cfg tn r key)
        store target tn
        let sep ← separatorKey (decide (target = node)) tn
        completeSplit cfg f rest none node r' sep
      else completeSplit cfg f (top :: rest) (some node) l r key

/-- The loop of `TryShrinkTree`: psl/b_tree.hpp:848-854, osl/b_tree.hpp:821-827, with `RemoveRoot` (psl varlen
958-975, fixlen 882-899; osl varlen 1136-1153, fixlen 1046-1063). -/
def shrinkLoop : Nat → Ptr → M K V Unit
  | 0, _ => outOfFuel
  | f + 1, node => do
    let n ← load node
    let child ← lift (n.getChild 0)
    free node
    let cn ← load child
    if cn.rc = 1 ∧ cn.isInner then shrinkLoop f child
    else setRoot child

/-- `TryShrinkTree`: psl/b_tree.hpp:845-858, osl/b_tree.hpp:818-831. -/
def tryShrinkTree (fuel : Nat) (node : Ptr) : M K V Unit := do
  let root ← getRoot
  let n ← load node
  if node = root ∧ n.rc = 1 then shrinkLoop fuel node else return ()

/-- The loop of `Merge`: psl/b_tree.hpp:773-839, osl/b_tree.hpp:746-812, with `GetMergeableSiblingNode` (psl
varlen 199-218, fixlen 194-213; osl varlen 209-228, fixlen 204-223) and `GetHighKey`. -/
def mergeLoop (cfg : Cfg K) : Nat → List Ptr → Option Ptr → Ptr → M K V Unit
  | 0, _, _, _ => outOfFuel
  | f + 1, stack, node, l => do
    let ln ← load l
    match ln.next with
    | none => return ()
    | some r =>
      let rn ← load r
      if ln.canMerge cfg rn = false then return ()
      else
        match ln.high with
        | none => ub
        | some key =>
          match stack with
          | [] =>
            let root ← getRoot
            let stack ← searchParentNode key r (f + 1) [] root
            mergeLoop cfg f stack node l
          | top :: rest =>
            let (p, stack) := match node with
              | some p => (p, top :: rest)
              | none => (top, rest)
            let p ← checkKeyRange key (f + 1) p
            let n ← load p
            let (rc, n) ← lift (deleteChild cfg n key)
            store p n
            if rc = .abortMerge then return ()
            else if rc = .needRetry then mergeLoop cfg f stack (some p) l
            else
              let ln ← lift (ln.merge cfg rn)
              store l ln
              free r
              if rc = .completed then return ()
              else
                match stack with
                | [] => tryShrinkTree (f + 1) p
                | _ :: _ => mergeLoop cfg f stack none p

end Blink
end BT
