import Verif.Conc
import Verif.Oml
import Verif.OslConc

/-!
# OML with several threads: `component/oml/b_tree.hpp` and its nodes, with their locks

Optimistic readers look at a page without a lock (`peek`) and check afterwards that its version has not changed (`same`).
Loops start again when that check fails; each turn takes fuel.

`Merge` of the variable-length layout sets `h_key_offset_` and `h_key_len_` of the left page before it takes the X lock
(oml varlen 1038-1039): the new highest key is not there yet, so for a while the page shows the bytes that happen to be at that
place.  `junk l r` stands for the key these bytes make up when `r` is merged into `l`; the model is parametric in it, `OmlBad.lean` works
it out for a layout.  Nothing of the kind happens in the fixed-length layout.

Simplifications: a look at a page (`SearchRecord` with the payload it leads to, the size computations of one test, one
condition on the header) is one `peek`; `h_key_offset_` and `h_key_len_` are set by one action.  `CheckNodeStatus` of the root and
the use of `GetRecordCount` in `TryShrinkTree` are separate `peek`s as in the code.

Not part of this file: `Scan`, `Bulkload`, `CollectStatisticalData` and the destructor.
-/

namespace BT
variable {K V : Type} [LinearOrder K]

namespace COml
open Prog

/-- The clean-up under X inside `NeedSplit` and `NeedMerge`: oml varlen 1344-1347, 1373-1376. -/
def tryCleanUp (cfg : Cfg K) (p : Ptr) (ver : Nat) : Prog K V (NodeRC × Nat) := do
  let ok ← tryLockX p ver
  if ok then do
    let n ← load p
    let n ← lift (n.cleanUp cfg)
    store p n
    let ver ← unlockXVer p
    return (.completed, ver)
  else return (.needRetry, ver)

/-- `HasSameVersion(ver) ? rc : kNeedRetry`, as used by `NeedSplit` and `NeedMerge`. -/
def ifSame (p : Ptr) (ver : Nat) (rc : NodeRC) : Prog K V (NodeRC × Nat) := do
  let ok ← same p ver
  return (if ok then rc else .needRetry, ver)

/-- `NeedSplit`: oml varlen 1326-1349, fixlen 1230-1239. -/
def needSplit (cfg : Cfg K) (p : Ptr) (newLen ver : Nat) : Prog K V (NodeRC × Nat) := do
  let n ← peek p
  match cfg.layout with
  | .fix => ifSame p ver (if n.usedSize cfg + newLen > cfg.cap then .needSplit else .completed)
  | .var =>
    let total := cfg.metaLen * (n.rc + 1) + n.block + newLen
    if total ≤ cfg.cap then ifSame p ver .completed
    else if total - n.dead > cfg.maxUsed then ifSame p ver .needSplit
    else tryCleanUp cfg p ver

/-- `NeedMerge`: oml varlen 1358-1378, fixlen 1246-1255. -/
def needMerge (cfg : Cfg K) (p : Ptr) (ver : Nat) : Prog K V (NodeRC × Nat) := do
  let n ← peek p
  match cfg.layout with
  | .fix => ifSame p ver (if n.usedSize cfg < cfg.minUsed then .needMerge else .completed)
  | .var =>
    if n.usedSize cfg < cfg.minUsed then ifSame p ver .needMerge
    else if n.dead ≤ cfg.maxDeleted then ifSame p ver .completed
    else tryCleanUp cfg p ver

/-- `CheckSMOs`: oml varlen 1389-1401, fixlen 1266-1278. -/
def checkSMOs (cfg : Cfg K) (p : Ptr) (newLen ver : Nat) : Prog K V (NodeRC × Nat) := do
  let (rc, ver) ← needSplit cfg p newLen ver
  if rc ≠ .completed then return (rc, ver)
  else needMerge cfg p ver

/-- `CheckNodeStatus`: oml varlen 221-242, fixlen 226-247. -/
def checkNodeStatus (cfg : Cfg K) (newLen : Nat) : Nat → Ptr → Prog K V (NodeRC × Nat)
  | 0, _ => stuck
  | f + 1, p => do
    let ver ← getVer p
    let n ← peek p
    if n.removed then do
      let ok ← same p ver
      if ok then return (.needRetry, ver)
      else checkNodeStatus cfg newLen f p
    else do
      let (rc, ver) ← checkSMOs cfg p newLen ver
      if rc = .needRetry then checkNodeStatus cfg newLen f p
      else return (rc, ver)

/-- Node `Split`: oml varlen 971-1023, fixlen 961-994.  The left page is SIX-locked before; afterwards both are X-locked. -/
def splitNode (cfg : Cfg K) (l : Ptr) : Prog K V Ptr := do
  let n ← load l
  let r ← alloc { isInner := n.isInner, recs := [] }
  let (ln, rn) ← lift (n.split cfg r)
  lockX r
  store r rn
  upgradeX l
  store l ln
  return r

/-- `GetValidSplitNode`: oml varlen 188-211, fixlen 183-206.  Returns the page to go on with, the separator and the version. -/
def validSplitNode (k : K) (l r : Ptr) : Prog K V (Ptr × Option K × Nat) := do
  let n ← load l
  if n.compHighKey k then do
    unlockX r
    let ver ← unlockXVer l
    return (l, n.high, ver)
  else do
    let ver ← unlockXVer r
    unlockX l
    return (r, n.high, ver)

/-- `TryRootSplit`: oml/b_tree.hpp:659-686. -/
def tryRootSplit (cfg : Cfg K) (k : K) (p : Ptr) (ver : Nat) : Prog K V (Option (Ptr × Nat)) := do
  let ok ← tryLockSIX p ver
  if ok then do
    let root ← getRoot
    if p ≠ root then do
      unlockSIX p
      return none
    else do
      let r ← splitNode cfg p
      let ln ← load p
      let rootNode ← lift (Node.newRoot cfg ln.high p r)
      let root ← alloc rootNode
      setRoot p root
      let (q, _, ver) ← validSplitNode k p r
      return some (q, ver)
  else return none

/-- `TryShrinkTree` with `RemoveRoot`: oml/b_tree.hpp:736-756, oml varlen 1189-1204, fixlen copy.  `note`: the root is removed (ghost). -/
def tryShrink (p : Ptr) (ver : Nat) : Prog K V Bool := do
  let n ← peek p
  if n.rc > 1 ∨ n.isInner = false then return true
  else do
    let ok ← tryLockSIX p ver
    if ok then do
      let root ← getRoot
      if p ≠ root then do
        unlockSIX p
        return false
      else do
        note true
        retire p
        upgradeX p
        let n ← load p
        let child ← lift (n.getChild 0)
        store p { n with removed := true, next := none }
        unlockX p
        setRoot p child
        return false
    else return false

/-- `GetRootForWrite`: oml/b_tree.hpp:437-455. -/
def getRootForWrite (cfg : Cfg K) (k : K) : Nat → Prog K V (Ptr × Nat)
  | 0 => stuck
  | f + 1 => do
    let root ← getRoot
    let (rc, ver) ← checkNodeStatus cfg (cfg.maxKeyLen + cfg.maxPayLen) (f + 1) root
    if rc = .needRetry then getRootForWrite cfg k f
    else if rc = .needSplit then do
      match ← tryRootSplit cfg k root ver with
      | none => getRootForWrite cfg k f
      | some x => return x
    else if rc = .needMerge then do
      let ok ← tryShrink root ver
      if ok then return (root, ver)
      else getRootForWrite cfg k f
    else return (root, ver)

/-- `TrySplit`: oml/b_tree.hpp:621-647, `InsertChild`: oml varlen 915-936, fixlen 898-922. -/
def trySplit (cfg : Cfg K) (k : K) (child : Ptr) (cver : Nat) (parent : Ptr) (pver pos : Nat) : Prog K V (Option (Ptr × Nat)) := do
  let ok ← tryLockSIX parent pver
  if ok then do
    let ok ← tryLockSIX child cver
    if ok then do
      let r ← splitNode cfg child
      let (q, sep, ver) ← validSplitNode k child r
      upgradeX parent
      let pn ← load parent
      let pn ← lift (pn.placeChild cfg sep r pos)
      store parent pn
      unlockX parent
      return some (q, ver)
    else do
      unlockSIX parent
      return none
  else return none

/-- Node `Merge`: oml varlen 1032-1074, fixlen 1003-1036.  Returns the version of the left page. -/
def mergeNodes (cfg : Cfg K) (junk : Node K V → Node K V → K) (l r : Ptr) : Prog K V Nat := do
  let ln ← load l
  let rn ← load r
  match cfg.layout with
  | .fix => pure ()
  | .var => poke l { ln with high := rn.high.map (fun _ => junk ln rn) }
  upgradeX l
  let ln' ← lift (ln.merge cfg rn)
  store l ln'
  let ver ← unlockXVer l
  upgradeX r
  store r { rn with removed := true, next := if rn.isInner then rn.next else some l }
  unlockX r
  return ver

/-- `TryMerge`: oml/b_tree.hpp:700-725, with `GetMergeableRightChild` (oml varlen 328-353, fixlen 313-338) and `DeleteChild` (oml varlen
945-960, fixlen 931-949).  `note`: pages are merged (ghost). -/
def tryMerge (cfg : Cfg K) (junk : Node K V → Node K V → K) (l : Ptr) (cver : Nat) (parent : Ptr) (pver pos : Nat) :
    Prog K V (Option Nat) := do
  let ok ← tryLockSIX parent pver
  if ok then do
    let ok ← tryLockSIX l cver
    if ok then do
      let pn ← load parent
      if pos + 1 = pn.rc then do
        unlockSIX parent
        unlockSIX l
        return some cver
      else do
        let r ← lift (pn.getChild (pos + 1))
        lockSIX r
        let ln ← load l
        let rn ← load r
        if ln.canMerge cfg rn then do
          note true
          let ver ← mergeNodes cfg junk l r
          upgradeX parent
          let pn ← load parent
          let pn ← lift (pn.dropChild cfg (pos + 1))
          store parent pn
          unlockX parent
          retire r
          return some ver
        else do
          unlockSIX parent
          unlockSIX l
          unlockSIX r
          return some cver
    else do
      unlockSIX parent
      return none
  else return none

/-- `SearchChild` of writers: oml varlen 558-587, fixlen 538-567.  Returns the position and the child, and the version. -/
def searchChildW (cfg : Cfg K) (k : K) : Nat → Ptr → Nat → Prog K V (Option (Nat × Ptr) × Nat)
  | 0, _, _ => stuck
  | f + 1, p, ver => do
    let again : Prog K V (Option (Nat × Ptr) × Nat) := do
      let (rc, ver) ← checkNodeStatus cfg (cfg.maxKeyLen + cfg.maxPayLen) (f + 1) p
      if rc ≠ .completed then return (none, ver)
      else searchChildW cfg k f p ver
    let ok ← same p ver
    if ok then do
      let n1 ← peek p
      let n2 ← peek p
      if n1.removed = true ∨ n2.compHighKey k = false then do
        let ok ← same p ver
        if ok then return (none, ver)
        else again
      else do
        let n ← peek p
        let (_, pos) ← lift (n.searchRecord k)
        let child ← lift (n.getChild pos)
        let ok ← same p ver
        if ok then return (some (pos, child), ver)
        else again
    else again

/-- The loop of `SearchLeafNodeForWrite`: oml/b_tree.hpp:516-544. -/
def descendForWrite (cfg : Cfg K) (junk : Node K V → Node K V → K) (k : K) : Nat → Ptr → Nat → Prog K V Ptr
  | 0, _, _ => stuck
  | f + 1, p, ver => do
    let inner ← isInner p
    if inner then do
      match ← searchChildW cfg k (f + 1) p ver with
      | (none, _) => do
        let (p, ver) ← getRootForWrite cfg k (f + 1)
        descendForWrite cfg junk k f p ver
      | (some (pos, child), ver) => do
        let (rc, cver) ← checkNodeStatus cfg (cfg.maxKeyLen + cfg.maxPayLen) (f + 1) child
        if rc = .needRetry then descendForWrite cfg junk k f p ver
        else if rc = .needSplit then do
          match ← trySplit cfg k child cver p ver pos with
          | none => descendForWrite cfg junk k f p ver
          | some (q, cver) => descendForWrite cfg junk k f q cver
        else if rc = .needMerge then do
          match ← tryMerge cfg junk child cver p ver pos with
          | none => descendForWrite cfg junk k f p ver
          | some cver => descendForWrite cfg junk k f child cver
        else descendForWrite cfg junk k f child cver
    else return p

/-- `SearchLeafNodeForWrite`: oml/b_tree.hpp:512-544. -/
def searchLeafForWrite (cfg : Cfg K) (junk : Node K V → Node K V → K) (fuel : Nat) (k : K) : Prog K V Ptr := do
  let (p, ver) ← getRootForWrite cfg k fuel
  descendForWrite cfg junk k fuel p ver

/-- `SearchChild` of readers: oml varlen 520-542, fixlen 500-522. -/
def searchChild (k : K) : Nat → Ptr → Prog K V (Option Ptr)
  | 0, _ => stuck
  | f + 1, p => do
    let ver ← getVer p
    let n1 ← peek p
    let n2 ← peek p
    if n1.removed = true ∨ n2.compHighKey k = false then do
      let ok ← same p ver
      if ok then return none
      else searchChild k f p
    else do
      let n ← peek p
      let (_, pos) ← lift (n.searchRecord k)
      let child ← lift (n.getChild pos)
      let ok ← same p ver
      if ok then return some child
      else searchChild k f p

/-- `SearchLeafNodeForRead`: oml/b_tree.hpp:467-480, after the load of `root_`. -/
def descendForRead (k : K) : Nat → Ptr → Prog K V Ptr
  | 0, _ => stuck
  | f + 1, p => do
    let inner ← isInner p
    if inner then do
      match ← searchChild k (f + 1) p with
      | none => do
        let root ← getRoot
        descendForRead k f root
      | some child => descendForRead k f child
    else return p

/-- Node `Read`: oml varlen 713-730, fixlen 693-710, with `CheckKeyRange` (oml varlen 618-643, fixlen 598-623), the same as OSL's.  (A record that was
found is checked twice against the version in the code; the second check only matters if the first one fails, and then leads to
`kKeyNotInserted` only if the version has its old value again, which versions never have.) -/
def nodeRead (k : K) : Nat → Ptr → Prog K V (Option V)
  | 0, _ => stuck
  | f + 1, p => do
    match ← COsl.checkO k (f + 1) p with
    | none => ub
    | some (p, ver) => do
      let n ← peek p
      let o ← lift (n.read k)
      let ok ← same p ver
      if ok then return o
      else nodeRead k f p

/-- `Read`: oml/b_tree.hpp:128-140. -/
def read (fuel : Nat) (k : K) : Prog K V (Option V) := do
  let root ← getRoot
  let leaf ← descendForRead k fuel root
  nodeRead k fuel leaf

/-- `CheckKeyRangeAndLockForWrite`: oml varlen 678-695, fixlen 658-675.  `none`: the page has to be split first. -/
def checkForWrite (cfg : Cfg K) (k : K) : Nat → Ptr → Prog K V (Option Ptr)
  | 0, _ => stuck
  | f + 1, p => do
    match ← COsl.checkO k (f + 1) p with
    | none => ub
    | some (p, ver) => do
      let (rc, ver) ← checkSMOs cfg p (cfg.klen k + cfg.payLen) ver
      if rc = .needRetry then checkForWrite cfg k f p
      else if rc = .needSplit then return none
      else do
        let ok ← tryLockSIX p ver
        if ok then return some p
        else checkForWrite cfg k f p

/-- `Write`: oml/b_tree.hpp:175-190; node `Write`: oml varlen 749-770, fixlen 729-748. -/
def write (cfg : Cfg K) (junk : Node K V → Node K V → K) (k : K) (v : V) : Nat → Prog K V RC
  | 0 => stuck
  | f + 1 => do
    let leaf ← searchLeafForWrite cfg junk (f + 1) k
    match ← checkForWrite cfg k (f + 1) leaf with
    | none => write cfg junk k v f
    | some leaf => do
      let n ← load leaf
      upgradeX leaf
      let n ← lift (n.leafWrite cfg k v)
      store leaf n
      unlockX leaf
      return .success

/-- What follows `SearchRecord` in node `Insert`: oml varlen 814-820, fixlen 790-793. -/
def insertAt (cfg : Cfg K) (n : Node K V) (k : K) (v : V) (rc : NodeRC) (pos : Nat) : Res (Node K V) :=
  if rc = .keyAlreadyDeleted ∧ cfg.layout = .var then n.reuseRecord cfg pos v
  else n.insertRecord cfg k (.val v) pos

/-- Node `Insert`: oml varlen 789-825, fixlen 767-798.  `none`: `kNeedRetry`. -/
def nodeInsert (cfg : Cfg K) (k : K) (v : V) : Nat → Ptr → Prog K V (Option RC)
  | 0, _ => stuck
  | f + 1, p => do
    match ← COsl.checkO k (f + 1) p with
    | none => ub
    | some (p, ver) => do
      let (rc, ver) ← checkSMOs cfg p (cfg.klen k + cfg.payLen) ver
      if rc = .needRetry then nodeInsert cfg k v f p
      else if rc = .needSplit then return none
      else do
        let n ← peek p
        let (rc, pos) ← lift (n.searchRecord k)
        if rc = .keyAlreadyInserted then do
          let ok ← same p ver
          if ok then return some .keyExist
          else nodeInsert cfg k v f p
        else do
          let ok ← tryLockX p ver
          if ok then do
            let n ← load p
            let n ← lift (insertAt cfg n k v rc pos)
            store p n
            unlockX p
            return some .success
          else nodeInsert cfg k v f p

/-- `Insert`: oml/b_tree.hpp:202-216. -/
def insert (cfg : Cfg K) (junk : Node K V → Node K V → K) (k : K) (v : V) : Nat → Prog K V RC
  | 0 => stuck
  | f + 1 => do
    let leaf ← searchLeafForWrite cfg junk (f + 1) k
    match ← nodeInsert cfg k v (f + 1) leaf with
    | none => insert cfg junk k v f
    | some rc => return rc

/-- `Update`: oml/b_tree.hpp:228-238; node `Update`: oml varlen 842-866, fixlen 815-839, the steps of OSL's. -/
def update (cfg : Cfg K) (junk : Node K V → Node K V → K) (fuel : Nat) (k : K) (v : V) : Prog K V RC := do
  let leaf ← searchLeafForWrite cfg junk fuel k
  COsl.nodeUpdate k v fuel leaf

/-- Node `Delete`: oml varlen 881-904, fixlen 854-887. -/
def nodeDelete (cfg : Cfg K) (k : K) : Nat → Ptr → Prog K V RC
  | 0, _ => stuck
  | f + 1, p => do
    match ← COsl.checkO k (f + 1) p with
    | none => ub
    | some (p, ver) => do
      let n ← peek p
      let (rc, pos) ← lift (n.searchRecord k)
      if rc = .keyAlreadyInserted then do
        let ok ← tryLockX p ver
        if ok then do
          let n ← load p
          let n ← lift (n.removeRecord cfg pos)
          store p n
          unlockX p
          return .success
        else nodeDelete cfg k f p
      else do
        let ok ← same p ver
        if ok then return .keyNotExist
        else nodeDelete cfg k f p

/-- `Delete`: oml/b_tree.hpp:249-258. -/
def delete (cfg : Cfg K) (junk : Node K V → Node K V → K) (fuel : Nat) (k : K) : Prog K V RC := do
  let leaf ← searchLeafForWrite cfg junk fuel k
  nodeDelete cfg k fuel leaf

/-- OML's entry points, without `Scan`. -/
def exec (cfg : Cfg K) (junk : Node K V → Node K V → K) : CImpl K V := fun fuel op =>
  match op with
  | .read k => do
    let o ← read fuel k
    return .payload o
  | .write k v => do
    let rc ← write cfg junk k v fuel
    return .code rc
  | .insert k v => do
    let rc ← insert cfg junk k v fuel
    return .code rc
  | .update k v => do
    let rc ← update cfg junk fuel k v
    return .code rc
  | .delete k => do
    let rc ← delete cfg junk fuel k
    return .code rc
  | .scan _ _ => stuck

end COml
end BT
