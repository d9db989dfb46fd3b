import Verif.BlinkConc

/-!
# OSL with several threads: `component/osl/b_tree.hpp` and its nodes, with their locks

Optimistic readers look at a page without a lock (`peek`) and check afterwards that its version has not changed
(`same`).  Loops whose condition is checked by the version start again; each turn takes fuel.

Simplifications: a look at a page (`SearchRecord` with the payload it leads to, or one of the header tests) is one
`peek`.  The header tests `is_removed_` and `CompHighKey` of one condition are two `peek`s.
-/

namespace BT
variable {K V : Type} [LinearOrder K]

namespace Blink
/-- What follows `SearchRecord` in node `Insert`: osl varlen 763-774, fixlen 711-717.  The search of fixed-length pages
never answers `kKeyAlreadyDeleted`. -/
def insertAt (cfg : Cfg K) (n : Node K V) (k : K) (v : V) (rc : NodeRC) (pos : Nat) : Res (NodeRC × Node K V) := do
  if rc = .keyNotInserted then
    if needSplit cfg n (cfg.klen k + cfg.payLen) then return (.needSplit, n)
    else
      let n ← n.insertRecord cfg k (.val v) pos
      return (.completed, n)
  else if rc = .keyAlreadyDeleted ∧ cfg.layout = .var then
    let n ← n.reuseRecord cfg pos v
    return (.completed, n)
  else return (.keyAlreadyInserted, n)

/-- What follows `SearchRecord` in node `Delete`: osl varlen 889-897, fixlen 833-852. -/
def deleteAt (cfg : Cfg K) (n : Node K V) (pos : Nat) : Res (NodeRC × Node K V) := do
  let n ← n.removeRecord cfg pos
  let (need, n) ← needMerge cfg n
  return (if need then .needMerge else .completed, n)
end Blink

namespace COsl
open Prog

/-- `CheckKeyRange`: osl varlen 538-565, fixlen 502-529.  Returns the page and its version. -/
def checkO (k : K) : Nat → Ptr → Prog K V (Option (Ptr × Nat))
  | 0, _ => stuck
  | f + 1, p => do
    let ver ← getVer p
    let n1 ← peek p
    let n2 ← peek p
    if n1.removed = false ∧ n2.compHighKey k = true then
      let ok ← same p ver
      if ok then return some (p, ver)
      else checkO k f p
    else
      let n ← peek p
      let ok ← same p ver
      if ok then
        match n.next with
        | none => return none
        | some q => checkO k f q
      else checkO k f p

/-- `CheckKeyRangeAndLockForWrite`: osl varlen 606-629, fixlen 570-593. -/
def checkW (k : K) : Nat → Ptr → Prog K V (Option Ptr)
  | 0, _ => stuck
  | f + 1, p => do
    let ver ← getVer p
    let n1 ← peek p
    let n2 ← peek p
    if n1.removed = false ∧ n2.compHighKey k = true then
      let ok ← tryLockSIX p ver
      if ok then return some p
      else checkW k f p
    else
      let n ← peek p
      let ok ← same p ver
      if ok then
        match n.next with
        | none => return none
        | some q => checkW k f q
      else checkW k f p

/-- `SearchChild`: osl varlen 487-508, fixlen 451-469.  Returns the page the search has moved to and its child. -/
def searchChild (k : K) : Nat → Ptr → Prog K V (Option (Ptr × Ptr))
  | 0, _ => stuck
  | f + 1, p => do
    match ← checkO k (f + 1) p with
    | none => return none
    | some (p, ver) => do
      let n ← peek p
      let (_, pos) ← lift (n.searchRecord k)
      let child ← lift (n.getChild pos)
      let ok ← same p ver
      if ok then return some (p, child)
      else searchChild k f p

/-- `SearchLeafNode`: osl/b_tree.hpp:464-484, after the load of `root_`.  The leaf is not checked against the key. -/
def searchLeaf (k : K) : Nat → Ptr → Prog K V Ptr
  | 0, _ => stuck
  | f + 1, p => do
    let inner ← isInner p
    if inner then
      match ← searchChild k (f + 1) p with
      | none => do
        let root ← getRoot
        searchLeaf k f root
      | some (_, child) => searchLeaf k f child
    else return p

/-- `SearchLeafNodeForWrite`: osl/b_tree.hpp:510-534, after the load of `root_`; returns the leaf and the stack below
it. -/
def searchLeafW (k : K) : Nat → List Ptr → Ptr → Prog K V (Ptr × List Ptr)
  | 0, _, _ => stuck
  | f + 1, stack, p => do
    let inner ← isInner p
    if inner then
      match ← searchChild k (f + 1) p with
      | none => do
        let root ← getRoot
        searchLeafW k f [] root
      | some (p, child) => searchLeafW k f (p :: stack) child
    else return (p, stack)

/-- `SearchParentNode`: osl/b_tree.hpp:543-571, after the load of `root_`.  `child` is the variable of the same name: it
keeps its value at a leaf, and is null at first.  (After a removed root, `SearchChild` may also leave the child of an
earlier turn in it; here it is null then.) -/
def searchParentLoop (k : K) (target : Ptr) : Nat → List Ptr → Option Ptr → Ptr → Prog K V (List Ptr)
  | 0, _, _, _ => stuck
  | f + 1, stack, child, p => do
    let inner ← isInner p
    if inner then
      match ← searchChild k (f + 1) p with
      | none => do
        let root ← getRoot
        searchParentLoop k target f [] none root
      | some (p, c) =>
        if p = target then return stack
        else searchParentLoop k target f (p :: stack) (some c) c
    else
      match ← checkO k (f + 1) p with
      | none => do
        let root ← getRoot
        searchParentLoop k target f [] child root
      | some (p, _) =>
        if p = target then return stack
        else
          match child with
          | none => ub
          | some c => searchParentLoop k target f (p :: stack) (some c) c

/-- `SearchParentNode`: osl/b_tree.hpp:543-571. -/
def searchParent (k : K) (target : Ptr) (fuel : Nat) (stack : List Ptr) (p : Ptr) : Prog K V (List Ptr) :=
  searchParentLoop k target fuel stack none p

/-- OSL's search code. -/
def nav : CBlink.Nav K V := ⟨checkW, searchParent⟩

/-- Node `Read`: osl varlen 645-664, fixlen 609-628.  The result of `CheckKeyRange` is used without a test for null. -/
def nodeRead (k : K) : Nat → Ptr → Prog K V (Option V)
  | 0, _ => stuck
  | f + 1, p => do
    match ← checkO k (f + 1) p with
    | none => ub
    | some (p, ver) => do
      let n ← peek p
      let o ← lift (n.read k)
      let ok ← same p ver
      if ok then return o
      else nodeRead k f p

/-- The clean-up in node `Insert`: osl varlen 749-754.  Returns the version to go on with, or nothing when the page has to
be checked again. -/
def tryCleanUp (cfg : Cfg K) (p : Ptr) (ver len : Nat) : Prog K V (Option Nat) := do
  let n ← peek p
  if Blink.wantsCleanUp cfg n len then
    let ok ← tryLockX p ver
    if ok then
      let n ← load p
      let n ← lift (n.cleanUp cfg)
      store p n
      let ver ← unlockXVer p
      return some ver
    else return none
  else return some ver

/-- Node `Insert`: osl varlen 735-778, fixlen 690-719.  Returns the page, too. -/
def nodeInsert (cfg : Cfg K) (k : K) (v : V) : Nat → Ptr → Prog K V (NodeRC × Ptr)
  | 0, _ => stuck
  | f + 1, p => do
    match ← checkO k (f + 1) p with
    | none => ub
    | some (p, ver) => do
      match ← tryCleanUp cfg p ver (cfg.klen k + cfg.payLen) with
      | none => nodeInsert cfg k v f p
      | some ver => do
        let n ← peek p
        let (rc, pos) ← lift (n.searchRecord k)
        if rc = .keyAlreadyInserted then
          let ok ← same p ver
          if ok then return (.keyAlreadyInserted, p)
          else nodeInsert cfg k v f p
        else
          let ok ← tryLockSIX p ver
          if ok then
            let n ← load p
            let (rc, n) ← lift (Blink.insertAt cfg n k v rc pos)
            let rc ← CBlink.commit p rc n
            return (rc, p)
          else nodeInsert cfg k v f p

/-- Node `Update`: osl varlen 828-854, fixlen 772-798. -/
def nodeUpdate (k : K) (v : V) : Nat → Ptr → Prog K V RC
  | 0, _ => stuck
  | f + 1, p => do
    match ← checkO k (f + 1) p with
    | none => ub
    | some (p, ver) => do
      let n ← peek p
      let (rc, pos) ← lift (n.searchRecord k)
      if rc = .keyAlreadyInserted then
        let ok ← tryLockX p ver
        if ok then
          let n ← load p
          let n ← lift (n.setPayload pos v)
          store p n
          unlockX p
          return .success
        else nodeUpdate k v f p
      else
        let ok ← same p ver
        if ok then return .keyNotExist
        else nodeUpdate k v f p

/-- Node `Delete`: osl varlen 870-901, fixlen 814-856.  Returns the page, too. -/
def nodeDelete (cfg : Cfg K) (k : K) : Nat → Ptr → Prog K V (NodeRC × Ptr)
  | 0, _ => stuck
  | f + 1, p => do
    match ← checkO k (f + 1) p with
    | none => ub
    | some (p, ver) => do
      let n ← peek p
      let (rc, pos) ← lift (n.searchRecord k)
      if rc = .keyAlreadyInserted then
        let ok ← tryLockX p ver
        if ok then
          let n ← load p
          let (rc, n) ← lift (Blink.deleteAt cfg n pos)
          store p n
          if rc = .needMerge then
            downgradeSIX p
            return (rc, p)
          else
            unlockX p
            return (rc, p)
        else nodeDelete cfg k f p
      else
        let ok ← same p ver
        if ok then return (.keyNotInserted, p)
        else nodeDelete cfg k f p

/-- `Read`: osl/b_tree.hpp:127-141. -/
def read (fuel : Nat) (k : K) : Prog K V (Option V) := do
  let root ← getRoot
  let leaf ← searchLeaf k fuel root
  nodeRead k fuel leaf

/-- `target_node->InsertRecord(…, target_node->SearchRecord(key).second)`: osl/b_tree.hpp:193-194, 231-232, with
`InsertRecord` (osl varlen 788-814, fixlen 730-757).  There is no space check here. -/
def insertInto (cfg : Cfg K) (k : K) (v : V) (p : Ptr) : Prog K V NodeRC := do
  let n ← load p
  let (_, pos) ← lift (n.searchRecord k)
  upgradeX p
  let n ← lift (n.insertRecord cfg k (.val v) pos)
  store p n
  unlockX p
  return .completed

/-- `Write`: osl/b_tree.hpp:174-201; node `Write`: osl varlen 683-718, fixlen 646-674 (the steps of PSL's). -/
def write (cfg : Cfg K) (fuel : Nat) (k : K) (v : V) : Prog K V RC := do
  let root ← getRoot
  let (leaf, stack) ← searchLeafW k fuel [] root
  match ← checkW k fuel leaf with
  | none => ub
  | some leaf => do
    let rc ← CBlink.leafWrite cfg leaf k v
    if rc = .needSplit then do
      CBlink.splitAnd nav cfg fuel leaf stack k (insertInto cfg k v)
      return .success
    else return .success

/-- `Insert`: osl/b_tree.hpp:212-239. -/
def insert (cfg : Cfg K) (fuel : Nat) (k : K) (v : V) : Prog K V RC := do
  let root ← getRoot
  let (leaf, stack) ← searchLeafW k fuel [] root
  let (rc, leaf) ← nodeInsert cfg k v fuel leaf
  if rc = .keyAlreadyInserted then return .keyExist
  else if rc = .needSplit then do
    CBlink.splitAnd nav cfg fuel leaf stack k (insertInto cfg k v)
    return .success
  else return .success

/-- `Update`: osl/b_tree.hpp:250-261. -/
def update (fuel : Nat) (k : K) (v : V) : Prog K V RC := do
  let root ← getRoot
  let leaf ← searchLeaf k fuel root
  nodeUpdate k v fuel leaf

/-- `Delete`: osl/b_tree.hpp:271-289. -/
def delete (cfg : Cfg K) (fuel : Nat) (k : K) : Prog K V RC := do
  let root ← getRoot
  let (leaf, stack) ← searchLeafW k fuel [] root
  let (rc, leaf) ← nodeDelete cfg k fuel leaf
  if rc = .keyNotInserted then return .keyNotExist
  else if rc = .needMerge then do
    CBlink.merge nav cfg fuel stack none leaf
    return .success
  else return .success

/-- OSL's entry points, without `Scan`. -/
def exec (cfg : Cfg K) : CImpl K V := fun fuel op =>
  match op with
  | .read k => do
    let o ← read fuel k
    return .payload o
  | .write k v => do
    let rc ← write cfg fuel k v
    return .code rc
  | .insert k v => do
    let rc ← insert cfg fuel k v
    return .code rc
  | .update k v => do
    let rc ← update fuel k v
    return .code rc
  | .delete k => do
    let rc ← delete cfg fuel k
    return .code rc
  | .scan _ _ => stuck

end COsl
end BT
