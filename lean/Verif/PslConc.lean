import Verif.BlinkConc
import Verif.Psl

/-!
# PSL with several threads: `component/psl/b_tree.hpp` and its nodes, with their locks
-/

namespace BT
variable {K V : Type} [LinearOrder K]

namespace CPsl
open Prog

/-- `CheckKeyRangeAndLockForRead`: psl varlen 486-503, fixlen 462-479. -/
def checkR (k : K) : Nat → Ptr → Prog K V (Option Ptr)
  | 0, _ => stuck
  | f + 1, p => do
    lockS p
    let n ← load p
    if n.removed = false ∧ n.compHighKey k = true then return some p
    else
      unlockS p
      match n.next with
      | none => return none
      | some q => checkR k f q

/-- `CheckKeyRangeAndLockForWrite`: psl varlen 515-532, fixlen 491-508. -/
def checkW (k : K) : Nat → Ptr → Prog K V (Option Ptr)
  | 0, _ => stuck
  | f + 1, p => do
    lockSIX p
    let n ← load p
    if n.removed = false ∧ n.compHighKey k = true then return some p
    else
      unlockSIX p
      match n.next with
      | none => return none
      | some q => checkW k f q

/-- `SearchChild`: psl varlen 442-451, fixlen 418-427. -/
def searchChild (k : K) (p : Ptr) : Prog K V Ptr := do
  let n ← load p
  let (_, pos) ← lift (n.searchRecord k)
  let child ← lift (n.getChild pos)
  unlockS p
  return child

/-- `SearchLeafNodeForRead`: psl/b_tree.hpp:478-495. -/
def searchLeafR (k : K) : Nat → Ptr → Prog K V Ptr
  | 0, _ => stuck
  | f + 1, p => do
    match ← checkR k (f + 1) p with
    | none => do
      let root ← getRoot
      searchLeafR k f root
    | some p => do
      let inner ← isInner p
      if inner then
        let child ← searchChild k p
        searchLeafR k f child
      else return p

/-- `SearchLeafNodeForWrite`: psl/b_tree.hpp:531-560.  The result of the check of the leaf is used without a test for
null (`ub`). -/
def searchLeafW (k : K) : Nat → List Ptr → Ptr → Prog K V (Ptr × List Ptr)
  | 0, _, _ => stuck
  | f + 1, stack, p => do
    let inner ← isInner p
    if inner then
      match ← checkR k (f + 1) p with
      | none => do
        let root ← getRoot
        searchLeafW k f [] root
      | some p => do
        let child ← searchChild k p
        searchLeafW k f (p :: stack) child
    else
      match ← checkW k (f + 1) p with
      | none => ub
      | some p => return (p, stack)

/-- `SearchParentNode`: psl/b_tree.hpp:569-597, after the load of `root_`. -/
def searchParent (k : K) (target : Ptr) : Nat → List Ptr → Ptr → Prog K V (List Ptr)
  | 0, _, _ => stuck
  | f + 1, stack, p => do
    match ← checkR k (f + 1) p with
    | none => do
      let root ← getRoot
      searchParent k target f [] root
    | some p =>
      if p = target then do
        unlockS p
        return stack
      else do
        let child ← searchChild k p
        searchParent k target f (p :: stack) child

/-- PSL's search code. -/
def nav : CBlink.Nav K V := ⟨checkW, searchParent⟩

/-- `Read`: psl/b_tree.hpp:127-142; node `Read`: psl varlen 548-567, fixlen 524-542. -/
def read (fuel : Nat) (k : K) : Prog K V (Option V) := do
  let root ← getRoot
  let leaf ← searchLeafR k fuel root
  let n ← load leaf
  let o ← lift (n.read k)
  unlockS leaf
  return o

/-- `Write`: psl/b_tree.hpp:187-211. -/
def write (cfg : Cfg K) (fuel : Nat) (k : K) (v : V) : Prog K V RC := do
  let root ← getRoot
  let (leaf, stack) ← searchLeafW k fuel [] root
  let rc ← CBlink.leafWrite cfg leaf k v
  if rc = .needSplit then do
    CBlink.splitAnd nav cfg fuel leaf stack k (fun p => CBlink.leafWrite cfg p k v)
    return .success
  else return .success

/-- `Insert`: psl/b_tree.hpp:223-250. -/
def insert (cfg : Cfg K) (fuel : Nat) (k : K) (v : V) : Prog K V RC := do
  let root ← getRoot
  let (leaf, stack) ← searchLeafW k fuel [] root
  let rc ← CBlink.leafInsert cfg leaf k v
  if rc = .keyAlreadyInserted then return .keyExist
  else if rc = .needSplit then do
    CBlink.splitAnd nav cfg fuel leaf stack k (fun p => CBlink.leafInsert cfg p k v)
    return .success
  else return .success

/-- `Update`: psl/b_tree.hpp:260-272; node `Update`: psl varlen 669-690, fixlen 624-645. -/
def update (fuel : Nat) (k : K) (v : V) : Prog K V RC := do
  let root ← getRoot
  let (leaf, _) ← searchLeafW k fuel [] root
  let n ← load leaf
  let (rc, n) ← lift (n.leafUpdate k v)
  if rc = .success then do
    upgradeX leaf
    store leaf n
    unlockX leaf
    return rc
  else do
    unlockSIX leaf
    return rc

/-- `Delete`: psl/b_tree.hpp:282-301. -/
def delete (cfg : Cfg K) (fuel : Nat) (k : K) : Prog K V RC := do
  let root ← getRoot
  let (leaf, stack) ← searchLeafW k fuel [] root
  let rc ← CBlink.leafDelete cfg leaf k
  if rc = .keyNotInserted then return .keyNotExist
  else if rc = .needMerge then do
    CBlink.merge nav cfg fuel stack none leaf
    return .success
  else return .success

/-- PSL's entry points, without `Scan`. -/
def exec (cfg : Cfg K) : CImpl K V := fun fuel op =>
  match op with
  | .read k => do
    let o ← read fuel k
    return .payload o
  | .write k v => do
    let rc ← write cfg fuel k v
    return .code rc
  | .insert k v => do
    let rc ← insert cfg fuel k v
    return .code rc
  | .update k v => do
    let rc ← update fuel k v
    return .code rc
  | .delete k => do
    let rc ← delete cfg fuel k
    return .code rc
  | .scan _ _ => stuck

end CPsl
end BT
