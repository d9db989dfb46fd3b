import Verif.Node

/-!
# Whole-tree walks: destructor and statistics

Both are textually equal in the four variants up to lock calls.  Locks are dropped (one thread).
-/

set_option linter.unusedSectionVars false

namespace BT
variable {K V : Type} [LinearOrder K]

/-- `for (size_t i = 0; i < n; ++i) body(i)` over a slot array. -/
def M.each {α : Type} (g : α → M K V Unit) : List α → M K V Unit
  | [] => return ()
  | x :: xs => do
    g x
    M.each g xs

/-- `DeleteChildren`: pml/b_tree.hpp:537-549, psl 606-618, oml 553-565, osl 579-591.  The slot array is read once
instead of in every iteration (nothing writes to it meanwhile).  A slot that holds no child pointer is undefined behaviour. -/
def deleteChildren : Nat → Ptr → M K V Unit
  | 0, _ => M.outOfFuel
  | f + 1, p => do
    let n ← M.load p
    if n.isInner then
      M.each (fun r : Rec K V => match r.pay with
        | .ptr c => deleteChildren f c
        | .val _ => M.ub) n.recs
    M.free p

/-- `~BTree`: pml/b_tree.hpp:101-104, psl 110-113, oml 110-113, osl 110-113. -/
def destroy (fuel : Nat) : M K V Unit := do
  let r ← M.getRoot
  deleteChildren fuel r

/-- One entry of the statistics vector: number of nodes, actual usage, virtual usage. -/
abbrev Stat := Nat × Nat × Nat

/-- Lines 566-574 of pml/b_tree.hpp (psl 635-643, oml 582-590, osl 608-616): make sure the entry of this level exists and
add this node to it.  `at` throws when the entry does not exist; that is `ub` here. -/
def addStat (cfg : Cfg K) (n : Node K V) (level : Nat) (st : List Stat) : Res (List Stat) :=
  let st := if st.length ≤ level then st ++ [(0, 0, 0)] else st
  match st[level]? with
  | none => .ub
  | some (a, b, c) => .ok (st.set level (a + 1, b + n.nodeUsage cfg, c + cfg.pageSize))

/-- `for` loop that threads the statistics vector. -/
def M.foldSlots {σ α : Type} (g : α → σ → M K V σ) : List α → σ → M K V σ
  | [], a => return a
  | x :: xs, a => do
    let a ← g x a
    M.foldSlots g xs a

/-- `CollectStatisticalData(node, level, stat_data)`: pml/b_tree.hpp:558-586, psl 627-655, oml 574-602, osl 600-628. -/
def collectStats (cfg : Cfg K) : Nat → Ptr → Nat → List Stat → M K V (List Stat)
  | 0, _, _, _ => M.outOfFuel
  | f + 1, p, level, st => do
    let n ← M.load p
    let st ← M.lift (addStat cfg n level st)
    if n.isInner then
      M.foldSlots (fun (r : Rec K V) st => match r.pay with
        | .ptr c => collectStats cfg f c (level + 1) st
        | .val _ => M.ub) n.recs st
    else return st

/-- `CollectStatisticalData()`: pml/b_tree.hpp:338-348, psl 396-406, oml 354-364, osl 385-395. -/
def statistics (cfg : Cfg K) (fuel : Nat) : M K V (List Stat) := do
  let r ← M.getRoot
  collectStats cfg fuel r 0 []

end BT
