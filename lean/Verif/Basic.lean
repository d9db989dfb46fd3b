import Verif.Spec

/-!
# Outcomes, configuration, pages and the heap
-/

namespace BT

/-- Outcome of a piece of C++ code: a value, undefined behaviour, or "loop not finished within
the given fuel". -/
inductive Res (α : Type) where
  | ok (a : α)
  | ub
  | fuel
  deriving Repr, DecidableEq

namespace Res
/-- Sequencing: the first non-`ok` outcome wins. -/
def bind {α β : Type} : Res α → (α → Res β) → Res β
  | ok a, f => f a
  | ub, _ => ub
  | fuel, _ => fuel

instance : Monad Res where
  pure := ok
  bind := bind

@[simp] theorem pure_eq {α : Type} (a : α) : (pure a : Res α) = ok a := rfl
@[simp] theorem ok_bind {α β : Type} (a : α) (f : α → Res β) : (ok a >>= f) = f a := rfl
@[simp] theorem ub_bind {α β : Type} (f : α → Res β) : ((ub : Res α) >>= f) = ub := rfl
@[simp] theorem fuel_bind {α β : Type} (f : α → Res β) : ((fuel : Res α) >>= f) = fuel := rfl
end Res

/-- Page layout: `node_fixlen.hpp` or `node_varlen.hpp`. -/
inductive Layout where
  | fix
  | var
  deriving DecidableEq, Repr

/-- Compile-time constants (`utility.hpp:113-131`, `component/common.hpp`, and the
`Internal constants` sections of the node classes and trees).
`keyLen` is the length passed with a key; the model assumes that it is a function of the key.
`blink` tells the single-layer variants (PSL, OSL: sibling links on every level, lowest key kept by
fixed-length splits) from the multi-layer ones (PML, OML). -/
structure Cfg (K : Type) where
  layout : Layout
  blink : Bool
  pageSize : Nat
  headerLen : Nat
  minFree : Nat
  minUsed : Nat
  maxDeleted : Nat
  metaLen : Nat
  ptrLen : Nat
  payLen : Nat
  maxKeyLen : Nat
  keyLen : K → Nat

namespace Cfg
variable {K : Type} (cfg : Cfg K)

/-- Length of a key in the page: `sizeof(Key)` in the fixed-length layout. -/
def klen (k : K) : Nat :=
  match cfg.layout with
  | .fix => cfg.maxKeyLen
  | .var => cfg.keyLen k

/-- Length of an optional key (`0` = absent, e.g. `h_key_len_ == 0`). -/
def oklen : Option K → Nat
  | none => 0
  | some k => cfg.klen k

/-- Payload length of a page: `kPtrLen` in inner nodes, `kPayLen` in leaves
(`pay_len_` of `node_fixlen.hpp`). -/
def plen (isInner : Bool) : Nat := if isInner then cfg.ptrLen else cfg.payLen

/-- `kMaxPayLen`, pml/b_tree.hpp:370 -/
def maxPayLen : Nat := if cfg.payLen < cfg.ptrLen then cfg.ptrLen else cfg.payLen

/-- the per-record metadata overhead of the layout -/
def mlen : Nat := match cfg.layout with | .fix => 0 | .var => cfg.metaLen

/-- `kMaxRecLen`, pml/b_tree.hpp:373-374 -/
def maxRecLen : Nat := cfg.maxKeyLen + cfg.maxPayLen + cfg.mlen

/-- `kPageSize - kHeaderLen` -/
def cap : Nat := cfg.pageSize - cfg.headerLen

/-- `kMaxUsedSpaceSize`, pml/node_varlen.hpp:931 -/
def maxUsed : Nat := cfg.pageSize - (cfg.headerLen + cfg.minFree)

/-- `kMinBlockSize`, pml/b_tree.hpp:377 -/
def minBlock : Nat := cfg.pageSize - cfg.headerLen - cfg.maxKeyLen

/-- `static_assert(2 * kMaxRecLen <= kMinBlockSize)`, pml/b_tree.hpp:755 and its three copies. -/
def StaticAssert : Prop := 2 * cfg.maxRecLen ≤ cfg.minBlock

end Cfg

/-- Addresses. -/
abbrev Ptr := Nat

/-- Contents of a payload field: a user payload or a child pointer. -/
inductive Pay (V : Type) where
  | val (v : V)
  | ptr (p : Ptr)
  deriving DecidableEq, Repr

/-- One slot of a page.  `key = none` stands for the blank (variable-length) or uninitialised
(fixed-length) key of the leftmost slot of an inner node made by the root constructor. -/
structure Rec (K V : Type) where
  key : Option K
  pay : Pay V
  del : Bool
  deriving DecidableEq, Repr

/-- A page (list-level): header fields and slots.
`block` = `block_size_`, `dead` = `deleted_size_`; `low`/`high` are the border keys
(`none` = absent); `next` the sibling link; `removed` = `is_removed_`. -/
structure Node (K V : Type) where
  isInner : Bool
  removed : Bool := false
  recs : List (Rec K V)
  low : Option K := none
  high : Option K := none
  next : Option Ptr := none
  block : Nat := 0
  dead : Nat := 0
  deriving DecidableEq, Repr

/-- Internal return codes, `component/common.hpp:42-51`. -/
inductive NodeRC where
  | completed
  | keyNotInserted
  | keyAlreadyDeleted
  | keyAlreadyInserted
  | needSplit
  | needMerge
  | abortMerge
  | needRetry
  deriving DecidableEq, Repr

/-- Memory of one tree: pages by address, the next fresh address, `root_`. -/
structure St (K V : Type) where
  heap : Ptr → Option (Node K V)
  fresh : Ptr
  root : Ptr

/-- Code acting on the memory. -/
def M (K V α : Type) := St K V → Res (α × St K V)

namespace M
variable {K V α β : Type}

def pure (a : α) : M K V α := fun s => .ok (a, s)
def bind (m : M K V α) (f : α → M K V β) : M K V β := fun s =>
  match m s with
  | .ok (a, s') => f a s'
  | .ub => .ub
  | .fuel => .fuel

instance : Monad (M K V) where
  pure := M.pure
  bind := M.bind

@[simp] theorem pure_run (a : α) (s : St K V) : (Pure.pure a : M K V α) s = .ok (a, s) := rfl

theorem bind_run (m : M K V α) (f : α → M K V β) (s : St K V) :
    (m >>= f) s = match m s with
      | .ok (a, s') => f a s'
      | .ub => .ub
      | .fuel => .fuel := rfl

/-- The way proofs step through code: a finished prefix can be skipped. -/
theorem bind_ok {m : M K V α} {f : α → M K V β} {s : St K V} {a s'} (h : m s = .ok (a, s')) :
    (m >>= f) s = f a s' := by rw [bind_run, h]

/-- undefined behaviour -/
def ub : M K V α := fun _ => .ub
/-- loop ran out of fuel -/
def outOfFuel : M K V α := fun _ => .fuel
/-- lift a page-local computation -/
def lift (r : Res α) : M K V α := fun s =>
  match r with
  | .ok a => .ok (a, s)
  | .ub => .ub
  | .fuel => .fuel

@[simp] theorem lift_ok (a : α) (s : St K V) : (lift (.ok a) : M K V α) s = .ok (a, s) := rfl

/-- dereference -/
def load (p : Ptr) : M K V (Node K V) := fun s =>
  match s.heap p with
  | some n => .ok (n, s)
  | none => .ub

/-- overwrite a page; undefined unless allocated -/
def store (p : Ptr) (n : Node K V) : M K V Unit := fun s =>
  match s.heap p with
  | some _ => .ok ((), { s with heap := fun q => if q = p then some n else s.heap q })
  | none => .ub

/-- `new (GetNodePage()) Node_t{...}` -/
def alloc (n : Node K V) : M K V Ptr := fun s =>
  .ok (s.fresh, { s with heap := fun q => if q = s.fresh then some n else s.heap q,
                         fresh := s.fresh + 1 })

/-- `Release<Page>` / handing a page to the garbage collector; releasing twice is undefined -/
def free (p : Ptr) : M K V Unit := fun s =>
  match s.heap p with
  | some _ => .ok ((), { s with heap := fun q => if q = p then none else s.heap q })
  | none => .ub

def getRoot : M K V Ptr := fun s => .ok (s.root, s)
def setRoot (p : Ptr) : M K V Unit := fun s => .ok ((), { s with root := p })

end M
end BT
