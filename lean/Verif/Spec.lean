import Mathlib.Order.Defs.LinearOrder

/-!
# Specification of the index API

Nothing in this file refers to the model of the code.  A B-tree is specified as a finite
map from keys to payloads; every API call is given by its effect on that map and by the
value it returns to the caller (`include/b_tree/b_tree.hpp`, `include/b_tree/utility.hpp:40-44`).
-/

namespace BT

/-- The public return codes, `utility.hpp:40-44` (`kSuccess`, `kKeyNotExist`, `kKeyExist`). -/
inductive RC where
  | success
  | keyNotExist
  | keyExist
  deriving DecidableEq, Repr

/-- A scan bound: `none` = unbounded, `some (k, closed)` (`utility.hpp`, `ScanKey`). -/
abbrev ScanKey (K : Type) := Option (K × Bool)

/-- The API calls of `b_tree.hpp` that read or change records. -/
inductive Op (K V : Type) where
  | read (k : K)
  | write (k : K) (v : V)
  | insert (k : K) (v : V)
  | update (k : K) (v : V)
  | delete (k : K)
  | scan (b e : ScanKey K)
  deriving Repr

/-- What a call hands back to its caller. -/
inductive Out (K V : Type) where
  | payload (o : Option V)
  | code (rc : RC)
  | recs (l : List (K × V))
  deriving DecidableEq, Repr

/-- The abstract contents of an index. -/
abbrev Map (K V : Type) := K → Option V

namespace Spec

variable {K V : Type} [LinearOrder K]

/-- The empty index. -/
def empty : Map K V := fun _ => none

/-- `m` with `k` bound to `o`. -/
def set (m : Map K V) (k : K) (o : Option V) : Map K V := fun k' => if k' = k then o else m k'

/-- `k` satisfies the lower scan bound `b`. -/
def AboveLo : ScanKey K → K → Prop
  | none, _ => True
  | some (x, true), k => x ≤ k
  | some (x, false), k => x < k

/-- `k` satisfies the upper scan bound `e`. -/
def BelowHi : ScanKey K → K → Prop
  | none, _ => True
  | some (x, true), k => k ≤ x
  | some (x, false), k => k < x

/-- `l` is the correct answer of `Scan(b, e)` on contents `m`: strictly ascending keys and
exactly the stored pairs whose key lies in the range. -/
def IsScan (m : Map K V) (b e : ScanKey K) (l : List (K × V)) : Prop :=
  l.Pairwise (fun x y => x.1 < y.1) ∧
  ∀ k v, (k, v) ∈ l ↔ m k = some v ∧ AboveLo b k ∧ BelowHi e k

/-- `Step m op out m'`: the call `op` on contents `m` may return `out` and leaves contents `m'`. -/
inductive Step (m : Map K V) : Op K V → Out K V → Map K V → Prop
  | read (k) : Step m (.read k) (.payload (m k)) m
  | write (k v) : Step m (.write k v) (.code .success) (set m k (some v))
  | insertNew (k v) : m k = none → Step m (.insert k v) (.code .success) (set m k (some v))
  | insertOld (k v) : m k ≠ none → Step m (.insert k v) (.code .keyExist) m
  | updateOld (k v) : m k ≠ none → Step m (.update k v) (.code .success) (set m k (some v))
  | updateNew (k v) : m k = none → Step m (.update k v) (.code .keyNotExist) m
  | deleteOld (k) : m k ≠ none → Step m (.delete k) (.code .success) (set m k none)
  | deleteNew (k) : m k = none → Step m (.delete k) (.code .keyNotExist) m
  | scan (b e l) : IsScan m b e l → Step m (.scan b e) (.recs l) m

/-- A whole sequence of calls with their answers. -/
inductive Run : Map K V → List (Op K V) → List (Out K V) → Map K V → Prop
  | nil (m) : Run m [] [] m
  | cons {m m' m'' op out ops outs} :
      Step m op out m' → Run m' ops outs m'' → Run m (op :: ops) (out :: outs) m''

end Spec
end BT
