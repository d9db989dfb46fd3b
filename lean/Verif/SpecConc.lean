import Verif.Spec

/-!
# Specification of concurrent use: linearizability

Nothing in this file refers to the model of the code.  A history is the sequence of invocations and responses
that the callers observe.  It is linearizable when every call can be given one instant between its invocation
and its response at which it takes effect on one map (`Spec.Step`), all at once.

For histories with scans there is a weaker notion, `PartwiseLinearizable`: a scan need not happen all at once, but
goes through its range from left to right in parts, each of which it reads at one instant.
-/

namespace BT

/-- Something a caller observes: thread `t` calls an operation, or the call of thread `t` returns. -/
inductive Ev (K V : Type) where
  | inv (t : Nat) (op : Op K V)
  | res (t : Nat) (out : Out K V)
  deriving Repr

namespace Spec
variable {K V : Type} [LinearOrder K]

/-- What a thread is doing as seen by the atomic map: nothing, waiting for its call to take effect, scanning (the rest of
the range is from `b` to `e`, the records `acc` have been found), or waiting to return an answer that is already determined. -/
inductive Phase (K V : Type) where
  | idle
  | waiting (op : Op K V)
  | scanning (b e : ScanKey K) (acc : List (K × V))
  | done (out : Out K V)

/-- What a scan does at one instant, when the contents are `m`: it begins, reads all records of its range up to the key `c`
(inclusive if `cl`) and goes on behind, or reads the rest of its range. -/
inductive ScanStep (m : Map K V) : Phase K V → Phase K V → Prop
  | start (b e) : ScanStep m (.waiting (.scan b e)) (.scanning b e [])
  | part {b e acc} (c cl l) : (∀ k, AboveLo (some (c, !cl)) k → AboveLo b k) → (∀ k, BelowHi (some (c, cl)) k → BelowHi e k) →
      IsScan m b (some (c, cl)) l → ScanStep m (.scanning b e acc) (.scanning (some (c, !cl)) e (acc ++ l))
  | last {b e acc} (l) : IsScan m b e l → ScanStep m (.scanning b e acc) (.done (.recs (acc ++ l)))

/-- State of the atomic map: its contents and the phase of every thread. -/
structure AState (K V : Type) where
  map : Map K V
  ph : Nat → Phase K V

/-- `f` with `f t := x`. -/
def upd.{u} {α : Type u} (f : Nat → α) (t : Nat) (x : α) : Nat → α := fun u => if u = t then x else f u

/-- `Atomic s h s'`: the atomic map can go from `s` to `s'` while the callers observe `h`.  A call is invoked
(only by an idle thread), takes effect at one instant, unobserved, and then returns what it computed there.  If `parts` is
true, scans may also take effect part by part. -/
inductive Atomic (parts : Bool) : AState K V → List (Ev K V) → AState K V → Prop
  | refl (s) : Atomic parts s [] s
  | inv {s h s'} (t op) : Atomic parts s h s' → s'.ph t = .idle →
      Atomic parts s (h ++ [.inv t op]) ⟨s'.map, upd s'.ph t (.waiting op)⟩
  | effect {s h s' t op out m} : Atomic parts s h s' → s'.ph t = .waiting op → Step s'.map op out m →
      Atomic parts s h ⟨m, upd s'.ph t (.done out)⟩
  | scan {s h s' t x} : parts = true → Atomic parts s h s' → ScanStep s'.map (s'.ph t) x → Atomic parts s h ⟨s'.map, upd s'.ph t x⟩
  | res {s h s' t out} : Atomic parts s h s' → s'.ph t = .done out →
      Atomic parts s (h ++ [.res t out]) ⟨s'.map, upd s'.ph t .idle⟩

/-- The history `h` of an index whose contents were `m` at first is linearizable. -/
def LinearizableFrom (m : Map K V) (h : List (Ev K V)) : Prop := ∃ s, Atomic false ⟨m, fun _ => .idle⟩ h s

/-- The history `h` of an index whose contents were `m` at first is linearizable if scans are allowed to read their range in parts,
from left to right, each part at one instant. -/
def PartwiseLinearizableFrom (m : Map K V) (h : List (Ev K V)) : Prop := ∃ s, Atomic true ⟨m, fun _ => .idle⟩ h s

/-- The history `h` of an index that was empty at first is linearizable. -/
def Linearizable (h : List (Ev K V)) : Prop := LinearizableFrom empty h

/-- The history `h` of an index that was empty at first is linearizable if scans are allowed to read their range in parts, from
left to right, each part at one instant. -/
def PartwiseLinearizable (h : List (Ev K V)) : Prop := PartwiseLinearizableFrom empty h

/-- Calls that can change the entry of `k`. -/
def Changes (k : K) : Op K V → Prop
  | .write k' _ | .insert k' _ | .update k' _ | .delete k' => k' = k
  | .read _ | .scan _ _ => False

/-- The operations that can change the map. -/
def Writes : Op K V → Prop
  | .write _ _ | .insert _ _ | .update _ _ | .delete _ => True
  | .read _ | .scan _ _ => False

/-- At any time at most one call that can change the map is in progress: before a second one begins the first has
returned.  Different threads may take turns, and any number of reads may be in progress. -/
def OneWriter (h : List (Ev K V)) : Prop :=
  ∀ (h1 h2 h3 : List (Ev K V)) (t u : Nat) (op op' : Op K V),
    h = h1 ++ .inv t op :: (h2 ++ .inv u op' :: h3) → Writes op → Writes op' → ∃ out, .res t out ∈ h2

/-- In the history `h` a `Write(k,v)` returns, every call that changes `k` is a `Write(k,v)`, and yet a `Read(k)` that
is called after that return does not find `v`. -/
def LosesWrite (h : List (Ev K V)) : Prop :=
  ∃ k v t u o h1 h2 h3 h4 h5, h = h1 ++ .inv t (.write k v) :: h2 ++ .res t (.code .success) :: h3 ++ .inv u (.read k) :: h4 ++
      .res u (.payload o) :: h5 ∧
    (∀ t' op, .inv t' op ∈ h → Changes k op → op = .write k v) ∧
    (∀ out, .res t out ∉ h2) ∧ (∀ out, .res u out ∉ h4) ∧ o ≠ some v

/-- In the history `h` a `Write(k,v)` returns, every call that changes `k` is a `Write(k,v)`, and yet a scan of a range with `k`
that is called after that return does not report `(k,v)`. -/
def ScanMisses (h : List (Ev K V)) : Prop :=
  ∃ k v t u b e l h1 h2 h3 h4 h5, h = h1 ++ .inv t (.write k v) :: h2 ++ .res t (.code .success) :: h3 ++ .inv u (.scan b e) :: h4 ++
      .res u (.recs l) :: h5 ∧
    (∀ t' op, .inv t' op ∈ h → Changes k op → op = .write k v) ∧
    (∀ out, .res t out ∉ h2) ∧ (∀ out, .res u out ∉ h4) ∧ AboveLo b k ∧ BelowHi e k ∧ (k, v) ∉ l

/-- In the history `h` a scan reports keys that are not strictly ascending. -/
def ScanRepeats (h : List (Ev K V)) : Prop :=
  ∃ u b e l h1 h2 h3, h = h1 ++ .inv u (.scan b e) :: h2 ++ .res u (.recs l) :: h3 ∧ (∀ out, .res u out ∉ h2) ∧
    ¬ l.Pairwise (fun x y => x.1 < y.1)

end Spec
end BT
