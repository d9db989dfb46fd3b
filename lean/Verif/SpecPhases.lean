import Verif.SpecBulk
import Verif.SpecConc

/-!
# Specification of an index that is used in phases

Nothing in this file refers to the model of the code.  In a phase one thread makes calls one after the other (`Bulkload` among them), or any
number of threads work at the same time until all of them have returned.
-/

namespace BT

/-- What the callers observe in one phase: the calls of one thread and their answers, or the history of many threads. -/
inductive Phased (K V : Type) where
  | calls (cs : List (Cmd K V)) (outs : List (Out K V))
  | threads (h : List (Ev K V))

namespace Spec
variable {K V : Type} [LinearOrder K]

/-- `Explained m o m'`: a map with contents `m` may give all the answers in the phases `o`, and then it has the contents `m'`.  In a phase of
many threads every call takes effect at one instant between its invocation and its response, scans part by part. -/
inductive Explained : Map K V → List (Phased K V) → Map K V → Prop
  | nil (m) : Explained m [] m
  | calls {m o m1 cs outs m2} : Explained m o m1 → RunB m1 cs outs m2 → Explained m (o ++ [.calls cs outs]) m2
  | threads {m o m1 h m2} : Explained m o m1 → Atomic true ⟨m1, fun _ => .idle⟩ h ⟨m2, fun _ => .idle⟩ → Explained m (o ++ [.threads h]) m2

end Spec
end BT
