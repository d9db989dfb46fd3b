import Verif.Spec

/-!
# Specification of the API with bulkloading

`Bulkload` makes the given entries the contents of the index (`b_tree.hpp`, `Bulkload`); an empty list changes nothing.
-/

namespace BT

/-- A call of the full API. -/
inductive Cmd (K V : Type) where
  | call (op : Op K V)
  | bulkload (es : List (K × V)) (threads : Nat)

namespace Spec
variable {K V : Type} [LinearOrder K]

/-- Entries are in strictly ascending key order (what `Bulkload` asks of its caller). -/
def Ascending (es : List (K × V)) : Prop := es.Pairwise (fun x y => x.1 < y.1)

/-- `m` holds exactly the entries `es`. -/
def Holds (m : Map K V) (es : List (K × V)) : Prop := ∀ k v, m k = some v ↔ (k, v) ∈ es

/-- One call of the full API. -/
inductive StepB (m : Map K V) : Cmd K V → Out K V → Map K V → Prop
  | call {op out m'} : Step m op out m' → StepB m (.call op) out m'
  | bulkloadNone (threads) : StepB m (.bulkload [] threads) (.code .success) m
  | bulkload {es threads m'} : es ≠ [] → Holds m' es → StepB m (.bulkload es threads) (.code .success) m'

/-- A sequence of calls of the full API. -/
inductive RunB : Map K V → List (Cmd K V) → List (Out K V) → Map K V → Prop
  | nil (m) : RunB m [] [] m
  | cons {m m' m'' c out cs outs} : StepB m c out m' → RunB m' cs outs m'' → RunB m (c :: cs) (out :: outs) m''

end Spec
end BT
