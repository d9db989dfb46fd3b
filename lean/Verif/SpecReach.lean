import Verif.Conc

/-!
# Which pages searches can come to
-/

namespace BT
variable {K V : Type} [LinearOrder K]

/-- The pages that a search can come to, if nobody else acts meanwhile: the root; the children of inner pages, unless they are marked as
removed; right neighbours (and what a removed page refers to instead). -/
inductive Mem.Reaches (m : Mem K V) : Ptr → Prop
  | root : Mem.Reaches m m.root
  | child {p c : Ptr} {n : Node K V} {pos : Nat} : Mem.Reaches m p → m.heap p = some n → n.isInner = true → n.removed = false →
      n.getChild pos = .ok c → Mem.Reaches m c
  | next {p q : Ptr} {n : Node K V} : Mem.Reaches m p → m.heap p = some n → n.next = some q → Mem.Reaches m q

end BT
