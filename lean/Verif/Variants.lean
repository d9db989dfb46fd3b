import Verif.PslOk
import Verif.Config

/-!
# The four variants together

`Variant.impl` selects one of the four `b_tree.hpp` files; `Returns` says that a call made in a given memory finishes.
-/

set_option linter.unusedSectionVars false

namespace BT
variable {K V : Type} [LinearOrder K]

/-- The four index classes (`include/b_tree/b_tree.hpp`).  The optimistic ones carry the initial value of the scan iterator's
thread-local key cell. -/
inductive Variant (K : Type) where
  | pml
  | oml (key : Option K)
  | psl
  | osl (key : Option K)

/-- The entry points of a variant. -/
def Variant.impl (v : Variant K) (cfg : Cfg K) : Impl K V :=
  match v with
  | .pml => Pml.impl cfg
  | .oml key => Oml.impl cfg key
  | .psl => Psl.impl cfg
  | .osl key => Osl.impl cfg key

/-- Page and record sizes for which the code is safe: the page-room inequalities, plus for the two lock-coupling variants that a
record is not longer than `kMinFreeSpaceSize`. The B-link variants use the nodes with a low key. -/
def Variant.Admissible (v : Variant K) (cfg : Cfg K) : Prop :=
  ∃ L, Roomy cfg L ∧
    match v with
    | .pml => L + cfg.maxPayLen + cfg.mlen ≤ cfg.minFree
    | .oml _ => L + cfg.maxPayLen + cfg.mlen ≤ cfg.minFree
    | .psl => cfg.blink = true
    | .osl _ => cfg.blink = true

/-- The call `op`, made in memory `s`, finishes (for every large enough loop budget) with answer `out` and leaves memory `s'`. -/
def Returns (I : Impl K V) (s : St K V) (op : Op K V) (out : Out K V) (s' : St K V) : Prop :=
  ∃ N, ∀ fuel, N ≤ fuel → I.exec fuel op s = .ok (out, s')

/-- `s` is the memory left by some sequence of calls on a new index. -/
inductive Reachable (I : Impl K V) : St K V → Prop
  | init : Reachable I initSt
  | step {s op out s'} : Reachable I s → Returns I s op out s' → Reachable I s'

theorem Returns.unique {I : Impl K V} {s s1 s2 : St K V} {op : Op K V} {o1 o2 : Out K V} (h1 : Returns I s op o1 s1)
    (h2 : Returns I s op o2 s2) : o1 = o2 ∧ s1 = s2 := by
  obtain ⟨N1, h1⟩ := h1
  obtain ⟨N2, h2⟩ := h2
  have := (h1 (max N1 N2) (le_max_left _ _)).symm.trans (h2 _ (le_max_right _ _))
  simpa using this

theorem Variant.callsOk {v : Variant K} {cfg : Cfg K} (h : v.Admissible cfg) :
    CallsOk (v.impl cfg : Impl K V) cfg := by
  obtain ⟨L, hr, h⟩ := h
  cases v with
  | pml => exact Pml.callsOk hr h
  | oml key => exact Oml.callsOk hr h key
  | psl => exact Psl.callsOk hr h
  | osl key => exact Osl.callsOk hr h key

theorem CallsOk.step {cfg : Cfg K} {I : Impl K V} (h : CallsOk I cfg) {s : St K V} {m : Map K V} (hi : Inv cfg s m)
    (op : Op K V) : ∃ out s' m', Returns I s op out s' ∧ Spec.Step m op out m' ∧ Inv cfg s' m' := by
  obtain ⟨N, out, s', m', h1, h2, h3⟩ := h.stepOk s m op hi
  exact ⟨out, s', m', ⟨N, fun f hf => (h.fuelOk.exec op N f hf).le s _ h1⟩, h2, h3⟩

theorem CallsOk.reach {cfg : Cfg K} {I : Impl K V} (h : CallsOk I cfg) {s : St K V} (hs : Reachable I s) :
    ∃ m, Inv cfg s m := by
  induction hs with
  | init => exact ⟨_, inv_init cfg⟩
  | step _ hret ih =>
    obtain ⟨m, hm⟩ := ih
    obtain ⟨out, s', m', h1, h2, h3⟩ := h.step hm _
    obtain ⟨-, rfl⟩ := hret.unique h1
    exact ⟨m', h3⟩

/-- In a state with contents `m`, `Read k` returns `m k`. -/
theorem CallsOk.reads {cfg : Cfg K} {I : Impl K V} (h : CallsOk I cfg) {s : St K V} {m : Map K V} (hi : Inv cfg s m)
    (k : K) : Returns I s (.read k) (.payload (m k)) s := by
  obtain ⟨H, gr, g, rfl⟩ := hi
  obtain ⟨N, h1⟩ := h.read g k
  refine ⟨N, fun f hf => (h.fuelOk.exec (.read k) N f hf).le s _ ?_⟩
  simp only [Impl.exec]; rw [M.bind_ok h1]
  rfl

theorem CallsOk.reads_iff {cfg : Cfg K} {I : Impl K V} (h : CallsOk I cfg) {s s' : St K V} {m : Map K V} (hi : Inv cfg s m)
    (k : K) (o : Option V) : Returns I s (.read k) (.payload o) s' ↔ m k = o ∧ s' = s := by
  constructor
  · intro hr
    obtain ⟨h1, h2⟩ := hr.unique (h.reads hi k)
    simp only [Out.payload.injEq] at h1
    exact ⟨h1.symm, h2⟩
  · rintro ⟨rfl, rfl⟩
    exact h.reads hi k

/-- Every call whose answer is known: the specification step and the next invariant. -/
theorem CallsOk.sound {cfg : Cfg K} {I : Impl K V} (h : CallsOk I cfg) {s s' : St K V} {m : Map K V} (hi : Inv cfg s m)
    {op : Op K V} {out : Out K V} (hr : Returns I s op out s') : ∃ m', Spec.Step m op out m' ∧ Inv cfg s' m' := by
  obtain ⟨out', s'', m', h1, h2, h3⟩ := h.step hi op
  obtain ⟨rfl, rfl⟩ := hr.unique h1
  exact ⟨m', h2, h3⟩

end BT
