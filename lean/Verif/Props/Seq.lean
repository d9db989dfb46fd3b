import Verif.Variants

/-!
# Sequential properties (C01 - C08, C13)
-/

namespace BT
variable {K V : Type} [LinearOrder K]

/-- A variant behaves like a map: every sequence of calls on a new index returns (for every large enough
loop budget, so it terminates and meets no undefined behaviour), with the answers of a map. -/
def BehavesLikeMap (I : Impl K V) : Prop :=
  ∀ ops : List (Op K V), ∃ (N : Nat) (outs : List (Out K V)) (s' : St K V) (m' : Map K V),
    (∀ fuel, N ≤ fuel → I.run fuel ops initSt = .ok (outs, s')) ∧ Spec.Run Spec.empty ops outs m'

/-- C01 (both layouts; `cfg.layout` is arbitrary). -/
theorem C01_pml_sequential (cfg : Cfg K) (L : Nat) (hr : Roomy cfg L)
    (hmf : L + cfg.maxPayLen + cfg.mlen ≤ cfg.minFree) : BehavesLikeMap (Pml.impl cfg : Impl K V) := by
  intro ops
  obtain ⟨N, outs, s', m', h1, h2, -⟩ := (Pml.callsOk hr hmf).run ops
  exact ⟨N, outs, s', m', h1, h2⟩

example : BehavesLikeMap (Pml.impl (fixCfg false) : Impl Nat Nat) :=
  C01_pml_sequential _ 8 (fixCfg_roomy _) (by simp [fixCfg, Cfg.maxPayLen, Cfg.mlen])
example : BehavesLikeMap (Pml.impl (varCfg false) : Impl Nat Nat) :=
  C01_pml_sequential _ 108 (varCfg_roomy _) (by simp [varCfg, Cfg.maxPayLen, Cfg.mlen])

/-- C02 (both layouts).  `key` is whatever the scan iterator's thread-local key cell holds when the program
starts. -/
theorem C02_oml_sequential (cfg : Cfg K) (L : Nat) (hr : Roomy cfg L)
    (hmf : L + cfg.maxPayLen + cfg.mlen ≤ cfg.minFree) (key : Option K) :
    BehavesLikeMap (Oml.impl cfg key : Impl K V) := by
  intro ops
  obtain ⟨N, outs, s', m', h1, h2, -⟩ := (Oml.callsOk hr hmf key).run ops
  exact ⟨N, outs, s', m', h1, h2⟩

example : BehavesLikeMap (Oml.impl (fixCfg false) none : Impl Nat Nat) :=
  C02_oml_sequential _ 8 (fixCfg_roomy _) (by simp [fixCfg, Cfg.maxPayLen, Cfg.mlen]) _
example : BehavesLikeMap (Oml.impl (varCfg false) (some 3) : Impl Nat Nat) :=
  C02_oml_sequential _ 108 (varCfg_roomy _) (by simp [varCfg, Cfg.maxPayLen, Cfg.mlen]) _

/-- C03 (both layouts). -/
theorem C03_psl_sequential (cfg : Cfg K) (L : Nat) (hr : Roomy cfg L) (hb : cfg.blink = true) :
    BehavesLikeMap (Psl.impl cfg : Impl K V) := by
  intro ops
  obtain ⟨N, outs, s', m', h1, h2, -⟩ := (Psl.callsOk hr hb).run ops
  exact ⟨N, outs, s', m', h1, h2⟩

example : BehavesLikeMap (Psl.impl (fixCfg true) : Impl Nat Nat) :=
  C03_psl_sequential _ 8 (fixCfg_roomy _) rfl
example : BehavesLikeMap (Psl.impl (varCfg true) : Impl Nat Nat) :=
  C03_psl_sequential _ 108 (varCfg_roomy _) rfl

/-- C04 (both layouts). -/
theorem C04_osl_sequential (cfg : Cfg K) (L : Nat) (hr : Roomy cfg L) (hb : cfg.blink = true) (key : Option K) :
    BehavesLikeMap (Osl.impl cfg key : Impl K V) := by
  intro ops
  obtain ⟨N, outs, s', m', h1, h2, -⟩ := (Osl.callsOk hr hb key).run ops
  exact ⟨N, outs, s', m', h1, h2⟩

example : BehavesLikeMap (Osl.impl (fixCfg true) none : Impl Nat Nat) :=
  C04_osl_sequential _ 8 (fixCfg_roomy _) rfl _
example : BehavesLikeMap (Osl.impl (varCfg true) (some 3) : Impl Nat Nat) :=
  C04_osl_sequential _ 108 (varCfg_roomy _) rfl _

end BT
