import Verif.Impl
import Verif.ScanOk

/-!
# PML: every call keeps the invariant and answers as the map does
-/

set_option linter.unusedSectionVars false

namespace BT
variable {K V : Type} [LinearOrder K] {cfg : Cfg K} {L : Nat}

/-- The tree invariant, tied to the abstract contents. -/
def Inv (cfg : Cfg K) (s : St K V) (m : Map K V) : Prop :=
  ∃ H gr, Good cfg s H gr ∧ m = mapOf (contents s gr)

theorem inv_init (cfg : Cfg K) : Inv cfg (initSt : St K V) Spec.empty := by
  refine ⟨0, fun _ => [(0, [])], ⟨⟨⟨[], rfl⟩, ?_, by omega, by omega, ?_, ?_⟩, ?_⟩, ?_⟩
  · intro i hi
    obtain rfl : i = 0 := by omega
    refine ⟨Node.emptyLeaf, by simp [initSt], ⟨?_, ?_⟩, ?_⟩
    · simpa using emptyLeaf_ok cfg
    · simp [Node.emptyLeaf]
    · simp [Chain, Node.emptyLeaf]
  · intro p
    simp only [initSt]
    constructor
    · intro h
      refine ⟨0, le_refl _, ?_⟩
      by_cases hp : p = 0
      · simp [flat, hp]
      · simp [hp] at h
    · rintro ⟨i, -, h⟩
      simp [flat] at h
      simp [h]
  · intro p h
    simp only [initSt] at h ⊢
    by_cases hp : p = 0
    · subst hp; exact Nat.zero_lt_one
    · simp [hp] at h
  · intro i _ g hg
    simp at hg
    simp [hg]
  · funext k
    simp [contents, flat, pairsOf, initSt, Node.emptyLeaf, mapOf, Spec.empty]

/-- What an entry point of any variant has to do, in terms of the ghost invariant. -/
structure CallsOk (I : Impl K V) (cfg : Cfg K) : Prop where
  fuelOk : I.FuelOk
  read : ∀ {s H gr}, Good cfg s H gr → ∀ k, ∃ fuel, I.read fuel k s = .ok (mapOf (contents s gr) k, s)
  write : ∀ {s H gr}, Good cfg s H gr → ∀ k v, ∃ fuel s' H' gr', I.write fuel k v s = .ok (.success, s') ∧
    Good cfg s' H' gr' ∧ mapOf (contents s' gr') = Spec.set (mapOf (contents s gr)) k (some v)
  insert : ∀ {s H gr}, Good cfg s H gr → ∀ k v, ∃ fuel rc s' H' gr', I.insert fuel k v s = .ok (rc, s') ∧
    Good cfg s' H' gr' ∧
    ((mapOf (contents s gr) k = none ∧ rc = .success ∧
        mapOf (contents s' gr') = Spec.set (mapOf (contents s gr)) k (some v)) ∨
     (mapOf (contents s gr) k ≠ none ∧ rc = .keyExist ∧ mapOf (contents s' gr') = mapOf (contents s gr)))
  update : ∀ {s H gr}, Good cfg s H gr → ∀ k v, ∃ fuel rc s' H' gr', I.update fuel k v s = .ok (rc, s') ∧
    Good cfg s' H' gr' ∧
    ((mapOf (contents s gr) k ≠ none ∧ rc = .success ∧
        mapOf (contents s' gr') = Spec.set (mapOf (contents s gr)) k (some v)) ∨
     (mapOf (contents s gr) k = none ∧ rc = .keyNotExist ∧ mapOf (contents s' gr') = mapOf (contents s gr)))
  delete : ∀ {s H gr}, Good cfg s H gr → ∀ k, ∃ fuel rc s' H' gr', I.delete fuel k s = .ok (rc, s') ∧
    Good cfg s' H' gr' ∧
    ((mapOf (contents s gr) k ≠ none ∧ rc = .success ∧
        mapOf (contents s' gr') = Spec.set (mapOf (contents s gr)) k none) ∨
     (mapOf (contents s gr) k = none ∧ rc = .keyNotExist ∧ mapOf (contents s' gr') = mapOf (contents s gr)))
  scan : ∀ {s H gr}, Good cfg s H gr → ∀ b e, ∃ fuel l, I.scan fuel b e s = .ok (l, s) ∧
    Spec.IsScan (mapOf (contents s gr)) b e l

theorem CallsOk.stepOk {I : Impl K V} (h : CallsOk I cfg) : I.StepOk (Inv cfg) := by
  rintro s m op ⟨H, gr, g, rfl⟩
  cases op with
  | read k =>
    obtain ⟨fuel, h1⟩ := h.read g k
    exact ⟨fuel, _, _, _, by rw [Impl.exec, M.bind_ok h1]; rfl, .read k, H, gr, g, rfl⟩
  | write k v =>
    obtain ⟨fuel, s', H', gr', h1, h2, h3⟩ := h.write g k v
    exact ⟨fuel, _, s', _, by rw [Impl.exec, M.bind_ok h1]; rfl, .write k v, H', gr', h2, h3.symm⟩
  | insert k v =>
    obtain ⟨fuel, rc, s', H', gr', h1, h2, h3⟩ := h.insert g k v
    rcases h3 with ⟨h3, rfl, h4⟩ | ⟨h3, rfl, h4⟩
    · exact ⟨fuel, _, s', _, by rw [Impl.exec, M.bind_ok h1]; rfl, .insertNew k v h3, H', gr', h2, h4.symm⟩
    · exact ⟨fuel, _, s', _, by rw [Impl.exec, M.bind_ok h1]; rfl, .insertOld k v h3, H', gr', h2, h4.symm⟩
  | update k v =>
    obtain ⟨fuel, rc, s', H', gr', h1, h2, h3⟩ := h.update g k v
    rcases h3 with ⟨h3, rfl, h4⟩ | ⟨h3, rfl, h4⟩
    · exact ⟨fuel, _, s', _, by rw [Impl.exec, M.bind_ok h1]; rfl, .updateOld k v h3, H', gr', h2, h4.symm⟩
    · exact ⟨fuel, _, s', _, by rw [Impl.exec, M.bind_ok h1]; rfl, .updateNew k v h3, H', gr', h2, h4.symm⟩
  | delete k =>
    obtain ⟨fuel, rc, s', H', gr', h1, h2, h3⟩ := h.delete g k
    rcases h3 with ⟨h3, rfl, h4⟩ | ⟨h3, rfl, h4⟩
    · exact ⟨fuel, _, s', _, by rw [Impl.exec, M.bind_ok h1]; rfl, .deleteOld k h3, H', gr', h2, h4.symm⟩
    · exact ⟨fuel, _, s', _, by rw [Impl.exec, M.bind_ok h1]; rfl, .deleteNew k h3, H', gr', h2, h4.symm⟩
  | scan b e =>
    obtain ⟨fuel, l, h1, h2⟩ := h.scan g b e
    exact ⟨fuel, _, _, _, by rw [Impl.exec, M.bind_ok h1]; rfl, .scan b e l h2, H, gr, g, rfl⟩

theorem Pml.callsOk (hr : Roomy cfg L) (hmf : L + cfg.maxPayLen + cfg.mlen ≤ cfg.minFree) :
    CallsOk (Pml.impl cfg : Impl K V) cfg where
  fuelOk := Pml.fuelOk cfg
  read := fun {_ H _} g k => ⟨H + 1, Pml.read_ok g k (le_refl _)⟩
  write := fun {_ H _} g k v => ⟨H + 1, Pml.write_ok hr hmf g k v (le_refl _)⟩
  insert := fun {_ H _} g k v => ⟨H + 1, Pml.insert_ok hr hmf g k v (le_refl _)⟩
  update := fun {_ H _} g k v => ⟨H + 1, Pml.update_ok hr hmf g k v (le_refl _)⟩
  delete := fun {_ H _} g k => ⟨H + 1, Pml.delete_ok hr hmf g k (le_refl _)⟩
  scan := fun {s H gr} g b e => ⟨max (H + 1) ((flat (gr 0)).length + (contents s gr).length + 1),
    Pml.scan_ok g b e (le_max_left _ _) (le_max_right _ _)⟩

/-- The refinement theorem for any variant. -/
theorem CallsOk.run {I : Impl K V} (h : CallsOk I cfg) (ops : List (Op K V)) :
    ∃ N outs s' m', (∀ fuel, N ≤ fuel → I.run fuel ops initSt = .ok (outs, s')) ∧
      Spec.Run Spec.empty ops outs m' ∧ Inv cfg s' m' :=
  Impl.run_ok h.fuelOk h.stepOk ops initSt Spec.empty (inv_init cfg)

end BT
