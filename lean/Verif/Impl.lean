import Verif.Scan

/-!
# Running a sequence of API calls against one variant, and fuel

`Impl` collects the six entry points of a variant; `Impl.run` executes a list of calls one after the other,
starting from a given memory.
-/

set_option linter.unusedSectionVars false

namespace BT
variable {K V : Type} [LinearOrder K]

/-- The entry points of one variant (`b_tree.hpp` of the variant), each with a fuel argument. -/
structure Impl (K V : Type) where
  read : Nat → K → M K V (Option V)
  write : Nat → K → V → M K V RC
  insert : Nat → K → V → M K V RC
  update : Nat → K → V → M K V RC
  delete : Nat → K → M K V RC
  scan : Nat → ScanKey K → ScanKey K → M K V (List (K × V))

/-- One API call. -/
def Impl.exec (I : Impl K V) (fuel : Nat) : Op K V → M K V (Out K V)
  | .read k => do let r ← I.read fuel k; return .payload r
  | .write k v => do let r ← I.write fuel k v; return .code r
  | .insert k v => do let r ← I.insert fuel k v; return .code r
  | .update k v => do let r ← I.update fuel k v; return .code r
  | .delete k => do let r ← I.delete fuel k; return .code r
  | .scan b e => do let r ← I.scan fuel b e; return .recs r

/-- A sequence of API calls. -/
def Impl.run (I : Impl K V) (fuel : Nat) : List (Op K V) → M K V (List (Out K V))
  | [] => return []
  | op :: ops => do
    let o ← I.exec fuel op
    let os ← I.run fuel ops
    return o :: os

/-! ## More fuel never changes a result -/

/-- `m'` returns whatever `m` returns. -/
structure Le {α : Type} (m m' : M K V α) : Prop where
  le : ∀ s r, m s = .ok r → m' s = .ok r

theorem Le.refl {α : Type} (m : M K V α) : Le m m := ⟨fun _ _ h => h⟩

theorem Le.fuel {α : Type} (m : M K V α) : Le (M.outOfFuel : M K V α) m := ⟨fun _ _ h => by cases h⟩

theorem Le.bind {α β : Type} {m m' : M K V α} {f f' : α → M K V β} (h : Le m m') (hf : ∀ a, Le (f a) (f' a)) :
    Le (m >>= f) (m' >>= f') := by
  refine ⟨fun s r hr => ?_⟩
  rw [M.bind_run] at hr ⊢
  cases hm : m s with
  | ok x =>
    obtain ⟨a, s'⟩ := x
    rw [hm] at hr
    rw [h.le s _ hm]
    exact (hf a).le s' r hr
  | ub => rw [hm] at hr; cases hr
  | fuel => rw [hm] at hr; cases hr

/-- More fuel, same result. -/
def Mono {α : Type} (f : Nat → M K V α) : Prop := ∀ a b, a ≤ b → Le (f a) (f b)

/-- Closes `Le` goals along the structure of a program, with the given facts about its parts. -/
syntax "le_prog" "[" term,* "]" : tactic
macro_rules
  | `(tactic| le_prog [$[$ts:term],*]) => do
    let alts ← ts.mapM fun t => `(tactic| with_reducible apply $t)
    `(tactic| repeat' (first
      | with_reducible exact Le.refl _
      | with_reducible assumption
      $[| $alts:tactic]*
      | with_reducible apply Le.bind
      | intro _
      | split))

theorem Pml.shrinkTree_mono : Mono (Pml.shrinkTree : Nat → M K V Unit) := by
  intro a
  induction a with
  | zero => intro b _; exact Le.fuel _
  | succ a ih =>
    intro b hb
    obtain ⟨b, rfl⟩ : ∃ c, b = c + 1 := ⟨b - 1, by omega⟩
    have := ih b (by omega)
    unfold Pml.shrinkTree
    le_prog []

theorem Pml.descendForRead_mono (k : K) (p : Ptr) : Mono (fun f => (Pml.descendForRead k f p : M K V Ptr)) := by
  intro a
  induction a generalizing p with
  | zero => intro b _; exact Le.fuel _
  | succ a ih =>
    intro b hb
    obtain ⟨b, rfl⟩ : ∃ c, b = c + 1 := ⟨b - 1, by omega⟩
    have h := fun p => ih p b (by omega)
    dsimp only at h ⊢
    unfold Pml.descendForRead
    le_prog [h]

theorem Pml.descendLeft_mono (p : Ptr) : Mono (fun f => (Pml.descendLeft f p : M K V Ptr)) := by
  intro a
  induction a generalizing p with
  | zero => intro b _; exact Le.fuel _
  | succ a ih =>
    intro b hb
    obtain ⟨b, rfl⟩ : ∃ c, b = c + 1 := ⟨b - 1, by omega⟩
    have h := fun p => ih p b (by omega)
    dsimp only at h ⊢
    unfold Pml.descendLeft
    le_prog [h]

theorem Pml.descendForWrite_mono (cfg : Cfg K) (k : K) (p : Ptr) :
    Mono (fun f => (Pml.descendForWrite cfg k f p : M K V Ptr)) := by
  intro a
  induction a generalizing p with
  | zero => intro b _; exact Le.fuel _
  | succ a ih =>
    intro b hb
    obtain ⟨b, rfl⟩ : ∃ c, b = c + 1 := ⟨b - 1, by omega⟩
    have h := fun p => ih p b (by omega)
    dsimp only at h ⊢
    unfold Pml.descendForWrite
    le_prog [h]

theorem hasRecord_mono (it : Iter K) : Mono (fun f => (hasRecord f it : M K V (Bool × Iter K))) := by
  intro a
  induction a generalizing it with
  | zero => intro b _; exact Le.fuel _
  | succ a ih =>
    intro b hb
    obtain ⟨b, rfl⟩ : ∃ c, b = c + 1 := ⟨b - 1, by omega⟩
    have h := fun p => ih p b (by omega)
    dsimp only at h ⊢
    unfold hasRecord
    le_prog [h]

theorem collect_mono (it : Iter K) : Mono (fun f => (collect f it : M K V (List (K × V)))) := by
  intro a
  induction a generalizing it with
  | zero => intro b _; exact Le.fuel _
  | succ a ih =>
    intro b hb
    obtain ⟨b, rfl⟩ : ∃ c, b = c + 1 := ⟨b - 1, by omega⟩
    have h := fun p => ih p b (by omega)
    have h2 : Le (hasRecord (a + 1) it : M K V _) (hasRecord (b + 1) it) := hasRecord_mono it _ _ hb
    dsimp only at h ⊢
    unfold collect
    le_prog [h, h2]

theorem scanFrom_mono (b e : ScanKey K) (p : Ptr) : Mono (fun f => (scanFrom f b e p : M K V _)) := by
  intro a c hac
  have h := fun it => (collect_mono (K := K) (V := V) it : Mono _) a c hac
  dsimp only at h ⊢
  unfold scanFrom
  le_prog [h]

/-- A variant all of whose entry points only profit from fuel. -/
structure Impl.FuelOk (I : Impl K V) : Prop where
  read : ∀ k, Mono (fun f => I.read f k)
  write : ∀ k v, Mono (fun f => I.write f k v)
  insert : ∀ k v, Mono (fun f => I.insert f k v)
  update : ∀ k v, Mono (fun f => I.update f k v)
  delete : ∀ k, Mono (fun f => I.delete f k)
  scan : ∀ b e, Mono (fun f => I.scan f b e)

theorem Impl.FuelOk.exec {I : Impl K V} (h : I.FuelOk) (op : Op K V) : Mono (fun f => I.exec f op) := by
  intro a b hab
  cases op
  · exact Le.bind (h.read _ a b hab) (fun _ => Le.refl _)
  · exact Le.bind (h.write _ _ a b hab) (fun _ => Le.refl _)
  · exact Le.bind (h.insert _ _ a b hab) (fun _ => Le.refl _)
  · exact Le.bind (h.update _ _ a b hab) (fun _ => Le.refl _)
  · exact Le.bind (h.delete _ a b hab) (fun _ => Le.refl _)
  · exact Le.bind (h.scan _ _ a b hab) (fun _ => Le.refl _)

/-- PML's entry points. -/
def Pml.impl (cfg : Cfg K) : Impl K V where
  read := Pml.read
  write := Pml.write cfg
  insert := Pml.insert cfg
  update := Pml.update cfg
  delete := Pml.delete cfg
  scan := Pml.scan

theorem Pml.search_mono (cfg : Cfg K) (k : K) : Mono (fun f => (Pml.searchLeafForWrite cfg f k : M K V Ptr)) := by
  intro a b hab
  have h1 := (Pml.shrinkTree_mono : Mono (K := K) (V := V) _) a b hab
  have h2 := fun p => (Pml.descendForWrite_mono (V := V) cfg k p : Mono _) a b hab
  dsimp only at h2 ⊢
  unfold Pml.searchLeafForWrite Pml.getRootForWrite
  le_prog [h1, h2]

theorem Pml.fuelOk (cfg : Cfg K) : (Pml.impl cfg : Impl K V).FuelOk where
  read k := by
    intro a b hab
    have h := fun p => (Pml.descendForRead_mono (V := V) k p : Mono _) a b hab
    dsimp only [Pml.impl, Pml.read] at h ⊢
    le_prog [h]
  write k v := by
    intro a b hab
    have h := (Pml.search_mono (V := V) cfg k : Mono _) a b hab
    dsimp only [Pml.impl, Pml.write] at h ⊢
    le_prog [h]
  insert k v := by
    intro a b hab
    have h := (Pml.search_mono (V := V) cfg k : Mono _) a b hab
    dsimp only [Pml.impl, Pml.insert] at h ⊢
    le_prog [h]
  update k v := by
    intro a b hab
    have h := (Pml.search_mono (V := V) cfg k : Mono _) a b hab
    dsimp only [Pml.impl, Pml.update] at h ⊢
    le_prog [h]
  delete k := by
    intro a b hab
    have h := (Pml.search_mono (V := V) cfg k : Mono _) a b hab
    dsimp only [Pml.impl, Pml.delete] at h ⊢
    le_prog [h]
  scan b e := by
    intro x y hxy
    have h1 := fun k p => (Pml.descendForRead_mono (K := K) (V := V) k p : Mono _) x y hxy
    have h2 := fun p => (Pml.descendLeft_mono (K := K) (V := V) p : Mono _) x y hxy
    have h3 := fun p => (scanFrom_mono (V := V) b e p : Mono _) x y hxy
    dsimp only [Pml.impl, Pml.scan] at h1 h2 h3 ⊢
    le_prog [h1, h2, h3]

/-! ## From single calls to sequences -/

/-- Every call from a state satisfying the invariant returns, answers as the map does, and keeps the
invariant. -/
def Impl.StepOk (I : Impl K V) (Inv : St K V → Map K V → Prop) : Prop :=
  ∀ s m op, Inv s m → ∃ fuel out s' m', I.exec fuel op s = .ok (out, s') ∧ Spec.Step m op out m' ∧ Inv s' m'

theorem Impl.run_ok {I : Impl K V} {Inv : St K V → Map K V → Prop} (hf : I.FuelOk) (hs : I.StepOk Inv) :
    ∀ (ops : List (Op K V)) (s : St K V) (m : Map K V), Inv s m →
    ∃ N outs s' m', (∀ fuel, N ≤ fuel → I.run fuel ops s = .ok (outs, s')) ∧ Spec.Run m ops outs m' ∧ Inv s' m' := by
  intro ops
  induction ops with
  | nil => intro s m h; exact ⟨0, [], s, m, fun _ _ => rfl, .nil m, h⟩
  | cons op ops ih =>
    intro s m h
    obtain ⟨f1, out, s1, m1, a1, a2, a3⟩ := hs s m op h
    obtain ⟨N, outs, s2, m2, b1, b2, b3⟩ := ih s1 m1 a3
    refine ⟨max f1 N, out :: outs, s2, m2, ?_, .cons a2 b2, b3⟩
    intro fuel hfu
    have h1 := (hf.exec op f1 fuel (by omega)).le s _ a1
    unfold Impl.run
    rw [M.bind_ok h1, M.bind_ok (b1 fuel (by omega))]
    rfl

end BT
