import Verif.Oml

/-!
# More fuel never changes a result of OML (and of the optimistic iterator)
-/

set_option linter.unusedSectionVars false

namespace BT
variable {K V : Type} [LinearOrder K]

theorem checkKeyRange_mono (k : K) (p : Ptr) : Mono (fun f => (checkKeyRange k f p : M K V Ptr)) := by
  intro a
  induction a generalizing p with
  | zero => intro b _; exact Le.fuel _
  | succ a ih =>
    intro b hb
    obtain ⟨b, rfl⟩ : ∃ c, b = c + 1 := ⟨b - 1, by omega⟩
    have h := fun p => ih p b (by omega)
    dsimp only at h ⊢
    unfold checkKeyRange
    le_prog [h]

theorem oreset_mono (key : Option K) (it : OIter K V) : Mono (fun f => (OIter.reset f key it : M K V _)) := by
  intro a b hab
  have h := fun k p => (checkKeyRange_mono (K := K) (V := V) k p : Mono _) a b hab
  dsimp only at h ⊢
  unfold OIter.reset
  le_prog [h]

theorem ohasRecord_mono (key : Option K) (it : OIter K V) : Mono (fun f => (OIter.hasRecord f key it : M K V _)) := by
  intro a
  induction a generalizing key it with
  | zero => intro b _; exact Le.fuel _
  | succ a ih =>
    intro b hb
    obtain ⟨b, rfl⟩ : ∃ c, b = c + 1 := ⟨b - 1, by omega⟩
    have h := fun key it => ih key it b (by omega)
    have h2 := fun key it => (oreset_mono (K := K) (V := V) key it : Mono _) a b (by omega)
    dsimp only at h h2 ⊢
    unfold OIter.hasRecord
    le_prog [h, h2]

theorem ocollect_mono (key : Option K) (it : OIter K V) : Mono (fun f => (OIter.collect f key it : M K V _)) := by
  intro a
  induction a generalizing key it with
  | zero => intro b _; exact Le.fuel _
  | succ a ih =>
    intro b hb
    obtain ⟨b, rfl⟩ : ∃ c, b = c + 1 := ⟨b - 1, by omega⟩
    have h := fun key it => ih key it b (by omega)
    have h2 : Le (OIter.hasRecord (a + 1) key it : M K V _) (OIter.hasRecord (b + 1) key it) :=
      ohasRecord_mono key it _ _ hb
    dsimp only at h ⊢
    unfold OIter.collect
    le_prog [h, h2]

theorem oscanFrom_mono (key : Option K) (b e : ScanKey K) (p : Ptr) :
    Mono (fun f => (oscanFrom f key b e p : M K V _)) := by
  intro x y hxy
  have h := fun key it => (ocollect_mono (K := K) (V := V) key it : Mono _) x y hxy
  have h2 := fun key it => (oreset_mono (K := K) (V := V) key it : Mono _) x y hxy
  dsimp only at h h2 ⊢
  unfold oscanFrom OIter.make
  le_prog [h, h2]

theorem Oml.getRootForWrite_mono (cfg : Cfg K) (k : K) : Mono (Oml.getRootForWrite cfg k : Nat → M K V Ptr) := by
  intro a
  induction a with
  | zero => intro b _; exact Le.fuel _
  | succ a ih =>
    intro b hb
    obtain ⟨b, rfl⟩ : ∃ c, b = c + 1 := ⟨b - 1, by omega⟩
    have := ih b (by omega)
    unfold Oml.getRootForWrite
    le_prog []

theorem Oml.descendForWrite_mono (cfg : Cfg K) (k : K) (p : Ptr) :
    Mono (fun f => (Oml.descendForWrite cfg k f p : M K V Ptr)) := by
  intro a
  induction a generalizing p with
  | zero => intro b _; exact Le.fuel _
  | succ a ih =>
    intro b hb
    obtain ⟨b, rfl⟩ : ∃ c, b = c + 1 := ⟨b - 1, by omega⟩
    have h := fun p => ih p b (by omega)
    have h2 := (Oml.getRootForWrite_mono (K := K) (V := V) cfg k) (a + 1) (b + 1) hb
    dsimp only at h ⊢
    unfold Oml.descendForWrite
    le_prog [h, h2]

theorem Oml.descendForRead_mono (k : K) (p : Ptr) : Mono (fun f => (Oml.descendForRead k f p : M K V Ptr)) := by
  intro a
  induction a generalizing p with
  | zero => intro b _; exact Le.fuel _
  | succ a ih =>
    intro b hb
    obtain ⟨b, rfl⟩ : ∃ c, b = c + 1 := ⟨b - 1, by omega⟩
    have h := fun p => ih p b (by omega)
    dsimp only at h ⊢
    unfold Oml.descendForRead
    le_prog [h]

theorem Oml.descendLeft_mono (p : Ptr) : Mono (fun f => (Oml.descendLeft f p : M K V Ptr)) := by
  intro a
  induction a generalizing p with
  | zero => intro b _; exact Le.fuel _
  | succ a ih =>
    intro b hb
    obtain ⟨b, rfl⟩ : ∃ c, b = c + 1 := ⟨b - 1, by omega⟩
    have h := fun p => ih p b (by omega)
    dsimp only at h ⊢
    unfold Oml.descendLeft
    le_prog [h]

theorem Oml.search_mono (cfg : Cfg K) (k : K) : Mono (fun f => (Oml.searchLeafForWrite cfg f k : M K V Ptr)) := by
  intro a b hab
  have h1 := (Oml.getRootForWrite_mono (K := K) (V := V) cfg k) a b hab
  have h2 := fun p => (Oml.descendForWrite_mono (V := V) cfg k p : Mono _) a b hab
  dsimp only at h2 ⊢
  unfold Oml.searchLeafForWrite
  le_prog [h1, h2]

theorem Oml.write_mono (cfg : Cfg K) (k : K) (v : V) : Mono (Oml.write cfg k v) := by
  intro a
  induction a with
  | zero => intro b _; exact Le.fuel _
  | succ a ih =>
    intro b hb
    obtain ⟨b, rfl⟩ : ∃ c, b = c + 1 := ⟨b - 1, by omega⟩
    have := ih b (by omega)
    have h1 := (Oml.search_mono (V := V) cfg k : Mono _) (a + 1) (b + 1) hb
    have h2 := fun p => (checkKeyRange_mono (K := K) (V := V) k p : Mono _) (a + 1) (b + 1) hb
    dsimp only at h1 h2
    unfold Oml.write
    le_prog [h1, h2]

theorem Oml.insert_mono (cfg : Cfg K) (k : K) (v : V) : Mono (Oml.insert cfg k v) := by
  intro a
  induction a with
  | zero => intro b _; exact Le.fuel _
  | succ a ih =>
    intro b hb
    obtain ⟨b, rfl⟩ : ∃ c, b = c + 1 := ⟨b - 1, by omega⟩
    have := ih b (by omega)
    have h1 := (Oml.search_mono (V := V) cfg k : Mono _) (a + 1) (b + 1) hb
    have h2 := fun p => (checkKeyRange_mono (K := K) (V := V) k p : Mono _) (a + 1) (b + 1) hb
    dsimp only at h1 h2
    unfold Oml.insert
    le_prog [h1, h2]

theorem Oml.scan_mono (key : Option K) (b e : ScanKey K) : Mono (fun f => (Oml.scan key f b e : M K V _)) := by
  intro x y hxy
  have h1 := fun k p => (Oml.descendForRead_mono (K := K) (V := V) k p : Mono _) x y hxy
  have h2 := fun p => (Oml.descendLeft_mono (K := K) (V := V) p : Mono _) x y hxy
  have h3 := fun p => (oscanFrom_mono (V := V) key b e p : Mono _) x y hxy
  dsimp only [Oml.scan] at h1 h2 h3 ⊢
  le_prog [h1, h2, h3]

theorem Oml.fuelOk (cfg : Cfg K) (key : Option K) : (Oml.impl cfg key : Impl K V).FuelOk where
  read k := by
    intro a b hab
    have h := fun p => (Oml.descendForRead_mono (V := V) k p : Mono _) a b hab
    have h2 := fun p => (checkKeyRange_mono (K := K) (V := V) k p : Mono _) a b hab
    dsimp only [Oml.impl, Oml.read] at h h2 ⊢
    le_prog [h, h2]
  write k v := Oml.write_mono cfg k v
  insert k v := Oml.insert_mono cfg k v
  update k v := by
    intro a b hab
    have h := (Oml.search_mono (V := V) cfg k : Mono _) a b hab
    have h2 := fun p => (checkKeyRange_mono (K := K) (V := V) k p : Mono _) a b hab
    dsimp only [Oml.impl, Oml.update] at h h2 ⊢
    le_prog [h, h2]
  delete k := by
    intro a b hab
    have h := (Oml.search_mono (V := V) cfg k : Mono _) a b hab
    have h2 := fun p => (checkKeyRange_mono (K := K) (V := V) k p : Mono _) a b hab
    dsimp only [Oml.impl, Oml.delete] at h h2 ⊢
    le_prog [h, h2]
  scan b e := Oml.scan_mono key b e

end BT
