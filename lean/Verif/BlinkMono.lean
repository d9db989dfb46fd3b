import Verif.Psl
import Verif.Osl
import Verif.OmlMono

/-!
# More fuel never changes a result of PSL or OSL
-/

set_option linter.unusedSectionVars false

namespace BT
variable {K V : Type} [LinearOrder K]

theorem Blink.searchParentNode_mono (k : K) (t : Ptr) (st : List Ptr) (p : Ptr) :
    Mono (fun f => (Blink.searchParentNode k t f st p : M K V _)) := by
  intro a
  induction a generalizing p st with
  | zero => intro b _; exact Le.fuel _
  | succ a ih =>
    intro b hb
    obtain ⟨b, rfl⟩ : ∃ c, b = c + 1 := ⟨b - 1, by omega⟩
    have h := fun st p => ih st p b (by omega)
    have h2 := fun p => (checkKeyRange_mono (K := K) (V := V) k p : Mono _) (a + 1) (b + 1) hb
    dsimp only at h h2 ⊢
    unfold Blink.searchParentNode
    le_prog [h, h2]

theorem Blink.completeSplit_mono (cfg : Cfg K) (st : List Ptr) (node : Option Ptr) (l r : Ptr) (k : K) :
    Mono (fun f => (Blink.completeSplit cfg f st node l r k : M K V _)) := by
  intro a
  induction a generalizing st node l r k with
  | zero => intro b _; exact Le.fuel _
  | succ a ih =>
    intro b hb
    obtain ⟨b, rfl⟩ : ∃ c, b = c + 1 := ⟨b - 1, by omega⟩
    have h := fun st node l r k => ih st node l r k b (by omega)
    have h2 := fun k p => (checkKeyRange_mono (K := K) (V := V) k p : Mono _) (a + 1) (b + 1) hb
    have h3 := fun k t st p => (Blink.searchParentNode_mono (K := K) (V := V) k t st p : Mono _) (a + 1) (b + 1) hb
    dsimp only at h h2 h3 ⊢
    unfold Blink.completeSplit
    le_prog [h, h2, h3]

theorem Blink.shrinkLoop_mono (p : Ptr) : Mono (fun f => (Blink.shrinkLoop f p : M K V _)) := by
  intro a
  induction a generalizing p with
  | zero => intro b _; exact Le.fuel _
  | succ a ih =>
    intro b hb
    obtain ⟨b, rfl⟩ : ∃ c, b = c + 1 := ⟨b - 1, by omega⟩
    have h := fun p => ih p b (by omega)
    dsimp only at h ⊢
    unfold Blink.shrinkLoop
    le_prog [h]

theorem Blink.tryShrinkTree_mono (p : Ptr) : Mono (fun f => (Blink.tryShrinkTree f p : M K V _)) := by
  intro a b hab
  have h := fun p => (Blink.shrinkLoop_mono (K := K) (V := V) p : Mono _) a b hab
  dsimp only [Blink.tryShrinkTree] at h ⊢
  le_prog [h]

theorem Blink.mergeLoop_mono (cfg : Cfg K) (st : List Ptr) (node : Option Ptr) (l : Ptr) :
    Mono (fun f => (Blink.mergeLoop cfg f st node l : M K V _)) := by
  intro a
  induction a generalizing st node l with
  | zero => intro b _; exact Le.fuel _
  | succ a ih =>
    intro b hb
    obtain ⟨b, rfl⟩ : ∃ c, b = c + 1 := ⟨b - 1, by omega⟩
    have h := fun st node l => ih st node l b (by omega)
    have h2 := fun k p => (checkKeyRange_mono (K := K) (V := V) k p : Mono _) (a + 1) (b + 1) hb
    have h3 := fun k t st p => (Blink.searchParentNode_mono (K := K) (V := V) k t st p : Mono _) (a + 1) (b + 1) hb
    have h4 := fun p => (Blink.tryShrinkTree_mono (K := K) (V := V) p : Mono _) (a + 1) (b + 1) hb
    dsimp only at h h2 h3 h4 ⊢
    unfold Blink.mergeLoop
    le_prog [h, h2, h3, h4]

theorem Psl.descendForRead_mono (k : K) (p : Ptr) : Mono (fun f => (Psl.descendForRead k f p : M K V Ptr)) := by
  intro a
  induction a generalizing p with
  | zero => intro b _; exact Le.fuel _
  | succ a ih =>
    intro b hb
    obtain ⟨b, rfl⟩ : ∃ c, b = c + 1 := ⟨b - 1, by omega⟩
    have h := fun p => ih p b (by omega)
    have h2 := fun p => (checkKeyRange_mono (K := K) (V := V) k p : Mono _) (a + 1) (b + 1) hb
    dsimp only at h h2 ⊢
    unfold Psl.descendForRead
    le_prog [h, h2]

theorem Psl.descendForWrite_mono (k : K) (st : List Ptr) (p : Ptr) :
    Mono (fun f => (Psl.descendForWrite k f st p : M K V _)) := by
  intro a
  induction a generalizing p st with
  | zero => intro b _; exact Le.fuel _
  | succ a ih =>
    intro b hb
    obtain ⟨b, rfl⟩ : ∃ c, b = c + 1 := ⟨b - 1, by omega⟩
    have h := fun st p => ih st p b (by omega)
    have h2 := fun p => (checkKeyRange_mono (K := K) (V := V) k p : Mono _) (a + 1) (b + 1) hb
    dsimp only at h h2 ⊢
    unfold Psl.descendForWrite
    le_prog [h, h2]

theorem Psl.search_mono (k : K) : Mono (fun f => (Psl.searchLeafForWrite f k : M K V _)) := by
  intro a b hab
  have h2 := fun st p => (Psl.descendForWrite_mono (V := V) k st p : Mono _) a b hab
  dsimp only at h2 ⊢
  unfold Psl.searchLeafForWrite
  le_prog [h2]

theorem Psl.fuelOk (cfg : Cfg K) : (Psl.impl cfg : Impl K V).FuelOk where
  read k := by
    intro a b hab
    have h := fun p => (Psl.descendForRead_mono (V := V) k p : Mono _) a b hab
    dsimp only [Psl.impl, Psl.read] at h ⊢
    le_prog [h]
  write k v := by
    intro a b hab
    have h := (Psl.search_mono (V := V) k : Mono _) a b hab
    have h2 := fun st n l r k => (Blink.completeSplit_mono (V := V) cfg st n l r k : Mono _) a b hab
    dsimp only [Psl.impl, Psl.write] at h h2 ⊢
    le_prog [h, h2]
  insert k v := by
    intro a b hab
    have h := (Psl.search_mono (V := V) k : Mono _) a b hab
    have h2 := fun st n l r k => (Blink.completeSplit_mono (V := V) cfg st n l r k : Mono _) a b hab
    dsimp only [Psl.impl, Psl.insert] at h h2 ⊢
    le_prog [h, h2]
  update k v := by
    intro a b hab
    have h := (Psl.search_mono (V := V) k : Mono _) a b hab
    dsimp only [Psl.impl, Psl.update] at h ⊢
    le_prog [h]
  delete k := by
    intro a b hab
    have h := (Psl.search_mono (V := V) k : Mono _) a b hab
    have h2 := fun st n l => (Blink.mergeLoop_mono (V := V) cfg st n l : Mono _) a b hab
    dsimp only [Psl.impl, Psl.delete] at h h2 ⊢
    le_prog [h, h2]
  scan b e := by
    intro x y hxy
    have h1 := fun k p => (Psl.descendForRead_mono (K := K) (V := V) k p : Mono _) x y hxy
    have h2 := fun p => (Oml.descendLeft_mono (K := K) (V := V) p : Mono _) x y hxy
    have h3 := fun p => (scanFrom_mono (V := V) b e p : Mono _) x y hxy
    dsimp only [Psl.impl, Psl.scan, Psl.descendLeft] at h1 h2 h3 ⊢
    le_prog [h1, h2, h3]

theorem Osl.descend_mono (k : K) (p : Ptr) : Mono (fun f => (Osl.descend k f p : M K V Ptr)) := by
  intro a
  induction a generalizing p with
  | zero => intro b _; exact Le.fuel _
  | succ a ih =>
    intro b hb
    obtain ⟨b, rfl⟩ : ∃ c, b = c + 1 := ⟨b - 1, by omega⟩
    have h := fun p => ih p b (by omega)
    have h2 := fun p => (checkKeyRange_mono (K := K) (V := V) k p : Mono _) (a + 1) (b + 1) hb
    dsimp only at h h2 ⊢
    unfold Osl.descend
    le_prog [h, h2]

theorem Osl.descendForWrite_mono (k : K) (st : List Ptr) (p : Ptr) :
    Mono (fun f => (Osl.descendForWrite k f st p : M K V _)) := by
  intro a
  induction a generalizing p st with
  | zero => intro b _; exact Le.fuel _
  | succ a ih =>
    intro b hb
    obtain ⟨b, rfl⟩ : ∃ c, b = c + 1 := ⟨b - 1, by omega⟩
    have h := fun st p => ih st p b (by omega)
    have h2 := fun p => (checkKeyRange_mono (K := K) (V := V) k p : Mono _) (a + 1) (b + 1) hb
    dsimp only at h h2 ⊢
    unfold Osl.descendForWrite
    le_prog [h, h2]

theorem Osl.search_mono (k : K) : Mono (fun f => (Osl.searchLeafForWrite f k : M K V _)) := by
  intro a b hab
  have h := fun p => (checkKeyRange_mono (K := K) (V := V) k p : Mono _) a b hab
  have h2 := fun st p => (Osl.descendForWrite_mono (V := V) k st p : Mono _) a b hab
  dsimp only at h h2 ⊢
  unfold Osl.searchLeafForWrite
  le_prog [h, h2]

theorem Osl.fuelOk (cfg : Cfg K) (key : Option K) : (Osl.impl cfg key : Impl K V).FuelOk where
  read k := by
    intro a b hab
    have h := fun p => (Osl.descend_mono (V := V) k p : Mono _) a b hab
    have h2 := fun p => (checkKeyRange_mono (K := K) (V := V) k p : Mono _) a b hab
    dsimp only [Osl.impl, Osl.read] at h h2 ⊢
    le_prog [h, h2]
  write k v := by
    intro a b hab
    have h := (Osl.search_mono (V := V) k : Mono _) a b hab
    have h2 := fun st n l r k => (Blink.completeSplit_mono (V := V) cfg st n l r k : Mono _) a b hab
    dsimp only [Osl.impl, Osl.write, Osl.splitAndInsert] at h h2 ⊢
    le_prog [h, h2]
  insert k v := by
    intro a b hab
    have h := (Osl.search_mono (V := V) k : Mono _) a b hab
    have h2 := fun st n l r k => (Blink.completeSplit_mono (V := V) cfg st n l r k : Mono _) a b hab
    dsimp only [Osl.impl, Osl.insert, Osl.splitAndInsert] at h h2 ⊢
    le_prog [h, h2]
  update k v := by
    intro a b hab
    have h := fun p => (Osl.descend_mono (V := V) k p : Mono _) a b hab
    have h2 := fun p => (checkKeyRange_mono (K := K) (V := V) k p : Mono _) a b hab
    dsimp only [Osl.impl, Osl.update] at h h2 ⊢
    le_prog [h, h2]
  delete k := by
    intro a b hab
    have h := (Osl.search_mono (V := V) k : Mono _) a b hab
    have h2 := fun st n l => (Blink.mergeLoop_mono (V := V) cfg st n l : Mono _) a b hab
    dsimp only [Osl.impl, Osl.delete] at h h2 ⊢
    le_prog [h, h2]
  scan b e := by
    intro x y hxy
    have h1 := fun k p => (Osl.descend_mono (K := K) (V := V) k p : Mono _) x y hxy
    have h2 := fun p => (Oml.descendLeft_mono (K := K) (V := V) p : Mono _) x y hxy
    have h3 := fun p => (oscanFrom_mono (V := V) key b e p : Mono _) x y hxy
    dsimp only [Osl.impl, Osl.scan, Osl.descendLeft] at h1 h2 h3 ⊢
    le_prog [h1, h2, h3]

end BT
