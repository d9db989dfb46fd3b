import Verif.Variants

/-!
# Pages outside the tree do not matter

`s.plus J` is the memory `s` with additional pages `J` that `s` does not know about (for example pages nobody frees).  Every call
that returns in `s` returns the same in `s.plus J`, and does not touch `J`.
-/

set_option linter.unusedSectionVars false

namespace BT
variable {K V : Type} [LinearOrder K]

/-- the memory with additional pages -/
def St.plus (s : St K V) (J : Heap K V) : St K V := { s with heap := fun p => (s.heap p).or (J p) }

/-- `J` lies outside `s`, below the allocation counter -/
def Apart (J : Heap K V) (s : St K V) : Prop := ∀ p, J p ≠ none → s.heap p = none ∧ p < s.fresh

/-- The program neither sees nor changes additional pages. -/
structure Framed {α : Type} (m : M K V α) : Prop where
  run : ∀ J s a s', Apart J s → m s = .ok (a, s') → m (s.plus J) = .ok (a, s'.plus J) ∧ Apart J s'

theorem Framed.pure {α : Type} (a : α) : Framed (Pure.pure a : M K V α) :=
  ⟨fun J s a s' hd h => by cases h; exact ⟨rfl, hd⟩⟩

theorem Framed.bind {α β : Type} {m : M K V α} {f : α → M K V β} (h : Framed m) (hf : ∀ a, Framed (f a)) :
    Framed (m >>= f) := by
  refine ⟨fun J s b s' hd hr => ?_⟩
  rw [M.bind_run] at hr ⊢
  cases hm : m s with
  | ok x =>
    obtain ⟨a, s1⟩ := x
    rw [hm] at hr
    obtain ⟨h1, h2⟩ := h.run J s a s1 hd hm
    rw [h1]
    exact (hf a).run J s1 b s' h2 hr
  | ub => rw [hm] at hr; cases hr
  | fuel => rw [hm] at hr; cases hr

theorem Framed.outOfFuel {α : Type} : Framed (M.outOfFuel : M K V α) := ⟨fun _ _ _ _ _ h => by cases h⟩
theorem Framed.ub {α : Type} : Framed (M.ub : M K V α) := ⟨fun _ _ _ _ _ h => by cases h⟩

theorem Framed.lift {α : Type} (r : Res α) : Framed (M.lift r : M K V α) := by
  refine ⟨fun J s a s' hd h => ?_⟩
  cases r with
  | ok x => cases h; exact ⟨rfl, hd⟩
  | ub => cases h
  | fuel => cases h

theorem Framed.getRoot : Framed (M.getRoot : M K V Ptr) := ⟨fun J s a s' hd h => by cases h; exact ⟨rfl, hd⟩⟩
theorem Framed.setRoot (p : Ptr) : Framed (M.setRoot p : M K V Unit) :=
  ⟨fun J s a s' hd h => by cases h; exact ⟨rfl, hd⟩⟩

theorem Framed.load (p : Ptr) : Framed (M.load p : M K V (Node K V)) := by
  refine ⟨fun J s a s' hd h => ?_⟩
  unfold M.load at h ⊢
  cases hp : s.heap p with
  | none => rw [hp] at h; cases h
  | some n =>
    rw [hp] at h
    cases h
    refine ⟨?_, hd⟩
    simp [St.plus, hp]

theorem Framed.store (p : Ptr) (n : Node K V) : Framed (M.store p n : M K V Unit) := by
  refine ⟨fun J s a s' hd h => ?_⟩
  unfold M.store at h ⊢
  cases hp : s.heap p with
  | none => rw [hp] at h; cases h
  | some n' =>
    rw [hp] at h
    cases h
    refine ⟨?_, ?_⟩
    · simp only [St.plus, hp, Option.some_or]
      congr 3
      funext q
      by_cases hq : q = p <;> simp [hq]
    · intro q hq
      obtain ⟨h1, h2⟩ := hd q hq
      have : q ≠ p := by rintro rfl; rw [hp] at h1; cases h1
      simp [this, h1, h2]

theorem Framed.free (p : Ptr) : Framed (M.free p : M K V Unit) := by
  refine ⟨fun J s a s' hd h => ?_⟩
  unfold M.free at h ⊢
  cases hp : s.heap p with
  | none => rw [hp] at h; cases h
  | some n' =>
    rw [hp] at h
    cases h
    have hJ : J p = none := by
      by_contra hne
      have := (hd p hne).1
      rw [hp] at this
      cases this
    refine ⟨?_, ?_⟩
    · simp only [St.plus, hp, Option.some_or]
      congr 3
      funext q
      by_cases hq : q = p <;> simp [hq, hJ]
    · intro q hq
      obtain ⟨h1, h2⟩ := hd q hq
      by_cases hqp : q = p <;> simp [hqp, h1, h2]
      rw [← hqp]; exact h2

theorem Framed.alloc (n : Node K V) : Framed (M.alloc n : M K V Ptr) := by
  refine ⟨fun J s a s' hd h => ?_⟩
  unfold M.alloc at h ⊢
  cases h
  refine ⟨?_, ?_⟩
  · simp only [St.plus]
    congr 3
    funext q
    by_cases hq : q = s.fresh <;> simp [hq]
  · intro q hq
    obtain ⟨h1, h2⟩ := hd q hq
    have : q ≠ s.fresh := fun h => Nat.lt_irrefl _ (h ▸ h2)
    exact ⟨by simp [this, h1], Nat.lt_succ_of_lt h2⟩

/-- Closes `Framed` goals along the structure of a program, with the given facts about its parts. -/
syntax "frame_prog" "[" term,* "]" : tactic
macro_rules
  | `(tactic| frame_prog [$[$ts:term],*]) => do
    let alts ← ts.mapM fun t => `(tactic| with_reducible apply $t)
    `(tactic| repeat' (first
      | with_reducible assumption
      $[| $alts:tactic]*
      | with_reducible exact Framed.pure _
      | with_reducible exact Framed.load _
      | with_reducible exact Framed.store _ _
      | with_reducible exact Framed.free _
      | with_reducible exact Framed.alloc _
      | with_reducible exact Framed.lift _
      | with_reducible exact Framed.getRoot
      | with_reducible exact Framed.setRoot _
      | with_reducible exact Framed.ub
      | with_reducible exact Framed.outOfFuel
      | with_reducible apply Framed.bind
      | intro _
      | split))

/-! ## PML and scans -/

theorem Pml.shrinkTree_framed (f : Nat) : Framed (Pml.shrinkTree f : M K V Unit) := by
  induction f with
  | zero => exact Framed.outOfFuel
  | succ f ih => unfold Pml.shrinkTree; frame_prog []

theorem Pml.rootSplit_framed (cfg : Cfg K) (k : K) : Framed (Pml.rootSplit cfg k : M K V Ptr) := by
  unfold Pml.rootSplit; frame_prog []

theorem Pml.split_framed (cfg : Cfg K) (l p : Ptr) (i : Nat) : Framed (Pml.split cfg l p i : M K V Ptr) := by
  unfold Pml.split; frame_prog []

theorem Pml.merge_framed (cfg : Cfg K) (l p : Ptr) (i : Nat) : Framed (Pml.merge cfg l p i : M K V Unit) := by
  unfold Pml.merge; frame_prog []

theorem Pml.descendForWrite_framed (cfg : Cfg K) (k : K) (f : Nat) (p : Ptr) :
    Framed (Pml.descendForWrite cfg k f p : M K V Ptr) := by
  induction f generalizing p with
  | zero => exact Framed.outOfFuel
  | succ f ih => unfold Pml.descendForWrite; frame_prog [ih, Pml.split_framed, Pml.merge_framed]

theorem Pml.search_framed (cfg : Cfg K) (k : K) (f : Nat) : Framed (Pml.searchLeafForWrite cfg f k : M K V Ptr) := by
  unfold Pml.searchLeafForWrite Pml.getRootForWrite
  frame_prog [Pml.descendForWrite_framed, Pml.shrinkTree_framed, Pml.rootSplit_framed]

theorem Pml.descendForRead_framed (k : K) (f : Nat) (p : Ptr) : Framed (Pml.descendForRead k f p : M K V Ptr) := by
  induction f generalizing p with
  | zero => exact Framed.outOfFuel
  | succ f ih => unfold Pml.descendForRead; frame_prog [ih]

theorem Pml.descendLeft_framed (f : Nat) (p : Ptr) : Framed (Pml.descendLeft f p : M K V Ptr) := by
  induction f generalizing p with
  | zero => exact Framed.outOfFuel
  | succ f ih => unfold Pml.descendLeft; frame_prog [ih]

theorem hasRecord_framed (f : Nat) (it : Iter K) : Framed (hasRecord f it : M K V _) := by
  induction f generalizing it with
  | zero => exact Framed.outOfFuel
  | succ f ih => unfold hasRecord; frame_prog [ih]

theorem getRecord_framed (it : Iter K) : Framed (getRecord it : M K V _) := by
  unfold getRecord; frame_prog []

theorem collect_framed (f : Nat) (it : Iter K) : Framed (collect f it : M K V _) := by
  induction f generalizing it with
  | zero => exact Framed.outOfFuel
  | succ f ih => unfold collect; frame_prog [ih, hasRecord_framed, getRecord_framed]

theorem scanFrom_framed (f : Nat) (b e : ScanKey K) (p : Ptr) : Framed (scanFrom f b e p : M K V _) := by
  unfold scanFrom; frame_prog [collect_framed]

/-- All entry points of a variant are framed. -/
structure Impl.FrameOk (I : Impl K V) : Prop where
  read : ∀ f k, Framed (I.read f k)
  write : ∀ f k v, Framed (I.write f k v)
  insert : ∀ f k v, Framed (I.insert f k v)
  update : ∀ f k v, Framed (I.update f k v)
  delete : ∀ f k, Framed (I.delete f k)
  scan : ∀ f b e, Framed (I.scan f b e)

theorem Impl.FrameOk.exec {I : Impl K V} (h : I.FrameOk) (f : Nat) (op : Op K V) : Framed (I.exec f op) := by
  cases op
  · exact Framed.bind (h.read _ _) (fun _ => Framed.pure _)
  · exact Framed.bind (h.write _ _ _) (fun _ => Framed.pure _)
  · exact Framed.bind (h.insert _ _ _) (fun _ => Framed.pure _)
  · exact Framed.bind (h.update _ _ _) (fun _ => Framed.pure _)
  · exact Framed.bind (h.delete _ _) (fun _ => Framed.pure _)
  · exact Framed.bind (h.scan _ _ _) (fun _ => Framed.pure _)

theorem Pml.frameOk (cfg : Cfg K) : (Pml.impl cfg : Impl K V).FrameOk where
  read f k := by dsimp only [Pml.impl, Pml.read]; frame_prog [Pml.descendForRead_framed]
  write f k v := by dsimp only [Pml.impl, Pml.write]; frame_prog [Pml.search_framed]
  insert f k v := by dsimp only [Pml.impl, Pml.insert]; frame_prog [Pml.search_framed]
  update f k v := by dsimp only [Pml.impl, Pml.update]; frame_prog [Pml.search_framed]
  delete f k := by dsimp only [Pml.impl, Pml.delete]; frame_prog [Pml.search_framed]
  scan f b e := by
    dsimp only [Pml.impl, Pml.scan]
    frame_prog [Pml.descendForRead_framed, Pml.descendLeft_framed, scanFrom_framed]

/-! ## Optimistic scans -/

theorem checkKeyRange_framed (k : K) (f : Nat) (p : Ptr) : Framed (checkKeyRange k f p : M K V _) := by
  induction f generalizing p with
  | zero => exact Framed.outOfFuel
  | succ f ih => unfold checkKeyRange; frame_prog [ih]

theorem OIter.reset_framed (f : Nat) (key : Option K) (it : OIter K V) : Framed (OIter.reset f key it : M K V _) := by
  unfold OIter.reset; frame_prog [checkKeyRange_framed]

theorem OIter.hasRecord_framed (f : Nat) (key : Option K) (it : OIter K V) :
    Framed (OIter.hasRecord f key it : M K V _) := by
  induction f generalizing key it with
  | zero => exact Framed.outOfFuel
  | succ f ih => unfold OIter.hasRecord; frame_prog [ih, OIter.reset_framed]

theorem OIter.get_framed (key : Option K) (it : OIter K V) : Framed (OIter.get key it : M K V _) := by
  unfold OIter.get; frame_prog []

theorem OIter.collect_framed (f : Nat) (key : Option K) (it : OIter K V) :
    Framed (OIter.collect f key it : M K V _) := by
  induction f generalizing key it with
  | zero => exact Framed.outOfFuel
  | succ f ih => unfold OIter.collect; frame_prog [ih, OIter.hasRecord_framed, OIter.get_framed]

theorem oscanFrom_framed (f : Nat) (key : Option K) (b e : ScanKey K) (p : Ptr) :
    Framed (oscanFrom f key b e p : M K V _) := by
  unfold oscanFrom OIter.make; frame_prog [OIter.collect_framed, OIter.reset_framed]

/-! ## OML -/

theorem Oml.getRootForWrite_framed (cfg : Cfg K) (k : K) (f : Nat) : Framed (Oml.getRootForWrite cfg k f : M K V _) := by
  induction f with
  | zero => exact Framed.outOfFuel
  | succ f ih => unfold Oml.getRootForWrite; frame_prog [Pml.rootSplit_framed]

theorem Oml.descendForWrite_framed (cfg : Cfg K) (k : K) (f : Nat) (p : Ptr) :
    Framed (Oml.descendForWrite cfg k f p : M K V _) := by
  induction f generalizing p with
  | zero => exact Framed.outOfFuel
  | succ f ih =>
    unfold Oml.descendForWrite Oml.trySplit Oml.tryMerge
    frame_prog [ih, Oml.getRootForWrite_framed, Pml.split_framed, Pml.merge_framed]

theorem Oml.search_framed (cfg : Cfg K) (k : K) (f : Nat) : Framed (Oml.searchLeafForWrite cfg f k : M K V _) := by
  unfold Oml.searchLeafForWrite; frame_prog [Oml.descendForWrite_framed, Oml.getRootForWrite_framed]

theorem Oml.descendForRead_framed (k : K) (f : Nat) (p : Ptr) : Framed (Oml.descendForRead k f p : M K V _) := by
  induction f generalizing p with
  | zero => exact Framed.outOfFuel
  | succ f ih => unfold Oml.descendForRead; frame_prog [ih]

theorem Oml.descendLeft_framed (f : Nat) (p : Ptr) : Framed (Oml.descendLeft f p : M K V _) := by
  induction f generalizing p with
  | zero => exact Framed.outOfFuel
  | succ f ih => unfold Oml.descendLeft; frame_prog [ih]

theorem Oml.write_framed (cfg : Cfg K) (k : K) (v : V) (f : Nat) : Framed (Oml.write cfg k v f) := by
  induction f with
  | zero => exact Framed.outOfFuel
  | succ f ih => unfold Oml.write; frame_prog [Oml.search_framed, checkKeyRange_framed]

theorem Oml.insert_framed (cfg : Cfg K) (k : K) (v : V) (f : Nat) : Framed (Oml.insert cfg k v f) := by
  induction f with
  | zero => exact Framed.outOfFuel
  | succ f ih => unfold Oml.insert; frame_prog [Oml.search_framed, checkKeyRange_framed]

theorem Oml.frameOk (cfg : Cfg K) (key : Option K) : (Oml.impl cfg key : Impl K V).FrameOk where
  read f k := by dsimp only [Oml.impl, Oml.read]; frame_prog [Oml.descendForRead_framed, checkKeyRange_framed]
  write f k v := Oml.write_framed cfg k v f
  insert f k v := Oml.insert_framed cfg k v f
  update f k v := by dsimp only [Oml.impl, Oml.update]; frame_prog [Oml.search_framed, checkKeyRange_framed]
  delete f k := by dsimp only [Oml.impl, Oml.delete]; frame_prog [Oml.search_framed, checkKeyRange_framed]
  scan f b e := by
    dsimp only [Oml.impl, Oml.scan]
    frame_prog [Oml.descendForRead_framed, Oml.descendLeft_framed, oscanFrom_framed]

/-! ## PSL and OSL -/

theorem Blink.halfSplit_framed (cfg : Cfg K) (l : Ptr) : Framed (Blink.halfSplit cfg l : M K V _) := by
  unfold Blink.halfSplit; frame_prog []

theorem Blink.separatorKey_framed (b : Bool) (n : Node K V) : Framed (Blink.separatorKey b n : M K V _) := by
  unfold Blink.separatorKey; frame_prog []

theorem Blink.tryRootSplit_framed (cfg : Cfg K) (l r : Ptr) (k : K) : Framed (Blink.tryRootSplit cfg l r k : M K V _) := by
  unfold Blink.tryRootSplit; frame_prog []

theorem Blink.searchParentNode_framed (k : K) (t : Ptr) (f : Nat) (st : List Ptr) (p : Ptr) :
    Framed (Blink.searchParentNode k t f st p : M K V _) := by
  induction f generalizing st p with
  | zero => exact Framed.outOfFuel
  | succ f ih => unfold Blink.searchParentNode; frame_prog [ih, checkKeyRange_framed]

theorem Blink.completeSplit_framed (cfg : Cfg K) (f : Nat) (st : List Ptr) (node : Option Ptr) (l r : Ptr) (k : K) :
    Framed (Blink.completeSplit cfg f st node l r k : M K V _) := by
  induction f generalizing st node l r k with
  | zero => exact Framed.outOfFuel
  | succ f ih =>
    unfold Blink.completeSplit
    frame_prog [ih, checkKeyRange_framed, Blink.searchParentNode_framed, Blink.halfSplit_framed,
      Blink.separatorKey_framed, Blink.tryRootSplit_framed]

theorem Blink.shrinkLoop_framed (f : Nat) (p : Ptr) : Framed (Blink.shrinkLoop f p : M K V _) := by
  induction f generalizing p with
  | zero => exact Framed.outOfFuel
  | succ f ih => unfold Blink.shrinkLoop; frame_prog [ih]

theorem Blink.tryShrinkTree_framed (f : Nat) (p : Ptr) : Framed (Blink.tryShrinkTree f p : M K V _) := by
  unfold Blink.tryShrinkTree; frame_prog [Blink.shrinkLoop_framed]

theorem Blink.mergeLoop_framed (cfg : Cfg K) (f : Nat) (st : List Ptr) (node : Option Ptr) (l : Ptr) :
    Framed (Blink.mergeLoop cfg f st node l : M K V _) := by
  induction f generalizing st node l with
  | zero => exact Framed.outOfFuel
  | succ f ih =>
    unfold Blink.mergeLoop
    frame_prog [ih, checkKeyRange_framed, Blink.searchParentNode_framed, Blink.tryShrinkTree_framed]

theorem Psl.descendForRead_framed (k : K) (f : Nat) (p : Ptr) : Framed (Psl.descendForRead k f p : M K V _) := by
  induction f generalizing p with
  | zero => exact Framed.outOfFuel
  | succ f ih => unfold Psl.descendForRead; frame_prog [ih, checkKeyRange_framed]

theorem Psl.descendForWrite_framed (k : K) (f : Nat) (st : List Ptr) (p : Ptr) :
    Framed (Psl.descendForWrite k f st p : M K V _) := by
  induction f generalizing st p with
  | zero => exact Framed.outOfFuel
  | succ f ih => unfold Psl.descendForWrite; frame_prog [ih, checkKeyRange_framed]

theorem Psl.search_framed (k : K) (f : Nat) : Framed (Psl.searchLeafForWrite f k : M K V _) := by
  unfold Psl.searchLeafForWrite; frame_prog [Psl.descendForWrite_framed]

theorem Psl.frameOk (cfg : Cfg K) : (Psl.impl cfg : Impl K V).FrameOk where
  read f k := by dsimp only [Psl.impl, Psl.read]; frame_prog [Psl.descendForRead_framed]
  write f k v := by
    dsimp only [Psl.impl, Psl.write]
    frame_prog [Psl.search_framed, Blink.halfSplit_framed, Blink.separatorKey_framed, Blink.completeSplit_framed]
  insert f k v := by
    dsimp only [Psl.impl, Psl.insert]
    frame_prog [Psl.search_framed, Blink.halfSplit_framed, Blink.separatorKey_framed, Blink.completeSplit_framed]
  update f k v := by dsimp only [Psl.impl, Psl.update]; frame_prog [Psl.search_framed]
  delete f k := by dsimp only [Psl.impl, Psl.delete]; frame_prog [Psl.search_framed, Blink.mergeLoop_framed]
  scan f b e := by
    dsimp only [Psl.impl, Psl.scan, Psl.descendLeft]
    frame_prog [Psl.descendForRead_framed, Oml.descendLeft_framed, scanFrom_framed]

theorem Osl.descend_framed (k : K) (f : Nat) (p : Ptr) : Framed (Osl.descend k f p : M K V _) := by
  induction f generalizing p with
  | zero => exact Framed.outOfFuel
  | succ f ih => unfold Osl.descend; frame_prog [ih, checkKeyRange_framed]

theorem Osl.descendForWrite_framed (k : K) (f : Nat) (st : List Ptr) (p : Ptr) :
    Framed (Osl.descendForWrite k f st p : M K V _) := by
  induction f generalizing st p with
  | zero => exact Framed.outOfFuel
  | succ f ih => unfold Osl.descendForWrite; frame_prog [ih, checkKeyRange_framed]

theorem Osl.search_framed (k : K) (f : Nat) : Framed (Osl.searchLeafForWrite f k : M K V _) := by
  unfold Osl.searchLeafForWrite; frame_prog [Osl.descendForWrite_framed, checkKeyRange_framed]

theorem Osl.splitAndInsert_framed (cfg : Cfg K) (f : Nat) (l : Ptr) (st : List Ptr) (k : K) (v : V) :
    Framed (Osl.splitAndInsert cfg f l st k v) := by
  unfold Osl.splitAndInsert
  frame_prog [Blink.halfSplit_framed, Blink.separatorKey_framed, Blink.completeSplit_framed]

theorem Osl.frameOk (cfg : Cfg K) (key : Option K) : (Osl.impl cfg key : Impl K V).FrameOk where
  read f k := by dsimp only [Osl.impl, Osl.read]; frame_prog [Osl.descend_framed, checkKeyRange_framed]
  write f k v := by dsimp only [Osl.impl, Osl.write]; frame_prog [Osl.search_framed, Osl.splitAndInsert_framed]
  insert f k v := by dsimp only [Osl.impl, Osl.insert]; frame_prog [Osl.search_framed, Osl.splitAndInsert_framed]
  update f k v := by dsimp only [Osl.impl, Osl.update]; frame_prog [Osl.descend_framed, checkKeyRange_framed]
  delete f k := by dsimp only [Osl.impl, Osl.delete]; frame_prog [Osl.search_framed, Blink.mergeLoop_framed]
  scan f b e := by
    dsimp only [Osl.impl, Osl.scan, Osl.descendLeft]
    frame_prog [Osl.descend_framed, Oml.descendLeft_framed, oscanFrom_framed]

theorem Variant.frameOk (v : Variant K) (cfg : Cfg K) : (v.impl cfg : Impl K V).FrameOk := by
  cases v with
  | pml => exact Pml.frameOk cfg
  | oml key => exact Oml.frameOk cfg key
  | psl => exact Psl.frameOk cfg
  | osl key => exact Osl.frameOk cfg key

end BT
