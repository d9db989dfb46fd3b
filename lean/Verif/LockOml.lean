import Verif.LockOsl

/-!
# The locks of OML

Nothing has to be known about the contents of pages here.
-/

set_option linter.unusedSectionVars false

namespace BT
open Prog
variable {K V : Type} [LinearOrder K] {cfg : Cfg K} {σ τ : Vis K V} {p q : Ptr}

/-- The parameters for OML. -/
def omlP : Lp K V := ⟨fun _ => True, false, false, false, true⟩

namespace COml
open Vis
open COsl (lf_ver lf_peek lf_same lf_inner lf_root lf_note lift_lf checkO_lf)
variable {α β : Type} {Q : α → Vis K V → Prop} {k : K} {junk : Node K V → Node K V → K}

/-! ## Rules -/

section
variable {u : Unit → Prog K V α}
theorem dv {C : Prop} (h : (omlP : Lp K V).d = true) : C := by cases h
theorem du {C : Prop} (h : (omlP : Lp K V).u = true) : C := by cases h
theorem dq (hf : σ.Free) : σ.Ask (omlP : Lp K V) := ⟨dv, du, fun _ => hf⟩

theorem know_id (n : Node K V) : σ.know omlP p n = σ := rfl
theorem set_L (md : Md) : (σ.set p md).L = Spec.upd σ.L p md := rfl

theorem loads {f : Node K V → Prog K V α} (h : ∀ n, (f n).vwp omlP σ Q) : (Prog.load p >>= f).vwp omlP σ Q := Vw.load fun n _ _ _ => h n
theorem peeks {f : Node K V → Prog K V α} (h : ∀ n, (f n).vwp omlP σ Q) : (Prog.peek p >>= f).vwp omlP σ Q := Vw.peek fun n _ => h n
theorem stores {n : Node K V} (h : (u ()).vwp omlP σ Q) : (Prog.store p n >>= u).vwp omlP σ Q := Vw.store trivial fun _ => h
theorem pokes {n : Node K V} (h : (u ()).vwp omlP σ Q) : (Prog.poke p n >>= u).vwp omlP σ Q := ⟨rfl, trivial, h⟩
theorem allocs {n : Node K V} {f : Ptr → Prog K V α} (h : ∀ p, σ.L p = Md.none → (f p).vwp omlP σ Q) : (Prog.alloc n >>= f).vwp omlP σ Q :=
  Vw.alloc trivial fun p e _ => h p e
theorem vers {f : Nat → Prog K V α} (hf : σ.Free) (h : ∀ v σ', σ'.L = σ.L → (f v).vwp omlP σ' Q) : (Prog.getVer p >>= f).vwp omlP σ Q :=
  Vw.getVer (dq hf) fun v => h v _ rfl
theorem lockX (e : σ.L p = Md.none) (h : ∀ σ', σ'.L = Spec.upd σ.L p Md.excl → (u ()).vwp omlP σ' Q) : (Prog.lockX p >>= u).vwp omlP σ Q :=
  Vw.lockX du (fun _ => h _ rfl) fun _ => e
theorem upgradeX (h : (σ.L p).six = true → ∀ σ', σ'.L = Spec.upd σ.L p Md.excl → (u ()).vwp omlP σ' Q) : (Prog.upgradeX p >>= u).vwp omlP σ Q :=
  Vw.upgradeX du fun e _ => h e _ rfl
theorem unlockX (h : ∀ σ', σ'.L = Spec.upd σ.L p Md.none → (u ()).vwp omlP σ' Q) : (Prog.unlockX p >>= u).vwp omlP σ Q := Vw.unlockX fun _ => h _ rfl
theorem unlockXVer {f : Nat → Prog K V α} (h : ∀ v σ', σ'.L = Spec.upd σ.L p Md.none → (f v).vwp omlP σ' Q) : (Prog.unlockXVer p >>= f).vwp omlP σ Q :=
  Vw.unlockXVer fun _ v => h v _ rfl
theorem lockSIX (h : (σ.L p).six = false → (σ.L p).x = false → ∀ σ', σ'.L = Spec.upd σ.L p { σ.L p with six := true } → (u ()).vwp omlP σ' Q) :
    (Prog.lockSIX p >>= u).vwp omlP σ Q := Vw.lockSIX dv fun e e' => h e e' _ rfl
theorem unlockSIX (h : ∀ σ', σ'.L = Spec.upd σ.L p { σ.L p with six := false } → (u ()).vwp omlP σ' Q) : (Prog.unlockSIX p >>= u).vwp omlP σ Q :=
  Vw.unlockSIX fun _ => h _ rfl
theorem trySIX {v : Nat} {f : Bool → Prog K V α} (h0 : (f false).vwp omlP σ Q)
    (h : (σ.L p).six = false → (σ.L p).x = false → ∀ σ', σ'.L = Spec.upd σ.L p { σ.L p with six := true } → (f true).vwp omlP σ' Q) :
    (Prog.tryLockSIX p v >>= f).vwp omlP σ Q := Vw.tryLockSIX dv h0 fun e e' _ _ _ => h e e' _ rfl
theorem tryX {v : Nat} {f : Bool → Prog K V α} (hf : σ.Free) (h0 : (f false).vwp omlP σ Q)
    (h : σ.L p = Md.none → ∀ σ', σ'.L = Spec.upd σ.L p Md.excl → (f true).vwp omlP σ' Q) :
    (Prog.tryLockX p v >>= f).vwp omlP σ Q := Vw.tryLockX (fun _ => hf) h0 fun e _ _ _ => h e _ rfl
theorem pureL {c : Prog K V β} {f : β → Prog K V α} (hf : σ.Free) (hc : c.Lockfree) (h : ∀ a σ', σ'.L = σ.L → (f a).vwp omlP σ' Q) : (c >>= f).vwp omlP σ Q :=
  Vw.lockfree hc (dq hf) fun a σ' hle => h a σ' hle.L
end

/-- The piece of code ends with the locks it began with. -/
abbrev Back (c : Prog K V α) : Prop := ∀ σ : Vis K V, c.vwp omlP σ (fun _ σ' => σ'.L = σ.L)
/-- A call takes its locks and gives them up again. -/
abbrev Gives (c : Prog K V α) : Prop := ∀ σ : Vis K V, σ.Free → c.vwp omlP σ (fun _ σ' => σ'.Free)

theorem back {c : Prog K V β} {f : β → Prog K V α} (hc : Gives c) (hf : σ.Free) (h : ∀ a σ', σ'.Free → (f a).vwp omlP σ' Q) : (c >>= f).vwp omlP σ Q :=
  Vw.call (hc σ hf) h

theorem Back.gives {c : Prog K V α} (h : Back c) : Gives c := fun σ hf => vwp_mono (h σ) fun _ σ' e p => by rw [e]; exact hf p
theorem free_of (hf : σ.Free) (e : τ.L = σ.L) : τ.Free := fun p => by rw [e]; exact hf p
theorem Lockfree_gives {c : Prog K V α} (h : c.Lockfree) : Gives c := fun _ hf => vwp_lockfree h (dq hf) fun _ _ hle => hf.le hle

theorem tryCleanUp_g {v : Nat} : Gives (tryCleanUp cfg p v : Prog K V (NodeRC × Nat)) := by
  intro σ hf
  unfold tryCleanUp
  refine tryX hf (Vw.ret hf) fun e σ1 h1 => loads fun n => Vw.lift fun n' _ => stores (unlockXVer fun w σ2 h2 => Vw.ret ?_)
  intro q
  rw [h2, h1]
  by_cases hq : q = p <;> simp [Spec.upd, hq, hf q]

theorem ifSame_g {v : Nat} {rc : NodeRC} : Gives (ifSame p v rc : Prog K V (NodeRC × Nat)) := by
  intro σ hf
  unfold ifSame
  exact Vw.same fun b => Vw.ret hf

theorem needSplit_g {len v : Nat} : Gives (needSplit cfg p len v : Prog K V (NodeRC × Nat)) := by
  intro σ hf
  unfold needSplit
  refine peeks fun n => ?_
  cases cfg.layout with
  | fix => exact ifSame_g σ hf
  | var =>
    dsimp only
    split
    · exact ifSame_g σ hf
    · split
      · exact ifSame_g σ hf
      · exact tryCleanUp_g σ hf

theorem needMerge_g {v : Nat} : Gives (needMerge cfg p v : Prog K V (NodeRC × Nat)) := by
  intro σ hf
  unfold needMerge
  refine peeks fun n => ?_
  cases cfg.layout with
  | fix => exact ifSame_g σ hf
  | var =>
    dsimp only
    split
    · exact ifSame_g σ hf
    · split
      · exact ifSame_g σ hf
      · exact tryCleanUp_g σ hf

theorem checkSMOs_g {len v : Nat} : Gives (checkSMOs cfg p len v : Prog K V (NodeRC × Nat)) := by
  intro σ hf
  unfold checkSMOs
  refine back needSplit_g hf fun x σ1 h1 => ?_
  dsimp only
  split
  · exact Vw.ret h1
  · exact needMerge_g σ1 h1

theorem checkNodeStatus_g {len : Nat} : ∀ (f : Nat) (p : Ptr), Gives (checkNodeStatus cfg len f p : Prog K V (NodeRC × Nat))
  | 0, p => fun _ _ => trivial
  | f + 1, p => by
    intro σ hf
    rw [checkNodeStatus]
    refine vers hf fun v σ1 h1 => peeks fun n => ?_
    have f1 := free_of hf h1
    split
    · refine Vw.same fun b => ?_
      split
      · exact Vw.ret f1
      · exact checkNodeStatus_g f p σ1 f1
    · refine back checkSMOs_g f1 fun x σ2 f2 => ?_
      dsimp only
      split
      · exact checkNodeStatus_g f p σ2 f2
      · exact Vw.ret f2

/-- Afterwards both pages are locked in mode X. -/
theorem splitNode_g {l : Ptr} (h : (σ.L l).six = true) : (splitNode cfg l : Prog K V Ptr).vwp omlP σ (fun r σ' => r ≠ l ∧ σ.L r = Md.none ∧
    σ'.L = Spec.upd (Spec.upd σ.L r Md.excl) l Md.excl) := by
  unfold splitNode
  refine loads fun n => allocs fun r e => Vw.lift fun x _ => lockX e fun σ1 h1 => stores (upgradeX fun _ σ2 h2 => stores (Vw.ret ⟨?_, e, ?_⟩))
  · rintro rfl; rw [e] at h; cases h
  · rw [h2, h1]

theorem validSplitNode_g {l r : Ptr} : (validSplitNode k l r : Prog K V (Ptr × Option K × Nat)).vwp omlP σ (fun _ σ' =>
    σ'.L = Spec.upd (Spec.upd σ.L r Md.none) l Md.none) := by
  unfold validSplitNode
  refine loads fun n => ?_
  split
  · refine unlockX fun σ1 h1 => unlockXVer fun v σ2 h2 => Vw.ret ?_
    rw [h2, h1]
  · refine unlockXVer fun v σ1 h1 => unlockX fun σ2 h2 => Vw.ret ?_
    rw [h2, h1]

theorem tryRootSplit_g {v : Nat} : Gives (tryRootSplit cfg k p v : Prog K V (Option (Ptr × Nat))) := by
  intro σ hf
  unfold tryRootSplit
  refine trySIX (Vw.ret hf) fun _ _ σ1 h1 => Vw.getRoot fun root => ?_
  split
  · refine unlockSIX fun σ2 h2 => Vw.ret fun q => ?_
    rw [h2, h1]
    by_cases hq : q = p <;> simp [Spec.upd, hq, hf q, hf p, Md.none]
  · refine Vw.call (splitNode_g (by rw [h1]; simp [Spec.upd])) ?_
    rintro r σ2 ⟨hr, -, h2⟩
    refine loads fun ln => Vw.lift fun rn _ => allocs fun root _ => Vw.setRoot (Vw.call validSplitNode_g fun x σ3 h3 => Vw.ret fun q => ?_)
    rw [h3, h2, h1]
    by_cases hq : q = p <;> by_cases hq' : q = r <;> simp [Spec.upd, hq, hq', hf q]

theorem tryShrink_g {v : Nat} : Gives (tryShrink p v : Prog K V Bool) := by
  intro σ hf
  unfold tryShrink
  refine peeks fun n => ?_
  split
  · exact Vw.ret hf
  · refine trySIX (Vw.ret hf) fun _ _ σ1 h1 => Vw.getRoot fun root => ?_
    split
    · refine unlockSIX fun σ2 h2 => Vw.ret fun q => ?_
      rw [h2, h1]
      by_cases hq : q = p <;> simp [Spec.upd, hq, hf q, hf p, Md.none]
    · refine Vw.note (Vw.retire (upgradeX fun _ σ2 h2 => loads fun n => Vw.lift fun c _ => stores (unlockX fun σ3 h3 => Vw.setRoot (Vw.ret fun q => ?_))))
      rw [h3, h2, h1]
      by_cases hq : q = p <;> simp [Spec.upd, hq, hf q]

theorem getRootForWrite_g : ∀ f : Nat, Gives (getRootForWrite cfg k f : Prog K V (Ptr × Nat))
  | 0 => fun _ _ => trivial
  | f + 1 => by
    intro σ hf
    rw [getRootForWrite]
    refine Vw.getRoot fun root => back (checkNodeStatus_g _ _) hf fun x σ1 f1 => ?_
    dsimp only
    split
    · exact getRootForWrite_g f σ1 f1
    · split
      · refine back tryRootSplit_g f1 fun o σ2 f2 => ?_
        cases o with
        | none => exact getRootForWrite_g f σ2 f2
        | some x => exact Vw.ret f2
      · split
        · refine back tryShrink_g f1 fun b σ2 f2 => ?_
          split
          · exact Vw.ret f2
          · exact getRootForWrite_g f σ2 f2
        · exact Vw.ret f1

theorem trySplit_g {child parent : Ptr} {cver pver pos : Nat} :
    Gives (trySplit cfg k child cver parent pver pos : Prog K V (Option (Ptr × Nat))) := by
  intro σ hf
  unfold trySplit
  refine trySIX (Vw.ret hf) fun _ _ σ1 h1 => trySIX ?_ fun g6 _ σ2 h2 => ?_
  · refine unlockSIX fun σ2 h2 => Vw.ret fun q => ?_
    rw [h2, h1]
    by_cases hq : q = parent <;> simp [Spec.upd, hq, hf q, hf parent, Md.none]
  · have hcp : child ≠ parent := by
      rintro rfl
      rw [h1] at g6
      simp [Spec.upd] at g6
    refine Vw.call (splitNode_g (by rw [h2]; simp [Spec.upd])) ?_
    rintro r σ3 ⟨hr, er, h3⟩
    have hrp : r ≠ parent := by
      rintro rfl
      rw [h2, h1] at er
      simp [Spec.upd, hcp.symm, Md.none] at er
    refine Vw.call validSplitNode_g fun x σ4 h4 => upgradeX fun _ σ5 h5 => loads fun pn => Vw.lift fun pn' _ =>
      stores (unlockX fun σ6 h6 => Vw.ret fun q => ?_)
    rw [h6, h5, h4, h3, h2, h1]
    by_cases hq : q = parent
    · simp [Spec.upd, hq]
    · by_cases hq' : q = child
      · simp [Spec.upd, hq', hcp]
      · by_cases hq'' : q = r
        · simp [Spec.upd, hq'', hr, hrp]
        · simp [Spec.upd, hq, hq', hq'', hf q]

theorem mergeNodes_g {l r : Ptr} : (mergeNodes cfg junk l r : Prog K V Nat).vwp omlP σ (fun _ σ' =>
    σ'.L = Spec.upd (Spec.upd σ.L l Md.none) r Md.none) := by
  unfold mergeNodes
  refine loads fun ln => loads fun rn => ?_
  have rest : (Prog.upgradeX l >>= fun _ => Prog.lift (ln.merge cfg rn) >>= fun ln' => Prog.store l ln' >>= fun _ => Prog.unlockXVer l >>= fun ver =>
      Prog.upgradeX r >>= fun _ => Prog.store r { rn with removed := true, next := if rn.isInner then rn.next else some l } >>= fun _ =>
      Prog.unlockX r >>= fun _ => (Prog.ret ver : Prog K V Nat)).vwp omlP σ (fun _ σ' => σ'.L = Spec.upd (Spec.upd σ.L l Md.none) r Md.none) := by
    refine upgradeX fun _ σ1 h1 => Vw.lift fun ln' _ => stores (unlockXVer fun v σ2 h2 => upgradeX fun _ σ3 h3 => stores (unlockX fun σ4 h4 => Vw.ret ?_))
    rw [h4, h3, h2, h1]
    funext q
    by_cases hq : q = r <;> by_cases hq' : q = l <;> simp [Spec.upd, hq, hq']
    exact fun h h' => absurd h' h
  cases cfg.layout with
  | fix => exact rest
  | var => exact pokes rest

theorem tryMerge_g {l parent : Ptr} {cver pver pos : Nat} :
    Gives (tryMerge cfg junk l cver parent pver pos : Prog K V (Option Nat)) := by
  intro σ hf
  unfold tryMerge
  refine trySIX (Vw.ret hf) fun _ _ σ1 h1 => trySIX ?_ fun g6 _ σ2 h2 => ?_
  · refine unlockSIX fun σ2 h2 => Vw.ret fun q => ?_
    rw [h2, h1]
    by_cases hq : q = parent <;> simp [Spec.upd, hq, hf q, hf parent, Md.none]
  · have hcp : l ≠ parent := by
      rintro rfl
      rw [h1] at g6
      simp [Spec.upd] at g6
    refine loads fun pn => ?_
    split
    · refine unlockSIX fun σ3 h3 => unlockSIX fun σ4 h4 => Vw.ret fun q => ?_
      rw [h4, h3, h2, h1]
      by_cases hq : q = parent
      · simp [Spec.upd, hq, hcp.symm, hf parent, Md.none]
      · by_cases hq' : q = l
        · simp [Spec.upd, hq', hcp, hf l, Md.none]
        · simp [Spec.upd, hq, hq', hf q]
    · refine Vw.lift fun r _ => lockSIX fun r6 _ σ3 h3 => ?_
      have hrl : r ≠ l := by
        rintro rfl
        rw [h2] at r6
        simp [Spec.upd] at r6
      have hrp : r ≠ parent := by
        rintro rfl
        rw [h2, h1] at r6
        simp [Spec.upd, hcp.symm] at r6
      refine loads fun ln => loads fun rn => ?_
      split
      · refine Vw.note (Vw.call mergeNodes_g fun v σ4 h4 => upgradeX fun _ σ5 h5 => loads fun pn => Vw.lift fun pn' _ =>
          stores (unlockX fun σ6 h6 => Vw.retire (Vw.ret fun q => ?_)))
        rw [h6, h5, h4, h3, h2, h1]
        by_cases hq : q = parent
        · simp [Spec.upd, hq]
        · by_cases hq' : q = l
          · simp [Spec.upd, hq', hcp]
          · by_cases hq'' : q = r
            · simp [Spec.upd, hq'', hrp]
            · simp [Spec.upd, hq, hq', hq'', hf q]
      · refine unlockSIX fun σ4 h4 => unlockSIX fun σ5 h5 => unlockSIX fun σ6 h6 => Vw.ret fun q => ?_
        rw [h6, h5, h4, h3, h2, h1]
        by_cases hq : q = parent
        · simp [Spec.upd, hq, hcp.symm, hrp.symm, hf parent, Md.none]
        · by_cases hq' : q = l
          · simp [Spec.upd, hq', hcp, hrl.symm, hf l, Md.none]
          · by_cases hq'' : q = r
            · simp [Spec.upd, hq'', hrp, hrl, hf r, Md.none]
            · simp [Spec.upd, hq, hq', hq'', hf q]

theorem searchChildW_g : ∀ (f : Nat) (p : Ptr) (v : Nat), Gives (searchChildW cfg k f p v : Prog K V (Option (Nat × Ptr) × Nat))
  | 0, p, v => fun _ _ => trivial
  | f + 1, p, v => by
    intro σ hf
    rw [searchChildW]
    have again : (checkNodeStatus cfg (cfg.maxKeyLen + cfg.maxPayLen) (f + 1) p >>= fun x =>
        if x.1 ≠ .completed then (Prog.ret (none, x.2) : Prog K V (Option (Nat × Ptr) × Nat)) else searchChildW cfg k f p x.2).vwp omlP σ (fun _ σ' => σ'.Free) := by
      refine back (checkNodeStatus_g _ _) hf fun x σ1 f1 => ?_
      split
      · exact Vw.ret f1
      · exact searchChildW_g f p _ σ1 f1
    refine Vw.same fun b => ?_
    split
    · refine peeks fun n1 => peeks fun n2 => ?_
      split
      · refine Vw.same fun b => ?_
        split
        · exact Vw.ret hf
        · exact again
      · refine peeks fun n => Vw.lift fun x _ => Vw.lift fun c _ => Vw.same fun b => ?_
        split
        · exact Vw.ret hf
        · exact again
    · exact again

theorem descendForWrite_g : ∀ (f : Nat) (p : Ptr) (v : Nat), Gives (descendForWrite cfg junk k f p v : Prog K V Ptr)
  | 0, p, v => fun _ _ => trivial
  | f + 1, p, v => by
    intro σ hf
    rw [descendForWrite]
    refine Vw.isInner fun b => ?_
    split
    · refine back (searchChildW_g _ _ _) hf ?_
      rintro ⟨o, w⟩ σ1 f1
      cases o with
      | none => exact back (getRootForWrite_g _) f1 fun x σ2 f2 => descendForWrite_g f _ _ σ2 f2
      | some y =>
        refine back (checkNodeStatus_g _ _) f1 fun x σ2 f2 => ?_
        dsimp only
        split
        · exact descendForWrite_g f _ _ σ2 f2
        · split
          · refine back trySplit_g f2 fun o σ3 f3 => ?_
            cases o with
            | none => exact descendForWrite_g f _ _ σ3 f3
            | some z => exact descendForWrite_g f _ _ σ3 f3
          · split
            · refine back tryMerge_g f2 fun o σ3 f3 => ?_
              cases o with
              | none => exact descendForWrite_g f _ _ σ3 f3
              | some z => exact descendForWrite_g f _ _ σ3 f3
            · exact descendForWrite_g f _ _ σ2 f2
    · exact Vw.ret hf

theorem searchLeafForWrite_g {fuel : Nat} : Gives (searchLeafForWrite cfg junk fuel k : Prog K V Ptr) := by
  intro σ hf
  unfold searchLeafForWrite
  exact back (getRootForWrite_g _) hf fun x σ1 f1 => descendForWrite_g _ _ _ σ1 f1

theorem checkForWrite_g : ∀ (f : Nat) (p : Ptr) (σ : Vis K V), σ.Free → (checkForWrite cfg k f p : Prog K V (Option Ptr)).vwp omlP σ (fun o σ' =>
    match o with
    | none => σ'.Free
    | some q => ∀ r, r ≠ q → σ'.L r = Md.none)
  | 0, p, σ, hf => trivial
  | f + 1, p, σ, hf => by
    rw [checkForWrite]
    refine back (Lockfree_gives (checkO_lf _ _)) hf fun o σ1 f1 => ?_
    cases o with
    | none => trivial
    | some x =>
      refine back checkSMOs_g f1 fun y σ2 f2 => ?_
      dsimp only
      split
      · exact checkForWrite_g f _ σ2 f2
      · split
        · exact Vw.ret f2
        · refine trySIX (checkForWrite_g f _ σ2 f2) fun _ _ σ3 h3 => Vw.ret fun r hr => ?_
          rw [h3]
          simp [Spec.upd, hr, f2 r]

theorem write_g {v : V} : ∀ f : Nat, Gives (write cfg junk k v f : Prog K V RC)
  | 0 => fun _ _ => trivial
  | f + 1 => by
    intro σ hf
    rw [write]
    refine back searchLeafForWrite_g hf fun leaf σ1 f1 => Vw.call (checkForWrite_g _ _ σ1 f1) fun o σ2 h2 => ?_
    cases o with
    | none => exact write_g f σ2 h2
    | some q =>
      refine loads fun n => upgradeX fun _ σ3 h3 => Vw.lift fun n' _ => stores (unlockX fun σ4 h4 => Vw.ret fun r => ?_)
      rw [h4, h3]
      by_cases hr : r = q
      · simp [Spec.upd, hr]
      · simp [Spec.upd, hr]
        exact h2 r hr

theorem tryX_free (hf : σ.Free) {σ1 σ2 : Vis K V} (h1 : σ1.L = Spec.upd σ.L p Md.excl) (h2 : σ2.L = Spec.upd σ1.L p Md.none) : σ2.Free := fun r => by
  rw [h2, h1]
  by_cases hr : r = p <;> simp [Spec.upd, hr, hf r]

theorem nodeInsert_g {v : V} : ∀ (f : Nat) (p : Ptr), Gives (nodeInsert cfg k v f p : Prog K V (Option RC))
  | 0, p => fun _ _ => trivial
  | f + 1, p => by
    intro σ hf
    rw [nodeInsert]
    refine back (Lockfree_gives (checkO_lf _ _)) hf fun o σ1 f1 => ?_
    cases o with
    | none => trivial
    | some x =>
      refine back checkSMOs_g f1 fun y σ2 f2 => ?_
      dsimp only
      split
      · exact nodeInsert_g f _ σ2 f2
      · split
        · exact Vw.ret f2
        · refine peeks fun n => Vw.lift fun z _ => ?_
          split
          · refine Vw.same fun b => ?_
            split
            · exact Vw.ret f2
            · exact nodeInsert_g f _ σ2 f2
          · exact tryX f2 (nodeInsert_g f _ σ2 f2) fun _ σ3 h3 => loads fun n => Vw.lift fun n' _ =>
              stores (unlockX fun σ4 h4 => Vw.ret (tryX_free f2 h3 h4))

theorem insert_g {v : V} : ∀ f : Nat, Gives (insert cfg junk k v f : Prog K V RC)
  | 0 => fun _ _ => trivial
  | f + 1 => by
    intro σ hf
    rw [insert]
    refine back searchLeafForWrite_g hf fun leaf σ1 f1 => back (nodeInsert_g _ _) f1 fun o σ2 f2 => ?_
    cases o with
    | none => exact insert_g f σ2 f2
    | some rc => exact Vw.ret f2

theorem nodeUpdate_g {v : V} : ∀ (f : Nat) (p : Ptr), Gives (COsl.nodeUpdate k v f p : Prog K V RC)
  | 0, p => fun _ _ => trivial
  | f + 1, p => by
    intro σ hf
    rw [COsl.nodeUpdate]
    refine back (Lockfree_gives (checkO_lf _ _)) hf fun o σ1 f1 => ?_
    cases o with
    | none => trivial
    | some x =>
      refine peeks fun n => Vw.lift fun z _ => ?_
      dsimp only
      split
      · exact tryX f1 (nodeUpdate_g f _ σ1 f1) fun _ σ3 h3 => loads fun n => Vw.lift fun n' _ =>
          stores (unlockX fun σ4 h4 => Vw.ret (tryX_free f1 h3 h4))
      · refine Vw.same fun b => ?_
        split
        · exact Vw.ret f1
        · exact nodeUpdate_g f _ σ1 f1

theorem nodeDelete_g : ∀ (f : Nat) (p : Ptr), Gives (nodeDelete cfg k f p : Prog K V RC)
  | 0, p => fun _ _ => trivial
  | f + 1, p => by
    intro σ hf
    rw [nodeDelete]
    refine back (Lockfree_gives (checkO_lf _ _)) hf fun o σ1 f1 => ?_
    cases o with
    | none => trivial
    | some x =>
      refine peeks fun n => Vw.lift fun z _ => ?_
      dsimp only
      split
      · exact tryX f1 (nodeDelete_g f _ σ1 f1) fun _ σ3 h3 => loads fun n => Vw.lift fun n' _ =>
          stores (unlockX fun σ4 h4 => Vw.ret (tryX_free f1 h3 h4))
      · refine Vw.same fun b => ?_
        split
        · exact Vw.ret f1
        · exact nodeDelete_g f _ σ1 f1

/-! ## Readers take no locks -/

theorem searchChild_lf : ∀ (f : Nat) (p : Ptr), (searchChild k f p : Prog K V (Option Ptr)).Lockfree
  | 0, p => trivial
  | f + 1, p => by
    rw [searchChild]
    refine lf_ver fun v => lf_peek fun n1 => lf_peek fun n2 => ?_
    split
    · refine lf_same fun b => ?_
      split
      · trivial
      · exact searchChild_lf f p
    · refine lf_peek fun n => lift_lf fun x => lift_lf fun c => lf_same fun b => ?_
      split
      · trivial
      · exact searchChild_lf f p

theorem descendForRead_lf : ∀ (f : Nat) (p : Ptr), (descendForRead k f p : Prog K V Ptr).Lockfree
  | 0, p => trivial
  | f + 1, p => by
    rw [descendForRead]
    refine lf_inner fun b => ?_
    split
    · refine Prog.Lockfree.bind (searchChild_lf _ _) fun o => ?_
      cases o with
      | none => exact lf_root fun root => descendForRead_lf f root
      | some c => exact descendForRead_lf f c
    · trivial

theorem nodeRead_lf : ∀ (f : Nat) (p : Ptr), (nodeRead k f p : Prog K V (Option V)).Lockfree
  | 0, p => trivial
  | f + 1, p => by
    rw [nodeRead]
    refine Prog.Lockfree.bind (checkO_lf _ _) fun o => ?_
    cases o with
    | none => trivial
    | some x =>
      refine lf_peek fun n => lift_lf fun y => lf_same fun b => ?_
      split
      · trivial
      · exact nodeRead_lf f _

theorem read_lf {fuel : Nat} : (read fuel k : Prog K V (Option V)).Lockfree := by
  unfold read
  exact lf_root fun root => Prog.Lockfree.bind (descendForRead_lf _ _) fun leaf => nodeRead_lf _ _

theorem scan_lf {fuel : Nat} {b e : ScanKey K} : (scan fuel b e : Prog K V (List (K × V))).Lockfree := by
  unfold scan
  refine lf_root fun root => ?_
  cases b with
  | none => exact Prog.Lockfree.bind (COsl.leftmost_lf _ _) fun leaf => COsl.scanFrom_lf
  | some x => exact Prog.Lockfree.bind (descendForRead_lf _ _) fun leaf => COsl.scanFrom_lf

/-- Every call of OML gives up its locks. -/
theorem exec_g (fuel : Nat) (o : Op K V) : Gives (execS cfg junk fuel o : Prog K V _) := by
  intro σ hf
  cases o with
  | read k => exact back (Lockfree_gives read_lf) hf fun _ _ h => Vw.ret h
  | write k v => exact back (write_g _) hf fun _ _ h => Vw.ret h
  | insert k v => exact back (insert_g _) hf fun _ _ h => Vw.ret h
  | update k v =>
    refine back (c := update cfg junk fuel k v) ?_ hf fun _ _ h => Vw.ret h
    intro σ hf
    unfold update
    exact back searchLeafForWrite_g hf fun leaf σ1 f1 => nodeUpdate_g _ _ σ1 f1
  | delete k =>
    refine back (c := delete cfg junk fuel k) ?_ hf fun _ _ h => Vw.ret h
    intro σ hf
    unfold delete
    exact back searchLeafForWrite_g hf fun leaf σ1 f1 => nodeDelete_g _ _ σ1 f1
  | scan b e => exact back (Lockfree_gives scan_lf) hf fun _ _ h => Vw.ret h

end COml
end BT
