import Verif.ConcSolo
import Verif.ConcScan
import Verif.OslConc

/-!
# Pages that are handed to the garbage collector, PSL and OSL

Every call that hands a page to the garbage collector has marked the page as removed by the time it returns (`Prog.Pays`, a fact
about the code alone), and marked pages stay out of the tree (`Buried`, a fact about worlds).
-/

set_option linter.unusedSectionVars false

namespace BT
open Spec
variable {K V : Type} [LinearOrder K] {α β : Type}

/-! ## The code -/

/-- Page `p` is marked by the action, or has been before. -/
def Act.marks (p : Ptr) (s : Bool) {β : Type} : Act K V β → Bool
  | .store q n => s || (decide (q = p) && n.removed)
  | _ => s

/-- Page `p` is handed over by the action, or has been before. -/
def Act.hands (p : Ptr) (d : Bool) {β : Type} : Act K V β → Bool
  | .retire q => d || decide (q = p)
  | .free q => d || decide (q = p)
  | _ => d

namespace Prog

/-- The code ends with `Q`; `s`: page `p` has been marked as removed, `d`: it has been handed to the garbage collector. -/
def Acc (p : Ptr) : Prog K V α → Bool → Bool → (Bool → Bool → Prop) → Prop
  | ret _, s, d, Q => Q s d
  | act a k, s, d, Q => ∀ b, Acc p (k b) (a.marks p s) (a.hands p d) Q
  | ub, _, _, _ => True
  | stuck, _, _, _ => True

/-- What is handed over has been marked at the end. -/
def Even (s d : Bool) : Prop := d = true → s = true

/-- Code that has marked what it has handed over. -/
def Pays (x : Prog K V α) : Prop := ∀ p s d, Even s d → Acc p x s d Even

theorem Acc.mono {p : Ptr} {x : Prog K V α} {s d : Bool} {Q Q' : Bool → Bool → Prop} (h : Acc p x s d Q) (hq : ∀ s d, Q s d → Q' s d) :
    Acc p x s d Q' := by
  induction x generalizing s d with
  | ret a => exact hq _ _ h
  | ub => trivial
  | stuck => trivial
  | act a k ih => exact fun b => ih b (h b)

theorem Acc.bind {p : Ptr} {x : Prog K V α} {f : α → Prog K V β} {s d : Bool} {Q Q' : Bool → Bool → Prop} (h : Acc p x s d Q)
    (hf : ∀ a s d, Q s d → Acc p (f a) s d Q') : Acc p (x >>= f) s d Q' := by
  show Acc p (Prog.bind x f) s d Q'
  induction x generalizing s d with
  | ret a => exact hf a _ _ h
  | ub => trivial
  | stuck => trivial
  | act a k ih => exact fun b => ih b (h b)

theorem Pays.bind {x : Prog K V α} {f : α → Prog K V β} (h : x.Pays) (hf : ∀ a, (f a).Pays) : (x >>= f).Pays :=
  fun p s d e => (h p s d e).bind fun a s d e => hf a p s d e

theorem Pays.ret (a : α) : (ret a : Prog K V α).Pays := fun _ _ _ h => h
theorem Pays.ub : (ub : Prog K V α).Pays := fun _ _ _ _ => trivial
theorem Pays.stuck : (stuck : Prog K V α).Pays := fun _ _ _ _ => trivial
theorem Pays.lift (r : Res α) : (lift r : Prog K V α).Pays := by
  cases r
  · exact Pays.ret _
  · exact Pays.ub
  · exact Pays.stuck

/-- All actions but `retire` and `free`. -/
def _root_.BT.Act.Plain {β : Type} : Act K V β → Prop
  | .retire _ => False
  | .free _ => False
  | _ => True

theorem marks_mono (a : Act K V β) (p : Ptr) {s : Bool} (h : s = true) : a.marks p s = true := by
  cases a <;> simp [Act.marks, h]

theorem hands_plain {a : Act K V β} (h : a.Plain) (p : Ptr) (d : Bool) : a.hands p d = d := by
  cases a <;> first | rfl | exact h.elim

theorem Pays.do_ {a : Act K V α} (h : a.Plain) : (do_ a : Prog K V α).Pays := by
  intro p s d e b hd
  rw [hands_plain h] at hd
  exact marks_mono _ _ (e hd)

end Prog

open Prog

theorem Pays.pure (a : α) : (pure a : Prog K V α).Pays := Pays.ret a

/-- Proves `Pays` for one piece of code. -/
syntax "pay1" : tactic
macro_rules | `(tactic| pay1) => `(tactic| split)
macro_rules | `(tactic| pay1) => `(tactic| with_reducible first
  | exact Pays.pure _
  | exact Pays.ret _
  | exact Pays.ub
  | exact Pays.stuck
  | exact Pays.lift _
  | refine Pays.bind ?_ (fun _ => ?_))

theorem getRoot_pays : (getRoot (K := K) (V := V)).Pays := Pays.do_ trivial
theorem setRoot_pays (p q : Ptr) : (setRoot (K := K) (V := V) p q).Pays := Pays.do_ trivial
theorem isInner_pays (p : Ptr) : (isInner (K := K) (V := V) p).Pays := Pays.do_ trivial
theorem load_pays (p : Ptr) : (load (K := K) (V := V) p).Pays := Pays.do_ trivial
theorem peek_pays (p : Ptr) : (peek (K := K) (V := V) p).Pays := Pays.do_ trivial
theorem store_pays (p : Ptr) (n : Node K V) : (store (K := K) (V := V) p n).Pays := Pays.do_ trivial
theorem poke_pays (p : Ptr) (n : Node K V) : (poke (K := K) (V := V) p n).Pays := Pays.do_ trivial
theorem alloc_pays (n : Node K V) : (alloc (K := K) (V := V) n).Pays := Pays.do_ trivial
theorem lockS_pays (p : Ptr) : (lockS (K := K) (V := V) p).Pays := Pays.do_ trivial
theorem unlockS_pays (p : Ptr) : (unlockS (K := K) (V := V) p).Pays := Pays.do_ trivial
theorem lockSIX_pays (p : Ptr) : (lockSIX (K := K) (V := V) p).Pays := Pays.do_ trivial
theorem unlockSIX_pays (p : Ptr) : (unlockSIX (K := K) (V := V) p).Pays := Pays.do_ trivial
theorem lockX_pays (p : Ptr) : (lockX (K := K) (V := V) p).Pays := Pays.do_ trivial
theorem unlockX_pays (p : Ptr) : (unlockX (K := K) (V := V) p).Pays := Pays.do_ trivial
theorem unlockXVer_pays (p : Ptr) : (unlockXVer (K := K) (V := V) p).Pays := Pays.do_ trivial
theorem upgradeX_pays (p : Ptr) : (upgradeX (K := K) (V := V) p).Pays := Pays.do_ trivial
theorem downgradeSIX_pays (p : Ptr) : (downgradeSIX (K := K) (V := V) p).Pays := Pays.do_ trivial
theorem getVer_pays (p : Ptr) : (getVer (K := K) (V := V) p).Pays := Pays.do_ trivial
theorem same_pays (p : Ptr) (v : Nat) : (same (K := K) (V := V) p v).Pays := Pays.do_ trivial
theorem tryLockS_pays (p : Ptr) (v : Nat) : (tryLockS (K := K) (V := V) p v).Pays := Pays.do_ trivial
theorem tryLockSIX_pays (p : Ptr) (v : Nat) : (tryLockSIX (K := K) (V := V) p v).Pays := Pays.do_ trivial
theorem tryLockX_pays (p : Ptr) (v : Nat) : (tryLockX (K := K) (V := V) p v).Pays := Pays.do_ trivial
theorem note_pays (b : Bool) : (note (K := K) (V := V) b).Pays := Pays.do_ trivial
macro_rules | `(tactic| pay1) => `(tactic| with_reducible first
  | exact getRoot_pays
  | exact setRoot_pays _ _
  | exact isInner_pays _
  | exact load_pays _
  | exact peek_pays _
  | exact store_pays _ _
  | exact poke_pays _ _
  | exact alloc_pays _
  | exact lockS_pays _
  | exact unlockS_pays _
  | exact lockSIX_pays _
  | exact unlockSIX_pays _
  | exact lockX_pays _
  | exact unlockX_pays _
  | exact unlockXVer_pays _
  | exact upgradeX_pays _
  | exact downgradeSIX_pays _
  | exact getVer_pays _
  | exact same_pays _ _
  | exact tryLockS_pays _ _
  | exact tryLockSIX_pays _ _
  | exact tryLockX_pays _ _
  | exact note_pays _)

syntax "pay" : tactic
macro_rules | `(tactic| pay) => `(tactic| repeat' (first | assumption | pay1 | with_reducible apply_assumption))

namespace CBlink
theorem cleanUpIfNeeded_pays (cfg : Cfg K) (p : Ptr) (n : Nat) : (cleanUpIfNeeded (V := V) cfg p n).Pays := by
  unfold cleanUpIfNeeded; pay
macro_rules | `(tactic| pay1) => `(tactic| with_reducible exact cleanUpIfNeeded_pays ..)
theorem commit_pays (p : Ptr) (rc : NodeRC) (n : Node K V) : (commit p rc n).Pays := by
  unfold commit; pay
macro_rules | `(tactic| pay1) => `(tactic| with_reducible exact commit_pays ..)
theorem leafWrite_pays (cfg : Cfg K) (p : Ptr) (k : K) (v : V) : (leafWrite cfg p k v).Pays := by
  unfold leafWrite; pay
macro_rules | `(tactic| pay1) => `(tactic| with_reducible exact leafWrite_pays ..)
theorem leafInsert_pays (cfg : Cfg K) (p : Ptr) (k : K) (v : V) : (leafInsert cfg p k v).Pays := by
  unfold leafInsert; pay
macro_rules | `(tactic| pay1) => `(tactic| with_reducible exact leafInsert_pays ..)
theorem leafDelete_pays (cfg : Cfg K) (p : Ptr) (k : K) : (leafDelete (V := V) cfg p k).Pays := by
  unfold leafDelete; pay
macro_rules | `(tactic| pay1) => `(tactic| with_reducible exact leafDelete_pays ..)
theorem insertChild_pays (cfg : Cfg K) (p r : Ptr) (k : K) : (insertChild (V := V) cfg p r k).Pays := by
  unfold insertChild; pay
macro_rules | `(tactic| pay1) => `(tactic| with_reducible exact insertChild_pays ..)
theorem deleteChild_pays (cfg : Cfg K) (p : Ptr) (k : K) : (deleteChild (V := V) cfg p k).Pays := by
  unfold deleteChild; pay
macro_rules | `(tactic| pay1) => `(tactic| with_reducible exact deleteChild_pays ..)
theorem halfSplit_pays (cfg : Cfg K) (l : Ptr) : (halfSplit (V := V) cfg l).Pays := by
  unfold halfSplit; pay
macro_rules | `(tactic| pay1) => `(tactic| with_reducible exact halfSplit_pays ..)
theorem validSplitNode_pays (l : Ptr) (k : K) : (validSplitNode (V := V) l k).Pays := by
  unfold validSplitNode; pay
macro_rules | `(tactic| pay1) => `(tactic| with_reducible exact validSplitNode_pays ..)
theorem separatorKey_pays (a l : Ptr) (k : Option K) : (separatorKey (V := V) a l k).Pays := by
  unfold separatorKey; pay
macro_rules | `(tactic| pay1) => `(tactic| with_reducible exact separatorKey_pays ..)
theorem tryRootSplit_pays (cfg : Cfg K) (l r : Ptr) (k : K) : (tryRootSplit (V := V) cfg l r k).Pays := by
  unfold tryRootSplit; pay
macro_rules | `(tactic| pay1) => `(tactic| with_reducible exact tryRootSplit_pays ..)

/-- Search code that hands nothing over. -/
def Nav.Pays (nav : Nav K V) : Prop := (∀ k f p, (nav.checkW k f p).Pays) ∧ ∀ k q f st p, (nav.searchParent k q f st p).Pays

theorem completeSplit_pays {nav : Nav K V} (hn : nav.Pays) (cfg : Cfg K) (f : Nat) :
    ∀ st node l r key, (completeSplit nav cfg f st node l r key).Pays := by
  obtain ⟨h1, h2⟩ := hn
  induction f with
  | zero => intro _ _ _ _ _; exact Pays.stuck
  | succ f ih =>
    intro st node l r key
    unfold completeSplit
    pay

theorem shrinkLoop_pays (old : Ptr) (f : Nat) : ∀ node, (shrinkLoop (K := K) (V := V) old f node).Pays := by
  induction f with
  | zero => intro _; exact Pays.stuck
  | succ f ih =>
    intro node
    unfold shrinkLoop
    have h : (retire node >>= fun _ => removeRoot (K := K) (V := V) node).Pays := by
      intro p s d e
      unfold removeRoot
      intro _ _ n _
      cases hc : n.getChild 0 with
      | ub => trivial
      | fuel => trivial
      | ok c =>
        intro _ _ _
        show Even (s || (decide (node = p) && true)) (d || decide (node = p))
        intro h
        by_cases hp : node = p
        · simp [hp]
        · simp [hp] at h ⊢
          exact e h
    have := Pays.bind h (f := fun child => do
      let cn ← load child
      if cn.rc = 1 ∧ cn.isInner = true then shrinkLoop old f child
      else do
        setRoot old child
        return child) (by intro c; pay)
    rwa [Prog.bind_assoc] at this
macro_rules | `(tactic| pay1) => `(tactic| with_reducible exact shrinkLoop_pays _ _ _)

theorem tryShrinkTree_pays (f : Nat) (node : Ptr) : (tryShrinkTree (K := K) (V := V) f node).Pays := by
  unfold tryShrinkTree; pay
macro_rules | `(tactic| pay1) => `(tactic| with_reducible exact tryShrinkTree_pays ..)

theorem mergeInto_pays (cfg : Cfg K) (l r : Ptr) : (mergeInto (V := V) cfg l r >>= fun _ => retire r).Pays := by
  intro p s d e
  unfold mergeInto
  intro ln rn
  show Acc p ((lift (ln.merge cfg rn) >>= fun n => upgradeX l >>= fun _ => store l n >>= fun _ => unlockX l >>= fun _ => upgradeX r >>= fun _ =>
    store r { rn with removed := true, next := some l } >>= fun _ => unlockX r) >>= fun _ => retire r) s d Even
  cases hc : ln.merge cfg rn with
  | ub => trivial
  | fuel => trivial
  | ok n =>
    intro _ _ _ _ _ _ _
    show Even ((s || (decide (l = p) && n.removed)) || (decide (r = p) && true)) (d || decide (r = p))
    intro h
    by_cases hp : r = p
    · simp [hp]
    · simp [hp] at h ⊢
      exact Or.inl (e h)

theorem merge_pays {nav : Nav K V} (hn : nav.Pays) (cfg : Cfg K) (f : Nat) : ∀ st node l, (merge nav cfg f st node l).Pays := by
  obtain ⟨h1, h2⟩ := hn
  induction f with
  | zero => intro _ _ _; exact Pays.stuck
  | succ f ih =>
    intro st node l
    have hm : ∀ (r : Ptr) (k : Unit → Prog K V Unit), (∀ u, (k u).Pays) → (mergeInto cfg l r >>= fun _ => retire r >>= k).Pays := by
      intro r k hk
      have := Pays.bind (mergeInto_pays (V := V) cfg l r) hk
      rwa [Prog.bind_assoc] at this
    unfold merge
    refine Pays.bind (load_pays _) fun ln => ?_
    split
    · pay
    · rename_i r _
      refine Pays.bind (lockSIX_pays _) fun _ => Pays.bind (load_pays _) fun rn => ?_
      split
      · pay
      split
      · pay
      · rename_i key _
        cases st with
        | nil => exact Pays.bind getRoot_pays fun _ => Pays.bind (h2 _ _ _ _ _) fun _ => ih _ _ _
        | cons top rest =>
          have key : ∀ (p : Ptr) (st : List Ptr), (nav.checkW key (f + 1) p >>= fun o => match o with
              | none => do
                let root ← getRoot
                let stack ← nav.searchParent key r (f + 1) st root
                merge nav cfg f stack none l
              | some p => do
                let rc ← deleteChild cfg p key
                if rc = .abortMerge then do
                  unlockSIX l
                  unlockSIX r
                else if rc = .needRetry then merge nav cfg f st (some p) l
                else do
                  mergeInto cfg l r
                  retire r
                  if rc = .completed then return ()
                  else
                    match st with
                    | [] => tryShrinkTree (f + 1) p
                    | _ :: _ => merge nav cfg f st none p).Pays := by
            intro p st
            refine Pays.bind (h1 _ _ _) fun o => ?_
            cases o with
            | none => exact Pays.bind getRoot_pays fun _ => Pays.bind (h2 _ _ _ _ _) fun _ => ih _ _ _
            | some p =>
              refine Pays.bind (deleteChild_pays _ _ _) fun rc => ?_
              by_cases e1 : rc = .abortMerge
              · rw [if_pos e1]; pay
              rw [if_neg e1]
              by_cases e2 : rc = .needRetry
              · rw [if_pos e2]; exact ih _ _ _
              rw [if_neg e2]
              refine hm _ _ fun _ => ?_
              by_cases e3 : rc = .completed
              · rw [if_pos e3]; exact Pays.pure _
              rw [if_neg e3]
              cases st with
              | nil => exact tryShrinkTree_pays _ _
              | cons => exact ih _ _ _
          cases node with
          | none => exact key _ _
          | some p => exact key _ _
end CBlink

namespace CBlink
theorem splitAnd_pays {nav : Nav K V} (hn : nav.Pays) (cfg : Cfg K) (f : Nat) (leaf : Ptr) (st : List Ptr) (k : K) {op : Ptr → Prog K V NodeRC}
    (ho : ∀ p, (op p).Pays) : (splitAnd nav cfg f leaf st k op).Pays := by
  have := completeSplit_pays hn cfg
  unfold splitAnd; pay
end CBlink

namespace CPsl
theorem checkR_pays (k : K) (f : Nat) : ∀ p, (checkR (V := V) k f p).Pays := by
  induction f with
  | zero => intro _; exact Pays.stuck
  | succ f ih => intro p; unfold checkR; pay
macro_rules | `(tactic| pay1) => `(tactic| with_reducible exact checkR_pays _ _ _)
theorem checkW_pays (k : K) (f : Nat) : ∀ p, (checkW (V := V) k f p).Pays := by
  induction f with
  | zero => intro _; exact Pays.stuck
  | succ f ih => intro p; unfold checkW; pay
macro_rules | `(tactic| pay1) => `(tactic| with_reducible exact checkW_pays _ _ _)
theorem searchChild_pays (k : K) (p : Ptr) : (searchChild (V := V) k p).Pays := by
  unfold searchChild; pay
macro_rules | `(tactic| pay1) => `(tactic| with_reducible exact searchChild_pays ..)
theorem searchLeafR_pays (k : K) (f : Nat) : ∀ p, (searchLeafR (V := V) k f p).Pays := by
  induction f with
  | zero => intro _; exact Pays.stuck
  | succ f ih => intro p; unfold searchLeafR; pay
macro_rules | `(tactic| pay1) => `(tactic| with_reducible exact searchLeafR_pays _ _ _)
theorem searchLeafW_pays (k : K) (f : Nat) : ∀ st p, (searchLeafW (V := V) k f st p).Pays := by
  induction f with
  | zero => intro _ _; exact Pays.stuck
  | succ f ih => intro st p; unfold searchLeafW; pay
macro_rules | `(tactic| pay1) => `(tactic| with_reducible exact searchLeafW_pays _ _ _ _)
theorem searchParent_pays (k : K) (q : Ptr) (f : Nat) : ∀ st p, (searchParent (V := V) k q f st p).Pays := by
  induction f with
  | zero => intro _ _; exact Pays.stuck
  | succ f ih => intro st p; unfold searchParent; pay
macro_rules | `(tactic| pay1) => `(tactic| with_reducible exact searchParent_pays _ _ _ _ _)
theorem nav_pays : (nav : CBlink.Nav K V).Pays := ⟨fun k f p => checkW_pays k f p, fun k q f st p => searchParent_pays k q f st p⟩
theorem leftmost_pays (f : Nat) : ∀ p, (leftmost (K := K) (V := V) f p).Pays := by
  induction f with
  | zero => intro _; exact Pays.stuck
  | succ f ih => intro p; unfold leftmost; pay
macro_rules | `(tactic| pay1) => `(tactic| with_reducible exact leftmost_pays _ _)
theorem iterate_pays (e : ScanKey K) (f : Nat) : ∀ p pos, (iterate (V := V) e f p pos).Pays := by
  induction f with
  | zero => intro _ _; exact Pays.stuck
  | succ f ih => intro p pos; unfold iterate; pay
macro_rules | `(tactic| pay1) => `(tactic| with_reducible exact iterate_pays _ _ _ _)

theorem read_pays (f : Nat) (k : K) : (read (V := V) f k).Pays := by
  unfold read; pay
theorem write_pays (cfg : Cfg K) (f : Nat) (k : K) (v : V) : (write cfg f k v).Pays := by
  have h := fun leaf st => CBlink.splitAnd_pays (V := V) nav_pays cfg f leaf st k (op := fun p => CBlink.leafWrite cfg p k v)
    (fun p => CBlink.leafWrite_pays _ _ _ _)
  unfold write; pay
theorem insert_pays (cfg : Cfg K) (f : Nat) (k : K) (v : V) : (insert cfg f k v).Pays := by
  have h := fun leaf st => CBlink.splitAnd_pays (V := V) nav_pays cfg f leaf st k (op := fun p => CBlink.leafInsert cfg p k v)
    (fun p => CBlink.leafInsert_pays _ _ _ _)
  unfold insert; pay
theorem update_pays (f : Nat) (k : K) (v : V) : (update f k v).Pays := by
  unfold update; pay
theorem delete_pays (cfg : Cfg K) (f : Nat) (k : K) : (delete (V := V) cfg f k).Pays := by
  have h := CBlink.merge_pays (V := V) nav_pays cfg
  unfold delete; pay

theorem exec_pays (cfg : Cfg K) (f : Nat) (op : Op K V) : (exec cfg f op).Pays := by
  cases op with
  | read k => exact Pays.bind (read_pays _ _) fun _ => Pays.pure _
  | write k v => exact Pays.bind (write_pays _ _ _ _) fun _ => Pays.pure _
  | insert k v => exact Pays.bind (insert_pays _ _ _ _) fun _ => Pays.pure _
  | update k v => exact Pays.bind (update_pays _ _ _) fun _ => Pays.pure _
  | delete k => exact Pays.bind (delete_pays _ _ _) fun _ => Pays.pure _
  | scan b e => exact Pays.stuck

theorem execS_pays (cfg : Cfg K) (f : Nat) (op : Op K V) : (execS cfg f op).Pays := by
  have := exec_pays (V := V) cfg f
  unfold execS
  cases op <;> simp only [scan] <;> pay
end CPsl

namespace COsl
theorem checkO_pays (k : K) (f : Nat) : ∀ p, (checkO (V := V) k f p).Pays := by
  induction f with
  | zero => intro _; exact Pays.stuck
  | succ f ih => intro p; unfold checkO; pay
macro_rules | `(tactic| pay1) => `(tactic| with_reducible exact checkO_pays _ _ _)
theorem checkW_pays (k : K) (f : Nat) : ∀ p, (checkW (V := V) k f p).Pays := by
  induction f with
  | zero => intro _; exact Pays.stuck
  | succ f ih => intro p; unfold checkW; pay
macro_rules | `(tactic| pay1) => `(tactic| with_reducible exact checkW_pays _ _ _)
theorem searchChild_pays (k : K) (f : Nat) : ∀ p, (searchChild (V := V) k f p).Pays := by
  induction f with
  | zero => intro _; exact Pays.stuck
  | succ f ih => intro p; unfold searchChild; pay
macro_rules | `(tactic| pay1) => `(tactic| with_reducible exact searchChild_pays _ _ _)
theorem searchLeaf_pays (k : K) (f : Nat) : ∀ p, (searchLeaf (V := V) k f p).Pays := by
  induction f with
  | zero => intro _; exact Pays.stuck
  | succ f ih => intro p; unfold searchLeaf; pay
macro_rules | `(tactic| pay1) => `(tactic| with_reducible exact searchLeaf_pays _ _ _)
theorem searchLeafW_pays (k : K) (f : Nat) : ∀ st p, (searchLeafW (V := V) k f st p).Pays := by
  induction f with
  | zero => intro _ _; exact Pays.stuck
  | succ f ih => intro st p; unfold searchLeafW; pay
macro_rules | `(tactic| pay1) => `(tactic| with_reducible exact searchLeafW_pays _ _ _ _)
theorem searchParentLoop_pays (k : K) (q : Ptr) (f : Nat) : ∀ st c p, (searchParentLoop (V := V) k q f st c p).Pays := by
  induction f with
  | zero => intro _ _ _; exact Pays.stuck
  | succ f ih => intro st c p; unfold searchParentLoop; pay
theorem nav_pays : (nav : CBlink.Nav K V).Pays := ⟨fun k f p => checkW_pays k f p, fun k q f st p => searchParentLoop_pays k q f st none p⟩
theorem nodeRead_pays (k : K) (f : Nat) : ∀ p, (nodeRead (V := V) k f p).Pays := by
  induction f with
  | zero => intro _; exact Pays.stuck
  | succ f ih => intro p; unfold nodeRead; pay
macro_rules | `(tactic| pay1) => `(tactic| with_reducible exact nodeRead_pays _ _ _)
theorem tryCleanUp_pays (cfg : Cfg K) (p : Ptr) (a b : Nat) : (tryCleanUp (V := V) cfg p a b).Pays := by
  unfold tryCleanUp; pay
macro_rules | `(tactic| pay1) => `(tactic| with_reducible exact tryCleanUp_pays ..)
theorem nodeInsert_pays (cfg : Cfg K) (k : K) (v : V) (f : Nat) : ∀ p, (nodeInsert cfg k v f p).Pays := by
  induction f with
  | zero => intro _; exact Pays.stuck
  | succ f ih => intro p; unfold nodeInsert; pay
macro_rules | `(tactic| pay1) => `(tactic| with_reducible exact nodeInsert_pays _ _ _ _ _)
theorem nodeUpdate_pays (k : K) (v : V) (f : Nat) : ∀ p, (nodeUpdate k v f p).Pays := by
  induction f with
  | zero => intro _; exact Pays.stuck
  | succ f ih => intro p; unfold nodeUpdate; pay
macro_rules | `(tactic| pay1) => `(tactic| with_reducible exact nodeUpdate_pays _ _ _ _)
theorem nodeDelete_pays (cfg : Cfg K) (k : K) (f : Nat) : ∀ p, (nodeDelete (V := V) cfg k f p).Pays := by
  induction f with
  | zero => intro _; exact Pays.stuck
  | succ f ih => intro p; unfold nodeDelete; pay
macro_rules | `(tactic| pay1) => `(tactic| with_reducible exact nodeDelete_pays _ _ _ _)
theorem insertInto_pays (cfg : Cfg K) (k : K) (v : V) (p : Ptr) : (insertInto cfg k v p).Pays := by
  unfold insertInto; pay
macro_rules | `(tactic| pay1) => `(tactic| with_reducible exact insertInto_pays ..)

theorem read_pays (f : Nat) (k : K) : (read (V := V) f k).Pays := by
  unfold read; pay
theorem write_pays (cfg : Cfg K) (f : Nat) (k : K) (v : V) : (write cfg f k v).Pays := by
  have h := fun leaf st => CBlink.splitAnd_pays (V := V) nav_pays cfg f leaf st k (op := insertInto cfg k v)
    (fun p => insertInto_pays _ _ _ _)
  unfold write; pay
theorem insert_pays (cfg : Cfg K) (f : Nat) (k : K) (v : V) : (insert cfg f k v).Pays := by
  have h := fun leaf st => CBlink.splitAnd_pays (V := V) nav_pays cfg f leaf st k (op := insertInto cfg k v)
    (fun p => insertInto_pays _ _ _ _)
  unfold insert; pay
theorem update_pays (f : Nat) (k : K) (v : V) : (update f k v).Pays := by
  unfold update; pay
theorem delete_pays (cfg : Cfg K) (f : Nat) (k : K) : (delete (V := V) cfg f k).Pays := by
  have h := CBlink.merge_pays (V := V) nav_pays cfg
  unfold delete; pay

theorem exec_pays (cfg : Cfg K) (f : Nat) (op : Op K V) : (exec cfg f op).Pays := by
  cases op with
  | read k => exact Pays.bind (read_pays _ _) fun _ => Pays.pure _
  | write k v => exact Pays.bind (write_pays _ _ _ _) fun _ => Pays.pure _
  | insert k v => exact Pays.bind (insert_pays _ _ _ _) fun _ => Pays.pure _
  | update k v => exact Pays.bind (update_pays _ _ _) fun _ => Pays.pure _
  | delete k => exact Pays.bind (delete_pays _ _ _) fun _ => Pays.pure _
  | scan b e => exact Pays.stuck

theorem endPosition_pays (e : ScanKey K) (p : Ptr) : (endPosition (V := V) e p).Pays := by
  unfold endPosition; pay
macro_rules | `(tactic| pay1) => `(tactic| with_reducible exact endPosition_pays ..)
theorem seek_pays (e : ScanKey K) (f : Nat) (it : It K) : (seek (V := V) e f it).Pays := by
  unfold seek; pay
macro_rules | `(tactic| pay1) => `(tactic| with_reducible exact seek_pays ..)
theorem noteEnd_pays (it : It K) : (noteEnd (V := V) it).Pays := by
  unfold noteEnd; pay
macro_rules | `(tactic| pay1) => `(tactic| with_reducible exact noteEnd_pays ..)
theorem reset_pays (e : ScanKey K) (f : Nat) (it : It K) : (reset (V := V) e f it).Pays := by
  unfold reset; pay
macro_rules | `(tactic| pay1) => `(tactic| with_reducible exact reset_pays ..)
theorem iterate_pays (e : ScanKey K) (f : Nat) : ∀ it, (iterate (V := V) e f it).Pays := by
  induction f with
  | zero => intro _; exact Pays.stuck
  | succ f ih => intro it; unfold iterate; pay
macro_rules | `(tactic| pay1) => `(tactic| with_reducible exact iterate_pays _ _ _)
theorem leftmostChild_pays (f : Nat) : ∀ p, (leftmostChild (K := K) (V := V) f p).Pays := by
  induction f with
  | zero => intro _; exact Pays.stuck
  | succ f ih => intro p; unfold leftmostChild; pay
macro_rules | `(tactic| pay1) => `(tactic| with_reducible exact leftmostChild_pays _ _)
theorem leftmost_pays (f : Nat) : ∀ p, (leftmost (K := K) (V := V) f p).Pays := by
  induction f with
  | zero => intro _; exact Pays.stuck
  | succ f ih => intro p; unfold leftmost; pay
macro_rules | `(tactic| pay1) => `(tactic| with_reducible exact leftmost_pays _ _)
theorem execS_pays (cfg : Cfg K) (f : Nat) (op : Op K V) : (execS cfg f op).Pays := by
  have := exec_pays (V := V) cfg f
  unfold execS
  cases op <;> simp only [scan, scanFrom] <;> pay
end COsl

end BT
