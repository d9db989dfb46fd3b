import Verif.ConcScan
import Verif.OmlConc
import Verif.LoadRun
import Verif.LockSolo

/-!
# Calls that do not change the shape of the tree

`Prog.Mild w Q`: the code stores no page as removed, does not set the root and notes nothing, provided that no page it reads is removed and
(if `w` is false) that it sees no version but 0; if `w` is false it takes no X lock and writes no page.  If all calls of an execution are of
this kind, none of the noted situations occurs.
-/

set_option linter.unusedSectionVars false

namespace BT
open Spec
variable {K V : Type} [LinearOrder K] {cfg : Cfg K} {α β : Type} {w : Bool}

def Act.mild (w : Bool) : {β : Type} → Act K V β → Prop
  | _, .store _ n | _, .poke _ n => w = true ∧ n.removed = false
  | _, .alloc n => n.removed = false
  | _, .lockX _ | _, .upgradeX _ | _, .tryLockX _ _ | _, .unlockX _ | _, .unlockXVer _ | _, .downgradeSIX _ => w = true
  | _, .note b => b = false
  | _, .setRoot _ _ | _, .free _ => False
  | _, _ => True

/-- What the action may return in a memory without removed pages. -/
def Act.out (w : Bool) : {β : Type} → Act K V β → β → Prop
  | _, .load _, n | _, .peek _, n => n.removed = false
  | _, .getVer _, v => w = false → v = 0
  | _, .same _ v, b => w = false → v = 0 → b = true
  | _, _, _ => True

def Prog.Mild (w : Bool) (Q : α → Prop) : Prog K V α → Prop
  | .ret a => Q a
  | .ub | .stuck => True
  | .act a k => a.mild w ∧ ∀ b, a.out w b → (k b).Mild w Q

namespace Prog.Mild
variable {c : Prog K V α} {f : α → Prog K V β} {Q : β → Prop} {R : α → Prop} {p : Ptr}

theorem bind (h : c.Mild w R) (hf : ∀ a, R a → (f a).Mild w Q) : (c >>= f).Mild w Q := by
  induction c with
  | ret a => exact hf a h
  | act a k ih => exact ⟨h.1, fun b hb => ih b (h.2 b hb)⟩
  | ub => trivial
  | stuck => trivial

theorem lift {r : Res α} (h : ∀ a, r = .ok a → (f a).Mild w Q) : (Prog.lift r >>= f).Mild w Q := by
  cases r with
  | ok a => exact h a rfl
  | _ => trivial

section
variable {g : Node K V → Prog K V β} {v : Nat → Prog K V β} {b : Bool → Prog K V β} {r : Ptr → Prog K V β} {u : Unit → Prog K V β} {n : Node K V} {x : Nat}
theorem load (h : ∀ n, n.removed = false → (g n).Mild w Q) : (Prog.load p >>= g).Mild w Q := ⟨trivial, h⟩
theorem peek (h : ∀ n, n.removed = false → (g n).Mild w Q) : (Prog.peek p >>= g).Mild w Q := ⟨trivial, h⟩
theorem ver (h : ∀ x, (w = false → x = 0) → (v x).Mild w Q) : (Prog.getVer p >>= v).Mild w Q := ⟨trivial, h⟩
theorem same (h : ∀ c, (w = false → x = 0 → c = true) → (b c).Mild w Q) : (Prog.same p x >>= b).Mild w Q := ⟨trivial, h⟩
theorem inner (h : ∀ c, (b c).Mild w Q) : (Prog.isInner p >>= b).Mild w Q := ⟨trivial, fun c _ => h c⟩
theorem root (h : ∀ q, (r q).Mild w Q) : (Prog.getRoot >>= r).Mild w Q := ⟨trivial, fun c _ => h c⟩
theorem note {d : Bool} (hd : d = false) (h : (u ()).Mild w Q) : (Prog.note d >>= u).Mild w Q := ⟨hd, fun _ _ => h⟩
theorem lockS (h : (u ()).Mild w Q) : (Prog.lockS p >>= u).Mild w Q := ⟨trivial, fun _ _ => h⟩
theorem unlockS (h : (u ()).Mild w Q) : (Prog.unlockS p >>= u).Mild w Q := ⟨trivial, fun _ _ => h⟩
theorem lockSIX (h : (u ()).Mild w Q) : (Prog.lockSIX p >>= u).Mild w Q := ⟨trivial, fun _ _ => h⟩
theorem unlockSIX (h : (u ()).Mild w Q) : (Prog.unlockSIX p >>= u).Mild w Q := ⟨trivial, fun _ _ => h⟩
theorem upgradeX (h : (u ()).Mild true Q) : (Prog.upgradeX p >>= u).Mild true Q := ⟨rfl, fun _ _ => h⟩
theorem unlockX (h : (u ()).Mild true Q) : (Prog.unlockX p >>= u).Mild true Q := ⟨rfl, fun _ _ => h⟩
theorem tryLockX (h : ∀ c, (b c).Mild true Q) : (Prog.tryLockX p x >>= b).Mild true Q := ⟨rfl, fun c _ => h c⟩
theorem store (hn : n.removed = false) (h : (u ()).Mild true Q) : (Prog.store p n >>= u).Mild true Q := ⟨⟨rfl, hn⟩, fun _ _ => h⟩
end
end Prog.Mild

/-! ## Executions -/

/-- No page is removed, nothing has been noted, and if `w` is false then no page has been written. -/
structure Mem.Mild (w : Bool) (m : Mem K V) : Prop where
  raced : m.raced = false
  pages : ∀ p n, m.heap p = some n → n.removed = false
  vers : w = false → ∀ p, (m.lk p).ver = 0 ∧ (m.lk p).x = none

theorem Act.run_mild {a : Act K V β} {t : Tid} {m m' : Mem K V} {b : β} (hm : m.Mild w) (ha : a.mild w) (hr : a.run t m = .run (b, m')) :
    m'.Mild w ∧ a.out w b := by
  have hset : ∀ p n, n.removed = false → (m.setHeap p n).Mild w := fun p n hn => by
    refine ⟨hm.raced, fun q n' hq => ?_, hm.vers⟩
    simp only [Mem.setHeap] at hq
    split at hq
    · cases hq; exact hn
    · exact hm.pages q n' hq
  have hlk : ∀ p l, (w = false → l.ver = (m.lk p).ver ∧ l.x = (m.lk p).x) → (m.setLk p l).Mild w := fun p l hl => by
    refine ⟨hm.raced, hm.pages, fun hw q => ?_⟩
    simp only [Mem.setLk]
    split
    · next e => subst e; rw [(hl hw).1, (hl hw).2]; exact hm.vers hw q
    · exact hm.vers hw q
  cases a with
  | getRoot => cases hr; exact ⟨hm, trivial⟩
  | setRoot e p => exact ha.elim
  | isInner p => simp only [Act.run] at hr; split at hr <;> cases hr; exact ⟨hm, trivial⟩
  | load p =>
    simp only [Act.run] at hr
    split at hr
    · cases hr
    · next n e => split at hr <;> cases hr; exact ⟨hm, hm.pages _ _ e⟩
  | peek p =>
    simp only [Act.run] at hr
    split at hr
    · cases hr
    · next n e => cases hr; exact ⟨hm, hm.pages _ _ e⟩
  | store p n =>
    simp only [Act.run] at hr
    split at hr
    · cases hr
    · split at hr <;> cases hr; exact ⟨hset _ _ ha.2, trivial⟩
  | poke p n =>
    simp only [Act.run] at hr
    split at hr
    · cases hr
    · split at hr <;> cases hr; exact ⟨hset _ _ ha.2, trivial⟩
  | alloc n =>
    cases hr
    have := hset m.fresh n ha
    exact ⟨⟨this.raced, this.pages, this.vers⟩, trivial⟩
  | retire p => cases hr; exact ⟨⟨hm.raced, hm.pages, hm.vers⟩, trivial⟩
  | lockS p =>
    simp only [Act.run] at hr
    split at hr
    · cases hr
    · split at hr <;> cases hr; exact ⟨hlk _ _ fun _ => ⟨rfl, rfl⟩, trivial⟩
  | unlockS p => simp only [Act.run] at hr; split at hr <;> cases hr; exact ⟨hlk _ _ fun _ => ⟨rfl, rfl⟩, trivial⟩
  | lockSIX p =>
    simp only [Act.run] at hr
    split at hr
    · cases hr
    · split at hr <;> cases hr; exact ⟨hlk _ _ fun _ => ⟨rfl, rfl⟩, trivial⟩
  | unlockSIX p => simp only [Act.run] at hr; split at hr <;> cases hr; exact ⟨hlk _ _ fun _ => ⟨rfl, rfl⟩, trivial⟩
  | lockX p =>
    have ha : w = true := ha
    subst ha
    simp only [Act.run] at hr
    split at hr
    · cases hr
    · split at hr <;> cases hr; exact ⟨hlk _ _ fun h => (by cases h), trivial⟩
  | unlockX p => have ha : w = true := ha; subst ha; simp only [Act.run] at hr; split at hr <;> cases hr; exact ⟨hlk _ _ fun h => (by cases h), trivial⟩
  | unlockXVer p => have ha : w = true := ha; subst ha; simp only [Act.run] at hr; split at hr <;> cases hr; exact ⟨hlk _ _ fun h => (by cases h), trivial⟩
  | upgradeX p =>
    have ha : w = true := ha
    subst ha
    simp only [Act.run] at hr
    split at hr
    · split at hr <;> cases hr; exact ⟨hlk _ _ fun h => (by cases h), trivial⟩
    · cases hr
  | downgradeSIX p => have ha : w = true := ha; subst ha; simp only [Act.run] at hr; split at hr <;> cases hr; exact ⟨hlk _ _ fun h => (by cases h), trivial⟩
  | getVer p =>
    simp only [Act.run] at hr
    split at hr
    · cases hr
    · split at hr <;> cases hr; exact ⟨hm, fun hw => (hm.vers hw p).1⟩
  | same p v =>
    simp only [Act.run] at hr
    split at hr
    · cases hr
    · cases hr
      exact ⟨hm, fun hw hv => by subst hv; simp [hm.vers hw p]⟩
  | tryLockS p v =>
    simp only [Act.run] at hr
    split at hr
    · cases hr
    · split at hr <;> cases hr
      · exact ⟨hlk _ _ fun _ => ⟨rfl, rfl⟩, trivial⟩
      · exact ⟨hm, trivial⟩
  | tryLockSIX p v =>
    simp only [Act.run] at hr
    split at hr
    · cases hr
    · split at hr
      · split at hr <;> cases hr; exact ⟨hlk _ _ fun _ => ⟨rfl, rfl⟩, trivial⟩
      · cases hr; exact ⟨hm, trivial⟩
  | tryLockX p v =>
    have ha : w = true := ha
    subst ha
    simp only [Act.run] at hr
    split at hr
    · cases hr
    · split at hr
      · split at hr <;> cases hr; exact ⟨hlk _ _ fun h => (by cases h), trivial⟩
      · cases hr; exact ⟨hm, trivial⟩
  | note b => cases hr; have ha : b = false := ha; subst ha; exact ⟨⟨by simp [hm.raced], hm.pages, hm.vers⟩, trivial⟩
  | free p => exact ha.elim

/-- If all calls are of this kind, nothing is noted. -/
theorem Conf.mild {I : CImpl K V} {adm : Op K V → Prop} (hI : ∀ fuel op, adm op → (I fuel op).Mild w (fun _ => True)) {c0 c : Conf K V}
    (h0 : c0.mem.Mild w) (ht : ∀ t, c0.thr t = none) (hc : Conf.Reach I c0 c) (ha : ∀ t op, .inv t op ∈ c.hist → adm op) :
    c.mem.Mild w := by
  suffices h : c.mem.Mild w ∧ ∀ t p, c.thr t = some p → p.Mild w (fun _ => True) from h.1
  induction hc with
  | refl => exact ⟨h0, fun t p h => by rw [ht] at h; cases h⟩
  | @step c1 c2 h1 h2 ih =>
    cases h2 with
    | inv t op fuel hn =>
      obtain ⟨i1, i2⟩ := ih fun t op hm => ha t op (List.mem_append_left _ hm)
      refine ⟨i1, fun u p hp => ?_⟩
      simp only [Spec.upd] at hp
      split at hp
      · cases hp; exact hI fuel op (ha t op (by simp))
      · exact i2 u p hp
    | @act t β a k b m' hp hr =>
      obtain ⟨i1, i2⟩ := ih ha
      obtain ⟨j1, j2⟩ := i2 t _ hp
      obtain ⟨k1, k2⟩ := Act.run_mild i1 j1 hr
      refine ⟨k1, fun u p hp => ?_⟩
      simp only [Spec.upd] at hp
      split at hp
      · cases hp; exact j2 b k2
      · exact i2 u p hp
    | crash hp hr =>
      obtain ⟨i1, i2⟩ := ih ha
      refine ⟨i1, fun u p hp => ?_⟩
      simp only [Spec.upd] at hp
      split at hp
      · cases hp; trivial
      · exact i2 u p hp
    | res hp =>
      obtain ⟨i1, i2⟩ := ih fun t op hm => ha t op (List.mem_append_left _ hm)
      refine ⟨i1, fun u p hp => ?_⟩
      simp only [Spec.upd] at hp
      split at hp
      · cases hp
      · exact i2 u p hp

/-- If nobody writes, nobody waits. -/
theorem Conf.never_waits {c : Conf K V} (hm : c.mem.Mild false) (hr : c.Readers) (hh : ∀ t op, .inv t op ∈ c.hist → ¬ Writes op) (t : Tid) :
    ¬ c.Waiting t := by
  rintro ⟨β, a, k, h1, h2⟩
  obtain ⟨op, hp, hs⟩ := hr t _ h1
  obtain ⟨h', h'', e, -⟩ := hp
  rcases hs with hs | ⟨hs, -⟩
  · exact hh t op (by rw [e]; simp) hs
  · have hx := fun p => (hm.vers rfl p).2
    have hs := hs.1
    cases a with
    | lockS p => simp only [Act.run, hx] at h2; split at h2 <;> simp at h2
    | getVer p => simp only [Act.run, hx] at h2; split at h2 <;> simp at h2
    | load p => simp only [Act.run] at h2; split at h2 <;> try split at h2
                all_goals cases h2
    | peek p => simp only [Act.run] at h2; split at h2 <;> cases h2
    | isInner p => simp only [Act.run] at h2; split at h2 <;> cases h2
    | same p v => simp only [Act.run] at h2; split at h2 <;> cases h2
    | unlockS p => simp only [Act.run] at h2; split at h2 <;> cases h2
    | getRoot => cases h2
    | note b => cases h2
    | _ => exact hs.elim

/-! ## PSL -/

theorem Node.setPayload_removed {n n' : Node K V} {pos : Nat} {v : V} (h : n.setPayload pos v = .ok n') : n'.removed = n.removed := by
  unfold Node.setPayload at h
  split at h <;> cases h
  rfl

namespace CPsl
variable {k : K} {p : Ptr}
open Prog

theorem checkR_m : ∀ (f : Nat) (p : Ptr), (checkR k f p : Prog K V (Option Ptr)).Mild w (fun _ => True)
  | 0, _ => trivial
  | f + 1, p => by
    rw [checkR]
    refine Mild.lockS (Mild.load fun n hn => ?_)
    show Prog.Mild w _ (ite _ _ _)
    split
    · trivial
    · refine Mild.unlockS ?_
      cases h : n.next with
      | none => trivial
      | some q => exact checkR_m f q

theorem checkW_m : ∀ (f : Nat) (p : Ptr), (checkW k f p : Prog K V (Option Ptr)).Mild w (fun _ => True)
  | 0, _ => trivial
  | f + 1, p => by
    rw [checkW]
    refine Mild.lockSIX (Mild.load fun n hn => ?_)
    show Prog.Mild w _ (ite _ _ _)
    split
    · trivial
    · refine Mild.unlockSIX ?_
      cases h : n.next with
      | none => trivial
      | some q => exact checkW_m f q

theorem searchChild_m : (searchChild k p : Prog K V Ptr).Mild w (fun _ => True) :=
  Mild.load fun _ _ => Mild.lift fun _ _ => Mild.lift fun _ _ => Mild.unlockS trivial

theorem searchLeafR_m : ∀ (f : Nat) (p : Ptr), (searchLeafR k f p : Prog K V Ptr).Mild w (fun _ => True)
  | 0, _ => trivial
  | f + 1, p => by
    rw [searchLeafR]
    refine Mild.bind (checkR_m _ _) fun o _ => ?_
    cases o with
    | none => exact Mild.root fun root => searchLeafR_m f root
    | some p =>
      refine Mild.inner fun inner => ?_
      show Prog.Mild w _ (ite _ _ _)
      split
      · exact Mild.bind searchChild_m fun q _ => searchLeafR_m f q
      · trivial

theorem searchLeafW_m : ∀ (f : Nat) (st : List Ptr) (p : Ptr), (searchLeafW k f st p : Prog K V (Ptr × List Ptr)).Mild w (fun _ => True)
  | 0, _, _ => trivial
  | f + 1, st, p => by
    rw [searchLeafW]
    refine Mild.inner fun inner => ?_
    show Prog.Mild w _ (ite _ _ _)
    split
    · refine Mild.bind (checkR_m _ _) fun o _ => ?_
      cases o with
      | none => exact Mild.root fun root => searchLeafW_m f _ root
      | some p => exact Mild.bind searchChild_m fun q _ => searchLeafW_m f _ q
    · refine Mild.bind (checkW_m _ _) fun o _ => ?_
      cases o with
      | none => trivial
      | some p => trivial

theorem leftmost_m : ∀ (f : Nat) (p : Ptr), (leftmost f p : Prog K V Ptr).Mild w (fun _ => True)
  | 0, _ => trivial
  | f + 1, p => by
    rw [leftmost]
    refine Mild.inner fun inner => ?_
    show Prog.Mild w _ (ite _ _ _)
    split
    · refine Mild.lockS (Mild.load fun n hn => ?_)
      show Prog.Mild w _ (ite _ _ _)
      split
      · exact Mild.unlockS (Mild.root fun root => leftmost_m f root)
      · exact Mild.lift fun q _ => Mild.unlockS (leftmost_m f q)
    · exact Mild.lockS trivial

theorem iterate_m {e : ScanKey K} : ∀ (f : Nat) (p : Ptr) (pos : Nat), (iterate e f p pos : Prog K V (List (K × V))).Mild w (fun _ => True)
  | 0, _, _ => trivial
  | f + 1, p, pos => by
    rw [iterate]
    refine Mild.load fun n hn => Mild.note hn (Mild.lift fun x _ => Mild.lift fun l _ => ?_)
    split
    · exact Mild.unlockS trivial
    · cases h : n.next with
      | none => trivial
      | some q => exact Mild.lockS (Mild.unlockS (Mild.bind (iterate_m f q 0) fun _ _ => trivial))

theorem read_m {fuel : Nat} : (read fuel k : Prog K V (Option V)).Mild w (fun _ => True) := by
  unfold read
  exact Mild.root fun root => Mild.bind (searchLeafR_m _ _) fun _ _ => Mild.load fun _ _ => Mild.lift fun _ _ => Mild.unlockS trivial

theorem scan_m {fuel : Nat} {b e : ScanKey K} : (scan fuel b e : Prog K V (List (K × V))).Mild w (fun _ => True) := by
  unfold scan
  refine Mild.root fun root => ?_
  cases b with
  | none => exact Mild.bind (leftmost_m _ _) fun _ _ => Mild.load fun _ _ => Mild.lift fun _ _ => iterate_m _ _ _
  | some x => exact Mild.bind (searchLeafR_m _ _) fun _ _ => Mild.load fun _ _ => Mild.lift fun _ _ => iterate_m _ _ _

theorem _root_.BT.Node.leafUpdate_removed {n n' : Node K V} {v : V} {rc : RC} (h : n.leafUpdate k v = .ok (rc, n')) : n'.removed = n.removed := by
  unfold Node.leafUpdate at h
  obtain ⟨x, -, h⟩ := res_bind h
  dsimp only at h
  split at h
  · obtain ⟨y, h1, h⟩ := res_bind h
    cases h
    exact Node.setPayload_removed h1
  · cases h
    rfl

theorem update_m {fuel : Nat} {v : V} : (update fuel k v : Prog K V RC).Mild true (fun _ => True) := by
  unfold update
  refine Mild.root fun root => Mild.bind (searchLeafW_m _ _ _) fun x _ => Mild.load fun n hn => Mild.lift fun y hy => ?_
  show Prog.Mild true _ (ite _ _ _)
  split
  · exact Mild.upgradeX (Mild.store ((Node.leafUpdate_removed hy).trans hn) (Mild.unlockX trivial))
  · exact Mild.unlockSIX trivial
end CPsl

/-! ## OSL -/

namespace COsl
variable {k : K} {p : Ptr}
open Prog

theorem checkO_m : ∀ (f : Nat) (p : Ptr), (checkO k f p : Prog K V (Option (Ptr × Nat))).Mild w (fun o => ∀ x, o = some x → w = false → x.2 = 0)
  | 0, _ => trivial
  | f + 1, p => by
    rw [checkO]
    refine Mild.ver fun v hv => Mild.peek fun n1 _ => Mild.peek fun n2 _ => ?_
    show Prog.Mild w _ (ite _ _ _)
    split
    · refine Mild.same fun b _ => ?_
      show Prog.Mild w _ (ite _ _ _)
      split
      · exact fun x hx => by cases hx; exact hv
      · exact checkO_m f p
    · refine Mild.peek fun n _ => Mild.same fun b _ => ?_
      show Prog.Mild w _ (ite _ _ _)
      split
      · cases h : n.next with
        | none => exact fun x hx => by cases hx
        | some q => exact checkO_m f q
      · exact checkO_m f p

theorem searchChild_m : ∀ (f : Nat) (p : Ptr), (searchChild k f p : Prog K V (Option (Ptr × Ptr))).Mild w (fun _ => True)
  | 0, _ => trivial
  | f + 1, p => by
    rw [searchChild]
    refine Mild.bind (checkO_m _ _) fun o _ => ?_
    cases o with
    | none => trivial
    | some x =>
      refine Mild.peek fun n _ => Mild.lift fun y _ => Mild.lift fun c _ => Mild.same fun b _ => ?_
      show Prog.Mild w _ (ite _ _ _)
      split
      · trivial
      · exact searchChild_m f _

theorem searchLeaf_m : ∀ (f : Nat) (p : Ptr), (searchLeaf k f p : Prog K V Ptr).Mild w (fun _ => True)
  | 0, _ => trivial
  | f + 1, p => by
    rw [searchLeaf]
    refine Mild.inner fun b => ?_
    show Prog.Mild w _ (ite _ _ _)
    split
    · refine Mild.bind (searchChild_m _ _) fun o _ => ?_
      cases o with
      | none => exact Mild.root fun root => searchLeaf_m f root
      | some x => exact searchLeaf_m f _
    · trivial

theorem nodeRead_m : ∀ (f : Nat) (p : Ptr), (nodeRead k f p : Prog K V (Option V)).Mild w (fun _ => True)
  | 0, _ => trivial
  | f + 1, p => by
    rw [nodeRead]
    refine Mild.bind (checkO_m _ _) fun o _ => ?_
    cases o with
    | none => trivial
    | some x =>
      refine Mild.peek fun n _ => Mild.lift fun y _ => Mild.same fun b _ => ?_
      show Prog.Mild w _ (ite _ _ _)
      split
      · trivial
      · exact nodeRead_m f _

theorem nodeUpdate_m {v : V} : ∀ (f : Nat) (p : Ptr), (nodeUpdate k v f p : Prog K V RC).Mild true (fun _ => True)
  | 0, _ => trivial
  | f + 1, p => by
    rw [nodeUpdate]
    refine Mild.bind (checkO_m _ _) fun o _ => ?_
    cases o with
    | none => trivial
    | some x =>
      refine Mild.peek fun n _ => Mild.lift fun y _ => ?_
      show Prog.Mild true _ (ite _ _ _)
      split
      · refine Mild.tryLockX fun b => ?_
        show Prog.Mild true _ (ite _ _ _)
        split
        · exact Mild.load fun n hn => Mild.lift fun n' hn' => Mild.store ((Node.setPayload_removed hn').trans hn) (Mild.unlockX trivial)
        · exact nodeUpdate_m f _
      · refine Mild.same fun b _ => ?_
        show Prog.Mild true _ (ite _ _ _)
        split
        · trivial
        · exact nodeUpdate_m f _

theorem read_m {fuel : Nat} : (read fuel k : Prog K V (Option V)).Mild w (fun _ => True) := by
  unfold read
  exact Mild.root fun root => Mild.bind (searchLeaf_m _ _) fun _ _ => nodeRead_m _ _

theorem update_m {fuel : Nat} {v : V} : (update fuel k v : Prog K V RC).Mild true (fun _ => True) := by
  unfold update
  exact Mild.root fun root => Mild.bind (searchLeaf_m _ _) fun _ _ => nodeUpdate_m _ _

theorem leftmostChild_m : ∀ (f : Nat) (p : Ptr), (leftmostChild f p : Prog K V (Option Ptr)).Mild w (fun _ => True)
  | 0, _ => trivial
  | f + 1, p => by
    rw [leftmostChild]
    refine Mild.ver fun v _ => Mild.peek fun n _ => Mild.same fun b _ => ?_
    show Prog.Mild w _ (ite _ _ _)
    split
    · show Prog.Mild w _ (ite _ _ _)
      split
      · trivial
      · exact Mild.lift fun _ _ => trivial
    · exact leftmostChild_m f p

theorem leftmost_m : ∀ (f : Nat) (p : Ptr), (leftmost f p : Prog K V Ptr).Mild w (fun _ => True)
  | 0, _ => trivial
  | f + 1, p => by
    rw [leftmost]
    refine Mild.inner fun b => ?_
    show Prog.Mild w _ (ite _ _ _)
    split
    · refine Mild.bind (leftmostChild_m _ _) fun o _ => ?_
      cases o with
      | none => exact Mild.root fun root => leftmost_m f root
      | some x => exact leftmost_m f _
    · trivial

theorem endPosition_m {e : ScanKey K} : (endPosition e p : Prog K V (Bool × Nat)).Mild w (fun _ => True) := by
  unfold endPosition
  refine Mild.peek fun n _ => ?_
  show Prog.Mild w _ (ite _ _ _)
  split
  · cases e with
    | none => exact Mild.peek fun _ _ => trivial
    | some x => exact Mild.peek fun _ _ => Mild.lift fun _ _ => trivial
  · exact Mild.peek fun _ _ => trivial

theorem seek_m {e : ScanKey K} {f : Nat} {it : It K} : (seek e f it : Prog K V (It K)).Mild false (fun it => it.ver = 0) := by
  unfold seek
  cases h : it.key with
  | none => exact Mild.ver fun v hv => Mild.bind endPosition_m fun _ _ => hv rfl
  | some k =>
    refine Mild.bind (checkO_m _ _) fun o ho => ?_
    cases o with
    | none => trivial
    | some x => exact Mild.peek fun _ _ => Mild.lift fun _ _ => Mild.bind endPosition_m fun _ _ => ho x rfl rfl

theorem reset_m {e : ScanKey K} {f : Nat} {it : It K} : (reset e f it : Prog K V (It K)).Mild false (fun it => it.ver = 0) := by
  unfold reset
  refine Mild.bind seek_m fun it hit => ?_
  unfold noteEnd
  split
  · exact Mild.same fun b hb => Mild.note (by simp [hb rfl hit]) hit
  · exact hit

theorem iterate_m {e : ScanKey K} : ∀ (f : Nat) (it : It K), it.ver = 0 → (iterate e f it : Prog K V (List (K × V))).Mild false (fun _ => True)
  | 0, _, _ => trivial
  | f + 1, it, hit => by
    have again : ∀ it' : It K, (reset e (f + 1) it' >>= fun it => iterate e f it : Prog K V (List (K × V))).Mild false (fun _ => True) :=
      fun it' => Mild.bind reset_m fun it h => iterate_m f it h
    rw [iterate]
    split
    · refine Mild.peek fun n _ => Mild.same fun b _ => ?_
      split
      · split
        · trivial
        · split
          · trivial
          · dsimp only
            split
            · exact iterate_m f _ hit
            · split
              · trivial
              · exact Mild.bind (iterate_m f _ hit) fun _ _ => trivial
      · exact again _
    · split
      · trivial
      · refine Mild.peek fun n _ => Mild.same fun b _ => ?_
        split
        · split
          · trivial
          · exact again _
        · exact again _

theorem scanFrom_m {fuel : Nat} {b e : ScanKey K} : (scanFrom fuel b e p : Prog K V (List (K × V))).Mild false (fun _ => True) := by
  unfold scanFrom
  exact Mild.bind reset_m fun it h => iterate_m _ _ h

theorem scan_m {fuel : Nat} {b e : ScanKey K} : (scan fuel b e : Prog K V (List (K × V))).Mild false (fun _ => True) := by
  unfold scan
  refine Mild.root fun root => ?_
  cases b with
  | none => exact Mild.bind (leftmost_m _ _) fun _ _ => scanFrom_m
  | some x => exact Mild.bind (searchLeaf_m _ _) fun _ _ => scanFrom_m
end COsl

/-! ## OML -/

namespace COml
variable {k : K} {p : Ptr}
open Prog

theorem searchChild_m : ∀ (f : Nat) (p : Ptr), (searchChild k f p : Prog K V (Option Ptr)).Mild w (fun _ => True)
  | 0, _ => trivial
  | f + 1, p => by
    rw [searchChild]
    refine Mild.ver fun v _ => Mild.peek fun n1 _ => Mild.peek fun n2 _ => ?_
    show Prog.Mild w _ (ite _ _ _)
    split
    · refine Mild.same fun b _ => ?_
      show Prog.Mild w _ (ite _ _ _)
      split
      · trivial
      · exact searchChild_m f p
    · refine Mild.peek fun n _ => Mild.lift fun x _ => Mild.lift fun c _ => Mild.same fun b _ => ?_
      show Prog.Mild w _ (ite _ _ _)
      split
      · trivial
      · exact searchChild_m f p

theorem descendForRead_m : ∀ (f : Nat) (p : Ptr), (descendForRead k f p : Prog K V Ptr).Mild w (fun _ => True)
  | 0, _ => trivial
  | f + 1, p => by
    rw [descendForRead]
    refine Mild.inner fun b => ?_
    show Prog.Mild w _ (ite _ _ _)
    split
    · refine Mild.bind (searchChild_m _ _) fun o _ => ?_
      cases o with
      | none => exact Mild.root fun root => descendForRead_m f root
      | some c => exact descendForRead_m f c
    · trivial

theorem nodeRead_m : ∀ (f : Nat) (p : Ptr), (nodeRead k f p : Prog K V (Option V)).Mild w (fun _ => True)
  | 0, _ => trivial
  | f + 1, p => by
    rw [nodeRead]
    refine Mild.bind (COsl.checkO_m _ _) fun o _ => ?_
    cases o with
    | none => trivial
    | some x =>
      refine Mild.peek fun n _ => Mild.lift fun y _ => Mild.same fun b _ => ?_
      show Prog.Mild w _ (ite _ _ _)
      split
      · trivial
      · exact nodeRead_m f _

theorem read_m {fuel : Nat} : (read fuel k : Prog K V (Option V)).Mild w (fun _ => True) := by
  unfold read
  exact Mild.root fun root => Mild.bind (descendForRead_m _ _) fun _ _ => nodeRead_m _ _

theorem scan_m {fuel : Nat} {b e : ScanKey K} : (scan fuel b e : Prog K V (List (K × V))).Mild false (fun _ => True) := by
  unfold scan
  refine Mild.root fun root => ?_
  cases b with
  | none => exact Mild.bind (COsl.leftmost_m _ _) fun _ _ => COsl.scanFrom_m
  | some x => exact Mild.bind (descendForRead_m _ _) fun _ _ => COsl.scanFrom_m
end COml

theorem InvC.mild {s : St K V} {m : Map K V} (h : InvC cfg s m) : (Conf.start s).mem.Mild w :=
  ⟨rfl, fun _ _ hp => (h.page hp).2, fun _ _ => ⟨rfl, rfl⟩⟩

end BT
