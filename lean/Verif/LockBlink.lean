import Verif.LockRun
import Verif.SizeInv

/-!
# The locks of the code that PSL and OSL share
-/

set_option linter.unusedSectionVars false

namespace BT
open Prog
variable {K V : Type}

/-! ## Rules -/
namespace Vw
variable {P : Lp K V} {σ : Vis K V} {α β : Type} {Q : α → Vis K V → Prop} {p : Ptr}

theorem call {c : Prog K V β} {f : β → Prog K V α} {R : β → Vis K V → Prop} (h : c.vwp P σ R) (hf : ∀ a σ', R a σ' → (f a).vwp P σ' Q) :
    (c >>= f).vwp P σ Q := vwp_bind.2 (vwp_mono h hf)

theorem lift {r : Res β} {f : β → Prog K V α} (h : ∀ a, r = .ok a → (f a).vwp P σ Q) : (Prog.lift r >>= f).vwp P σ Q := by
  cases r with
  | ok a => exact h a rfl
  | ub => trivial
  | fuel => trivial

theorem getRoot {f : Ptr → Prog K V α} (h : ∀ p, (f p).vwp P σ Q) : (Prog.getRoot >>= f).vwp P σ Q := h
theorem setRoot {e p : Ptr} {f : Unit → Prog K V α} (h : (f ()).vwp P σ Q) : (Prog.setRoot e p >>= f).vwp P σ Q := h
theorem isInner {f : Bool → Prog K V α} (h : ∀ b, (f b).vwp P σ Q) : (Prog.isInner p >>= f).vwp P σ Q := h
theorem load {f : Node K V → Prog K V α} (h : ∀ n, P.pg n → σ.L p ≠ Md.none → (∀ n', σ.H p = some n' → n' = n) → (f n).vwp P (σ.know P p n) Q) :
    (Prog.load p >>= f).vwp P σ Q := h
theorem peek {f : Node K V → Prog K V α} (h : ∀ n, P.pg n → (f n).vwp P (σ.saw P p n) Q) : (Prog.peek p >>= f).vwp P σ Q := h
theorem store {n : Node K V} {f : Unit → Prog K V α} (hn : P.pg n) (h : (σ.L p).x = true → (f ()).vwp P (σ.know P p n) Q) :
    (Prog.store p n >>= f).vwp P σ Q := ⟨hn, h⟩
theorem alloc {n : Node K V} {f : Ptr → Prog K V α} (hn : P.pg n)
    (h : ∀ p, σ.L p = Md.none → (∀ q, σ.L q ≠ Md.none → q < p) → (f p).vwp P σ Q) : (Prog.alloc n >>= f).vwp P σ Q := ⟨hn, h⟩
theorem retire {f : Unit → Prog K V α} (h : (f ()).vwp P σ Q) : (Prog.retire p >>= f).vwp P σ Q := h
theorem note {b : Bool} {f : Unit → Prog K V α} (h : (f ()).vwp P σ Q) : (Prog.note b >>= f).vwp P σ Q := h
theorem lockS {f : Unit → Prog K V α} (hz : P.z = false) (hd : σ.Ask P)
    (h : (σ.L p).x = false → (f ()).vwp P (σ.set p { σ.L p with s := (σ.L p).s + 1 }) Q) : (Prog.lockS p >>= f).vwp P σ Q := ⟨hd, hz, h⟩
theorem unlockS {f : Unit → Prog K V α} (h : 0 < (σ.L p).s → (f ()).vwp P (σ.set p { σ.L p with s := (σ.L p).s - 1 }) Q) :
    (Prog.unlockS p >>= f).vwp P σ Q := h
theorem lockSIX {f : Unit → Prog K V α} (hd : P.d = true → σ.Free)
    (h : (σ.L p).six = false → (σ.L p).x = false → (f ()).vwp P (σ.set p { σ.L p with six := true }) Q) : (Prog.lockSIX p >>= f).vwp P σ Q :=
  ⟨hd, h⟩
theorem unlockSIX {f : Unit → Prog K V α} (h : (σ.L p).six = true → (f ()).vwp P (σ.set p { σ.L p with six := false }) Q) :
    (Prog.unlockSIX p >>= f).vwp P σ Q := h
theorem lockX {f : Unit → Prog K V α} (hd : P.u = true → ∀ q, σ.L q ≠ Md.none → σ.L q = Md.intent ∧ q < p)
    (h : σ.L p = Md.none → (f ()).vwp P (σ.set p Md.excl) Q) (hz : P.z = true → σ.L p = Md.none := by intro h; cases h) :
    (Prog.lockX p >>= f).vwp P σ Q := ⟨hd, hz, h⟩
theorem unlockX {f : Unit → Prog K V α} (h : (σ.L p).x = true → (f ()).vwp P (σ.set p Md.none) Q) :
    (Prog.unlockX p >>= f).vwp P σ Q := h
theorem unlockXVer {f : Nat → Prog K V α}
    (h : (σ.L p).x = true → ∀ v, (f v).vwp P (((σ.set p Md.none).ver p v).tag p v (σ.H p)) Q) : (Prog.unlockXVer p >>= f).vwp P σ Q := h
theorem upgradeX {f : Unit → Prog K V α} (hd : P.u = true → ∀ q, (σ.L q).s = 0 ∧ (σ.L q).x = false)
    (h : (σ.L p).six = true → (σ.L p).s = 0 → (f ()).vwp P (σ.set p Md.excl) Q) : (Prog.upgradeX p >>= f).vwp P σ Q := ⟨hd, h⟩
theorem downgradeSIX {f : Unit → Prog K V α} (h : (σ.L p).x = true → (f ()).vwp P (σ.set p Md.intent) Q) :
    (Prog.downgradeSIX p >>= f).vwp P σ Q := h
theorem getVer {f : Nat → Prog K V α} (hd : σ.Ask P) (h : ∀ v, (f v).vwp P (σ.ver p v) Q) : (Prog.getVer p >>= f).vwp P σ Q := ⟨hd, h⟩
theorem same {v : Nat} {f : Bool → Prog K V α} (h : ∀ b, (f b).vwp P σ Q) : (Prog.same p v >>= f).vwp P σ Q := h
theorem tryLockSIX {v : Nat} {f : Bool → Prog K V α} (hd : P.d = true → σ.Free) (h0 : (f false).vwp P σ Q)
    (h : (σ.L p).six = false → (σ.L p).x = false → ∀ n, P.pg n → (∀ n', σ.pk p v n' → n' = n) →
      (f true).vwp P ((σ.set p { σ.L p with six := true }).know P p n) Q) : (Prog.tryLockSIX p v >>= f).vwp P σ Q := ⟨hd, h0, h⟩
theorem tryLockX {v : Nat} {f : Bool → Prog K V α} (hd : P.u = true ∨ P.z = true → σ.Free) (h0 : (f false).vwp P σ Q)
    (h : σ.L p = Md.none → ∀ n, P.pg n → (∀ n', σ.pk p v n' → n' = n) → (f true).vwp P ((σ.set p Md.excl).know P p n) Q) :
    (Prog.tryLockX p v >>= f).vwp P σ Q := ⟨fun e => hd (Or.inl e), fun e => hd (Or.inr e), h0, h⟩

theorem ret {a : α} (h : Q a σ) : (Prog.ret a).vwp P σ Q := h
theorem lockfree [LinearOrder K] {c : Prog K V β} {f : β → Prog K V α} (hc : c.Lockfree) (hd : σ.Ask P) (h : ∀ a σ', σ.Le σ' → (f a).vwp P σ' Q) :
    (c >>= f).vwp P σ Q := call (vwp_lockfree hc hd h) (fun _ _ h => h)
end Vw

/-! ## Sets of SIX locks -/

/-- The thread holds the locks of the pages of `S`, all of them in mode SIX, and no other. -/
def Vis.Held (σ : Vis K V) (S : List Ptr) : Prop := ∀ q, σ.L q = if q ∈ S then Md.intent else Md.none

/-- The thread still knows what it knew about the pages of `S`. -/
def Vis.Keep (σ τ : Vis K V) (S : List Ptr) : Prop := ∀ q ∈ S, ∀ n, σ.H q = some n → τ.H q = some n

variable {P : Lp K V} {σ τ υ : Vis K V} {S : List Ptr} {p : Ptr}

namespace Vis
theorem Keep.refl : σ.Keep σ S := fun _ _ _ e => e
theorem Keep.trans (h : σ.Keep τ S) (h' : τ.Keep υ S) : σ.Keep υ S := fun q hq n e => h' q hq n (h q hq n e)
theorem Keep.mono {T : List Ptr} (h : σ.Keep τ S) (hT : ∀ q ∈ T, q ∈ S) : σ.Keep τ T := fun q hq => h q (hT q hq)

theorem held_nil : σ.Held [] ↔ σ.Free := by
  constructor
  · exact fun h q => by simpa using h q
  · exact fun h q => by simpa using h q

theorem Held.perm {T : List Ptr} (h : σ.Held S) (hT : ∀ q, q ∈ T ↔ q ∈ S) : σ.Held T := fun q => by
  rw [h q]
  by_cases hq : q ∈ S
  · rw [if_pos hq, if_pos ((hT q).2 hq)]
  · rw [if_neg hq, if_neg (fun h => hq ((hT q).1 h))]

theorem Held.at (h : σ.Held S) (hp : p ∈ S) : σ.L p = Md.intent := by rw [h p, if_pos hp]
theorem Held.off (h : σ.Held S) (hp : p ∉ S) : σ.L p = Md.none := by rw [h p, if_neg hp]

theorem Held.ord (h : σ.Held S) (q : Ptr) : (σ.L q).s = 0 ∧ (σ.L q).x = false := by
  rw [h q]
  split
  · exact ⟨rfl, rfl⟩
  · exact ⟨rfl, rfl⟩

theorem Held.ask (h : σ.Held S) (hd : P.d = true → S = []) (hz : P.z = true → S = [] := by intro h; cases h) : σ.Ask P := by
  refine ⟨fun hd' q => ?_, fun _ q => (h.ord q).2, fun hz' q => by rw [h q, hz hz']; rfl⟩
  have := hd hd'
  subst this
  rw [h q]; simp [Md.none]

theorem Free.ask (h : σ.Free) : σ.Ask P := (held_nil.2 h).ask (fun _ => rfl) (fun _ => rfl)

theorem Held.le (h : σ.Held S) (hle : σ.Le τ) : τ.Held S := fun q => by rw [hle.L]; exact h q
theorem Le.keep (hle : σ.Le τ) : σ.Keep τ S := fun q _ n e => by rw [hle.H]; exact e

theorem know_L (n : Node K V) : (σ.know P p n).L = σ.L := by unfold know; split <;> rfl
theorem know_H (hP : P.np = true) (n : Node K V) : (σ.know P p n).H = Spec.upd σ.H p (some n) := by unfold know; rw [if_pos hP]

theorem set_at (md : Md) : (σ.set p md).L p = md := by simp [set, Spec.upd]
theorem set_ne {q : Ptr} (h : q ≠ p) (md : Md) : (σ.set p md).L q = σ.L q := by simp [set, Spec.upd, h]
theorem set_Hne {q : Ptr} (h : q ≠ p) (md : Md) : (σ.set p md).H q = σ.H q := by
  unfold set
  split
  · simp [Spec.upd, h]
  · rfl
theorem set_H {md : Md} (h : md ≠ Md.none) : (σ.set p md).H = σ.H := by simp [set, h]
theorem know_Hne {q : Ptr} (h : q ≠ p) (n : Node K V) : (σ.know P p n).H q = σ.H q := by
  unfold know
  split
  · simp [Spec.upd, h]
  · rfl

theorem Held.know (h : σ.Held S) (n : Node K V) : (σ.know P p n).Held S := fun q => by rw [know_L]; exact h q

/-- One more lock. -/
theorem Held.push (h : σ.Held S) (hp : p ∉ S) : (σ.set p { σ.L p with six := true }).Held (p :: S) := by
  intro q
  rw [h.off hp]
  by_cases hq : q = p
  · subst hq; rw [set_at]; simp [Md.intent, Md.none]
  · rw [set_ne hq, h q]; simp [hq]

theorem Held.notin (h : σ.Held S) (h6 : (σ.L p).six = false) : p ∉ S := by
  intro hp
  rw [h.at hp] at h6
  cases h6

/-- One lock less. -/
theorem Held.pop (h : σ.Held (p :: S)) (hp : p ∉ S) : (σ.set p { σ.L p with six := false }).Held S := by
  intro q
  rw [h.at (by simp)]
  by_cases hq : q = p
  · subst hq; rw [set_at, if_neg hp]; rfl
  · rw [set_ne hq, h q]; simp [hq]

theorem Keep.set (h : p ∉ S) (md : Md) : σ.Keep (σ.set p md) S := fun q hq _ e => (set_Hne (fun e : q = p => h (e ▸ hq)) md).trans e
theorem Keep.know (h : p ∉ S) (n : Node K V) : σ.Keep (σ.know P p n) S := fun q hq _ e => (know_Hne (fun e : q = p => h (e ▸ hq)) n).trans e
end Vis

namespace Vw
variable {α : Type} {Q : α → Vis K V → Prop}
open Vis

/-- `UpgradeToX`, change, `UnlockX`. -/
theorem change (hh : σ.Held (p :: S)) (hp : p ∉ S) {n : Node K V} {f : Unit → Prog K V α} (hn : P.pg n)
    (h : ∀ σ', σ'.Held S → σ.Keep σ' S → (f ()).vwp P σ' Q) :
    (Prog.upgradeX p >>= fun _ => Prog.store p n >>= fun _ => Prog.unlockX p >>= f).vwp P σ Q := by
  refine upgradeX (fun _ => hh.ord) (fun _ _ => store hn fun _ => unlockX fun _ => h _ ?_ ?_)
  · intro q
    by_cases hq : q = p
    · subst hq; rw [set_at, if_neg hp]
    · rw [set_ne hq, know_L, set_ne hq, hh q]; simp [hq]
  · exact (Keep.set hp _).trans ((Keep.know hp _).trans (Keep.set hp _))

/-- `UpgradeToX`, change, `DowngradeToSIX`. -/
theorem amend (hP : P.np = true) (hh : σ.Held (p :: S)) (hp : p ∉ S) {n : Node K V} {f : Unit → Prog K V α} (hn : P.pg n)
    (h : ∀ σ', σ'.Held (p :: S) → σ.Keep σ' S → σ'.H p = some n → (f ()).vwp P σ' Q) :
    (Prog.upgradeX p >>= fun _ => Prog.store p n >>= fun _ => Prog.downgradeSIX p >>= f).vwp P σ Q := by
  refine upgradeX (fun _ => hh.ord) (fun _ _ => store hn fun _ => downgradeSIX fun _ => h _ ?_ ?_ ?_)
  · intro q
    by_cases hq : q = p
    · subst hq; rw [set_at, if_pos (by simp)]
    · rw [set_ne hq, know_L, set_ne hq, hh q]
  · exact (Keep.set hp _).trans ((Keep.know hp _).trans (Keep.set hp _))
  · rw [set_H (by simp [Md.intent, Md.none]), know_H hP]; simp [Spec.upd]

theorem six (hh : σ.Held S) (hd : P.d = true → S = []) {f : Unit → Prog K V α}
    (h : p ∉ S → ∀ σ', σ'.Held (p :: S) → σ.Keep σ' S → (f ()).vwp P σ' Q) : (Prog.lockSIX p >>= f).vwp P σ Q := by
  refine lockSIX (fun hd' => held_nil.1 (hd hd' ▸ hh)) fun h6 _ => ?_
  have hp := hh.notin h6
  exact h hp _ (hh.push hp) (Keep.set hp _)

theorem unsix (hh : σ.Held (p :: S)) (hp : p ∉ S) {f : Unit → Prog K V α} (h : ∀ σ', σ'.Held S → σ.Keep σ' S → (f ()).vwp P σ' Q) :
    (Prog.unlockSIX p >>= f).vwp P σ Q :=
  unlockSIX fun _ => h _ (hh.pop hp) (Keep.set hp _)

theorem read (hP : P.np = true) (hh : σ.Held S) {f : Node K V → Prog K V α}
    (h : ∀ n, P.pg n → (∀ n', σ.H p = some n' → n' = n) → ∀ σ', σ'.Held S → σ'.H p = some n → (∀ q, q ≠ p → σ'.H q = σ.H q) → (f n).vwp P σ' Q) :
    (Prog.load p >>= f).vwp P σ Q :=
  load fun n hn _ hH => h n hn hH _ (hh.know n) (by rw [know_H hP]; simp [Spec.upd]) (fun q hq => know_Hne hq n)

end Vw

/-! ## Node operations -/

variable [LinearOrder K] {cfg : Cfg K} {L : Nat}

/-- The parameters for PSL and OSL. -/
def bp (cfg : Cfg K) (d : Bool) : Lp K V := ⟨SizeW cfg, d, true, true, false⟩

namespace CBlink
open Vis
variable {d : Bool} {k : K} {v : V}

/-- The page is too full, and cleaning it up does not help. -/
def Full (cfg : Cfg K) (n : Node K V) (len : Nat) : Prop := Blink.wantsCleanUp cfg n len = false ∨ n.dead = 0

theorem cleanUp_vwp (hr : Roomy cfg L) (hh : σ.Held (p :: S)) (hp : p ∉ S) (len : Nat) :
    (cleanUpIfNeeded cfg p len : Prog K V Unit).vwp (bp cfg d) σ (fun _ σ' => σ'.Held (p :: S) ∧ σ.Keep σ' S ∧
      ∃ n, σ'.H p = some n ∧ SizeW cfg n ∧ Full cfg n len ∧ ∀ n0, σ.H p = some n0 → Blink.wantsCleanUp cfg n0 len = false → n = n0) := by
  unfold cleanUpIfNeeded
  refine Vw.read rfl hh fun n hn hH σ1 h1 h2 h3 => ?_
  have k1 : σ.Keep σ1 S := fun q hq n e => (h3 q (fun e => hp (e ▸ hq))).trans e
  by_cases hw : Blink.wantsCleanUp cfg n len = true
  · rw [if_pos hw]
    have hl : cfg.layout = .var := by
      cases hl : cfg.layout
      · simp [Blink.wantsCleanUp, hl] at hw
      · rfl
    refine Vw.upgradeX (fun _ => h1.ord) fun _ _ => Vw.lift fun n' e => ?_
    obtain ⟨g1, g2, -, -⟩ := SizeW.cleanUp hr hl e
    refine Vw.store g1 fun _ => Vw.downgradeSIX fun _ => Vw.ret ?_
    refine ⟨?_, ?_, n', ?_, g1, Or.inr g2, fun n0 e0 e1 => ?_⟩
    · intro q
      by_cases hq : q = p
      · subst hq; rw [set_at, if_pos (by simp)]
      · rw [set_ne hq, know_L, set_ne hq, h1 q]
    · exact k1.trans ((Keep.set hp _).trans ((Keep.know hp _).trans (Keep.set hp _)))
    · rw [set_H (by simp [Md.intent, Md.none]), know_H rfl]; simp [Spec.upd]
    · have := hH _ e0
      subst this
      rw [hw] at e1; cases e1
  · rw [if_neg hw]
    have hw : Blink.wantsCleanUp cfg n len = false := by simpa using hw
    exact ⟨h1, k1, n, h2, hn, Or.inl hw, fun n0 e0 _ => (hH _ e0).symm⟩

/-- The locks after a node operation that may ask for a split. -/
def InsPost (cfg : Cfg K) (p : Ptr) (S : List Ptr) (σ : Vis K V) (rc : NodeRC) (σ' : Vis K V) : Prop :=
  σ.Keep σ' S ∧ ((rc = .needSplit ∧ σ'.Held (p :: S) ∧ ∃ n, σ'.H p = some n ∧ Big cfg n) ∨ (rc ≠ .needSplit ∧ σ'.Held S))

/-- The locks after a node operation that may ask for a merge. -/
def DelPost (p : Ptr) (S : List Ptr) (σ : Vis K V) (rc : NodeRC) (σ' : Vis K V) : Prop :=
  σ.Keep σ' S ∧ ((rc = .needMerge ∧ σ'.Held (p :: S)) ∨ (rc ≠ .needMerge ∧ σ'.Held S))

theorem commit_ins (hh : σ.Held (p :: S)) (hp : p ∉ S) {rc : NodeRC} {n n0 : Node K V} (hn : SizeW cfg n) (hm : rc ≠ .needMerge)
    (hH : σ.H p = some n0) (hb : rc = .needSplit → Big cfg n0) : (commit p rc n).vwp (bp cfg d) σ (fun rc' σ' => rc' = rc ∧ InsPost cfg p S σ rc' σ') := by
  have other : ∀ rc, rc ≠ .needSplit → (Prog.unlockSIX p >>= fun _ => (Prog.ret rc : Prog K V NodeRC)).vwp (bp cfg d) σ
      (fun rc' σ' => rc' = rc ∧ InsPost cfg p S σ rc' σ') := fun rc h => Vw.unsix hh hp fun σ' h1 h2 => Vw.ret ⟨rfl, h2, Or.inr ⟨h, h1⟩⟩
  cases rc with
  | needSplit => exact Vw.ret ⟨rfl, .refl, Or.inl ⟨rfl, hh, n0, hH, hb rfl⟩⟩
  | needMerge => exact absurd rfl hm
  | completed => exact Vw.change hh hp hn fun σ' h1 h2 => Vw.ret ⟨rfl, h2, Or.inr ⟨by simp, h1⟩⟩
  | _ => exact other _ (by simp)

theorem commit_del (hh : σ.Held (p :: S)) (hp : p ∉ S) {rc : NodeRC} {n : Node K V} (hn : SizeW cfg n) (hm : rc ≠ .needSplit) :
    (commit p rc n).vwp (bp cfg d) σ (fun rc' σ' => rc' = rc ∧ DelPost p S σ rc' σ') := by
  have other : ∀ rc, rc ≠ .needMerge → (Prog.unlockSIX p >>= fun _ => (Prog.ret rc : Prog K V NodeRC)).vwp (bp cfg d) σ
      (fun rc' σ' => rc' = rc ∧ DelPost p S σ rc' σ') := fun rc h => Vw.unsix hh hp fun σ' h1 h2 => Vw.ret ⟨rfl, h2, Or.inr ⟨h, h1⟩⟩
  cases rc with
  | needSplit => exact absurd rfl hm
  | needMerge => exact Vw.amend rfl hh hp hn fun σ' h1 h2 _ => Vw.ret ⟨rfl, h2, Or.inl ⟨rfl, h1⟩⟩
  | completed => exact Vw.change hh hp hn fun σ' h1 h2 => Vw.ret ⟨rfl, h2, Or.inr ⟨by simp, h1⟩⟩
  | _ => exact other _ (by simp)

theorem InsPost.keep {τ : Vis K V} {rc : NodeRC} (h : σ.Keep τ S) (h' : InsPost cfg p S τ rc υ) : InsPost cfg p S σ rc υ := ⟨h.trans h'.1, h'.2⟩
theorem DelPost.keep {τ : Vis K V} {rc : NodeRC} (h : σ.Keep τ S) (h' : DelPost p S τ rc υ) : DelPost p S σ rc υ := ⟨h.trans h'.1, h'.2⟩

/-- A node operation that cleans up, computes and commits. -/
theorem ins_vwp (hr : Roomy cfg L) (hh : σ.Held (p :: S)) (hp : p ∉ S) {len : Nat} (hlen : len ≤ L + cfg.maxPayLen)
    {g : Node K V → Res (NodeRC × Node K V)}
    (hg : ∀ n rc n', SizeW cfg n → g n = .ok (rc, n') → SizeW cfg n' ∧ (rc = .needSplit → n' = n ∧ Blink.needSplit cfg n len = true) ∧ rc ≠ .needMerge) :
    (cleanUpIfNeeded cfg p len >>= fun _ => Prog.load p >>= fun n => Prog.lift (g n) >>= fun x => commit p x.1 x.2 : Prog K V NodeRC).vwp (bp cfg d) σ
      (fun rc σ' => InsPost cfg p S σ rc σ' ∧ ∀ n0, σ.H p = some n0 → Room cfg L n0 → rc ≠ .needSplit) := by
  refine Vw.call (cleanUp_vwp hr hh hp len) ?_
  rintro - σ1 ⟨h1, k1, n1, e1, s1, f1, r1⟩
  refine Vw.read rfl h1 fun n hn hH σ2 h2 e2 g2 => Vw.lift fun x ex => ?_
  have := hH _ e1
  subst this
  obtain ⟨s3, b3, m3⟩ := hg n1 x.1 x.2 hn ex
  refine vwp_mono (commit_ins h2 hp s3 m3 e2 (fun hs => big_of_full hr hlen f1 (b3 hs).2)) ?_
  rintro rc' σ' ⟨rfl, h⟩
  refine ⟨h.keep (k1.trans (fun q hq n e => (g2 q (fun e => hp (e ▸ hq))).trans e)), fun n0 e0 hroom hs => ?_⟩
  obtain ⟨w1, w2⟩ := room_fits hr hroom hlen
  have := r1 n0 e0 w1
  subst this
  rw [(b3 hs).2] at w2
  cases w2

theorem leafWriteCore_rc {n n' : Node K V} {rc : NodeRC} (e : Blink.leafWriteCore cfg n k v = .ok (rc, n')) : rc ≠ .needMerge := by
  unfold Blink.leafWriteCore at e
  obtain ⟨⟨rc1, pos⟩, hs, e⟩ := res_bind e
  dsimp only at e
  split at e
  · split at e
    · cases e; simp
    · obtain ⟨x, h1, e⟩ := res_bind e; cases e; simp
  · split at e
    · obtain ⟨x, h1, e⟩ := res_bind e; cases e; simp
    · obtain ⟨x, h1, e⟩ := res_bind e; cases e; simp

theorem insertAt_rc {n n' : Node K V} {rc rc1 : NodeRC} {pos : Nat} (e : Blink.insertAt cfg n k v rc1 pos = .ok (rc, n')) : rc ≠ .needMerge := by
  unfold Blink.insertAt at e
  split at e
  · split at e
    · cases e; simp
    · obtain ⟨x, h1, e⟩ := res_bind e; cases e; simp
  · split at e
    · obtain ⟨x, h1, e⟩ := res_bind e; cases e; simp
    · cases e; simp

theorem leafInsertCore_rc {n n' : Node K V} {rc : NodeRC} (e : Blink.leafInsertCore cfg n k v = .ok (rc, n')) : rc ≠ .needMerge := by
  unfold Blink.leafInsertCore at e
  obtain ⟨⟨rc1, pos⟩, hs, e⟩ := res_bind e
  exact insertAt_rc e

theorem insertChildCore_rc {n n' : Node K V} {r : Ptr} {rc : NodeRC} (e : Blink.insertChildCore cfg n r k = .ok (rc, n')) : rc ≠ .needMerge := by
  unfold Blink.insertChildCore at e
  obtain ⟨⟨rc1, pos⟩, hs, e⟩ := res_bind e
  dsimp only at e
  split at e
  · cases e; simp
  · split at e
    · cases e; simp
    · obtain ⟨x, h1, e⟩ := res_bind e; cases e; simp

theorem leafDelete_rc {n n' : Node K V} {rc : NodeRC} (e : Blink.leafDelete cfg n k = .ok (rc, n')) : rc ≠ .needSplit := by
  unfold Blink.leafDelete at e
  obtain ⟨⟨rc1, pos⟩, hs, e⟩ := res_bind e
  dsimp only at e
  split at e
  · obtain ⟨x, h1, e⟩ := res_bind e
    obtain ⟨⟨b, y⟩, h2, e⟩ := res_bind e
    cases e
    cases b <;> simp
  · cases e; simp

theorem deleteChild_rc {n n' : Node K V} {rc : NodeRC} (e : Blink.deleteChild cfg n k = .ok (rc, n')) :
    rc = .abortMerge ∨ rc = .needRetry ∨ rc = .completed ∨ rc = .needMerge := by
  unfold Blink.deleteChild at e
  split at e
  · cases e; simp
  · split at e
    · cases e
    · split at e
      · cases e
      · split at e
        · cases e; simp
        · obtain ⟨⟨rc1, pos⟩, hs, e⟩ := res_bind e
          dsimp only at e
          split at e
          · cases e; simp
          · obtain ⟨x, h1, e⟩ := res_bind e
            obtain ⟨⟨b, y⟩, h2, e⟩ := res_bind e
            cases e
            cases b <;> simp

/-- What is known after an operation on a page with SIX lock that may ask for a split. -/
def OpOk (cfg : Cfg K) (L : Nat) (d : Bool) (p : Ptr) (c : Prog K V NodeRC) : Prop :=
  ∀ (σ : Vis K V) S, σ.Held (p :: S) → p ∉ S → c.vwp (bp cfg d) σ (fun rc σ' => InsPost cfg p S σ rc σ' ∧ ∀ n0, σ.H p = some n0 → Room cfg L n0 →
    rc ≠ .needSplit)

theorem leafWrite_vwp (hr : Roomy cfg L) : OpOk cfg L d p (leafWrite cfg p k v) := fun _ _ hh hp =>
  ins_vwp hr hh hp (leafLen_le hr k) fun _ _ _ hn e => ⟨(hn.leafWriteCore e).1, (hn.leafWriteCore e).2, leafWriteCore_rc e⟩

theorem leafInsert_vwp (hr : Roomy cfg L) : OpOk cfg L d p (leafInsert cfg p k v) := fun _ _ hh hp =>
  ins_vwp hr hh hp (leafLen_le hr k) fun _ _ _ hn e => ⟨(hn.leafInsertCore e).1, (hn.leafInsertCore e).2, leafInsertCore_rc e⟩

theorem childLen_le (hr : Roomy cfg L) (k : K) : cfg.klen k + cfg.ptrLen ≤ L + cfg.maxPayLen := by
  have h1 := hr.key k
  have h2 := plen_le cfg true
  simp only [Cfg.plen, if_true] at h2
  omega

theorem insertChild_vwp (hr : Roomy cfg L) {r : Ptr} : OpOk cfg L d p (insertChild cfg p r k : Prog K V NodeRC) := fun _ _ hh hp =>
  ins_vwp hr hh hp (childLen_le hr k) fun _ _ _ hn e => ⟨(hn.insertChildCore e).1, (hn.insertChildCore e).2, insertChildCore_rc e⟩

theorem leafDelete_vwp (hr : Roomy cfg L) (hh : σ.Held (p :: S)) (hp : p ∉ S) :
    (leafDelete cfg p k : Prog K V NodeRC).vwp (bp cfg d) σ (DelPost p S σ) := by
  refine Vw.read rfl hh fun n hn hH σ2 h2 e2 g2 => Vw.lift fun x ex => ?_
  refine vwp_mono (commit_del h2 hp (hn.leafDelete hr ex) (leafDelete_rc ex)) ?_
  rintro rc' σ' ⟨rfl, h⟩
  exact h.keep (fun q hq n e => (g2 q (fun e => hp (e ▸ hq))).trans e)

theorem deleteChild_vwp (hr : Roomy cfg L) (hh : σ.Held (p :: S)) (hp : p ∉ S) :
    (deleteChild cfg p k : Prog K V NodeRC).vwp (bp cfg d) σ (fun rc σ' => DelPost p S σ rc σ' ∧
      (rc = .abortMerge ∨ rc = .needRetry ∨ rc = .completed ∨ rc = .needMerge)) := by
  refine Vw.read rfl hh fun n hn hH σ2 h2 e2 g2 => Vw.lift fun x ex => ?_
  have hrc := deleteChild_rc ex
  refine vwp_mono (commit_del h2 hp (hn.deleteChild hr ex) (by rcases hrc with h | h | h | h <;> simp [h])) ?_
  rintro rc' σ' ⟨rfl, h⟩
  exact ⟨h.keep (fun q hq n e => (g2 q (fun e => hp (e ▸ hq))).trans e), hrc⟩

/-! ## Splits -/

theorem halfSplit_vwp (hr : Roomy cfg L) (hb : cfg.blink = true) {l : Ptr} {n : Node K V} (hh : σ.Held [l]) (hH : σ.H l = some n) (hbig : Big cfg n) :
    (halfSplit cfg l : Prog K V (Ptr × Option K)).vwp (bp cfg d) σ (fun x σ' => x.1 ≠ l ∧ σ'.Held [l, x.1] ∧
      ∃ ln rn, σ'.H l = some ln ∧ σ'.H x.1 = some rn ∧ ln.next = some x.1 ∧ Room cfg L ln ∧ Room cfg L rn) := by
  unfold halfSplit
  refine Vw.isInner fun b => Vw.alloc (SizeW.empty b) fun r hr0 hgt => ?_
  have hrl : r ≠ l := by rintro rfl; rw [hh.at (by simp)] at hr0; cases hr0
  refine Vw.read rfl hh fun n' hn hH' σ1 h1 e1 g1 => Vw.lift fun x ex => ?_
  have := hH' _ hH
  subst this
  obtain ⟨ln, rn⟩ := x
  obtain ⟨s1, s2, s3, s4⟩ := split_room hr hn ex
  obtain ⟨r1, r2⟩ := s4 hbig
  refine Vw.lockX (fun _ q hq => ?_) fun _ => Vw.store s2 fun _ => Vw.downgradeSIX fun _ => ?_
  · rw [h1 q] at hq ⊢
    by_cases hql : q ∈ [l]
    · rw [if_pos hql]
      exact ⟨rfl, hgt q (by rw [hh.at hql]; simp [Md.intent, Md.none])⟩
    · rw [if_neg hql] at hq; exact absurd rfl hq
  · generalize hσ2 : (((σ1.set r Md.excl).know (bp cfg d) r rn).set r Md.intent) = σ2
    have h2 : σ2.Held [l, r] := by
      intro q
      subst hσ2
      by_cases hq : q = r
      · subst hq; rw [set_at]; simp
      · rw [set_ne hq, know_L, set_ne hq, h1 q]; simp [hq]
    have e2 : σ2.H r = some rn := by
      subst hσ2
      rw [set_H (by simp [Md.intent, Md.none]), know_H rfl]; simp [Spec.upd]
    refine Vw.amend rfl h2 (by simpa using hrl.symm) s1 fun σ3 h3 k3 e3 => Vw.ret ⟨hrl, h3, ln, rn, e3, ?_, s3 hb, r1, r2⟩
    exact k3 r (by simp) _ e2

theorem validSplitNode_vwp {l r : Ptr} (hrl : r ≠ l) (hh : σ.Held [l, r]) {ln rn : Node K V} (h1 : σ.H l = some ln) (h2 : σ.H r = some rn)
    (h3 : ln.next = some r) (h4 : Room cfg L ln) (h5 : Room cfg L rn) : (validSplitNode l k : Prog K V Ptr).vwp (bp cfg d) σ (fun t σ' =>
      σ'.Held [t] ∧ ∃ n, σ'.H t = some n ∧ Room cfg L n) := by
  unfold validSplitNode
  refine Vw.read rfl hh fun n hn hH σ1 g1 g2 g3 => ?_
  have := hH _ h1
  subst this
  rw [h3]
  dsimp only
  split
  · refine Vw.unsix (S := [l]) (g1.perm (by simp [or_comm])) (by simpa using hrl) fun σ2 f1 f2 => Vw.ret ⟨f1, ln, ?_, h4⟩
    exact f2 l (by simp) _ g2
  · refine Vw.unsix (S := [r]) g1 (by simpa using hrl.symm) fun σ2 f1 f2 => Vw.ret ⟨f1, rn, ?_, h5⟩
    exact f2 r (by simp) _ ((g3 r hrl).trans h2)

theorem separatorKey_lockfree {target l : Ptr} {sep : Option K} : (separatorKey target l sep : Prog K V K).Lockfree := by
  unfold separatorKey
  refine ⟨trivial, fun n => ⟨trivial, fun _ => ?_⟩⟩
  dsimp only
  split <;> trivial

theorem tryRootSplit_vwp (hr : Roomy cfg L) {l r : Ptr} (hf : σ.Free) :
    (tryRootSplit cfg l r k : Prog K V Bool).vwp (bp cfg d) σ (fun _ σ' => σ'.Free) := by
  unfold tryRootSplit
  refine Vw.getRoot fun root => ?_
  split
  · exact Vw.ret hf
  · exact Vw.lift fun n e => Vw.alloc (SizeW.newRoot hr e) fun q _ _ => Vw.setRoot (Vw.ret hf)

/-- What the structure modifications need to know about the search code. -/
structure NavOk (cfg : Cfg K) (d : Bool) (nav : Nav K V) : Prop where
  checkW : ∀ k f p (σ : Vis K V) S, σ.Held S → (d = true → S = []) → (nav.checkW k f p).vwp (bp cfg d) σ (fun o σ' => σ.Keep σ' S ∧
    match o with
    | none => σ'.Held S
    | some q => q ∉ S ∧ σ'.Held (q :: S))
  searchParent : ∀ k r f st p (σ : Vis K V) S, σ.Held S → (d = true → S = []) → (nav.searchParent k r f st p).vwp (bp cfg d) σ
    (fun _ σ' => σ.Keep σ' S ∧ σ'.Held S)

variable {nav : Nav K V}

theorem completeSplit_vwp (hr : Roomy cfg L) (hb : cfg.blink = true) (hn : NavOk cfg d nav) : ∀ (f : Nat) (stack : List Ptr) (node : Option Ptr) (l r : Ptr) (key : K)
    (σ : Vis K V), σ.Free → (completeSplit nav cfg f stack node l r key).vwp (bp cfg d) σ (fun _ σ' => σ'.Free)
  | 0, stack, node, l, r, key, σ, hf => trivial
  | f + 1, [], node, l, r, key, σ, hf => by
    rw [completeSplit]
    refine Vw.call (tryRootSplit_vwp hr hf) fun done σ1 h1 => ?_
    split
    · exact Vw.ret h1
    · refine Vw.getRoot fun root => Vw.call (hn.searchParent _ _ _ _ _ _ [] (held_nil.2 h1) (fun _ => rfl)) fun st σ2 h2 => ?_
      exact completeSplit_vwp hr hb hn f _ _ _ _ _ _ (held_nil.1 h2.2)
  | f + 1, top :: rest, node, l, r, key, σ, hf => by
    rw [completeSplit]
    refine Vw.call (hn.checkW _ _ _ _ [] (held_nil.2 hf) (fun _ => rfl)) ?_
    rintro o σ1 ⟨-, h1⟩
    cases o with
    | none =>
      refine Vw.call (tryRootSplit_vwp hr (held_nil.1 h1)) fun done σ1 h1 => ?_
      split
      · exact Vw.ret h1
      · refine Vw.getRoot fun root => Vw.call (hn.searchParent _ _ _ _ _ _ [] (held_nil.2 h1) (fun _ => rfl)) fun st σ2 h2 => ?_
        exact completeSplit_vwp hr hb hn f _ _ _ _ _ _ (held_nil.1 h2.2)
    | some q =>
      obtain ⟨hq, h1⟩ := h1
      refine Vw.call (insertChild_vwp hr σ1 [] h1 hq) ?_
      rintro rc σ2 ⟨⟨-, hp⟩, -⟩
      rcases hp with ⟨rfl, h2, n, e2, hbig⟩ | ⟨hne, h2⟩
      · simp only [reduceCtorEq, if_false, if_true]
        refine Vw.call (halfSplit_vwp hr hb h2 e2 hbig) ?_
        rintro ⟨r', sep⟩ σ3 ⟨g1, g2, ln, rn, g3, g4, g5, g6, g7⟩
        refine Vw.call (validSplitNode_vwp g1 g2 g3 g4 g5 g6 g7) ?_
        rintro target σ4 ⟨f1, n4, f2, f3⟩
        refine Vw.call (insertChild_vwp hr σ4 [] f1 (by simp)) ?_
        rintro rc σ5 ⟨⟨-, hp⟩, hroom⟩
        have h5 : σ5.Free := by
          rcases hp with ⟨h, -⟩ | ⟨-, h⟩
          · exact absurd h (hroom n4 f2 f3)
          · exact held_nil.1 h
        refine Vw.lockfree separatorKey_lockfree h5.ask fun key' σ6 hle => ?_
        exact completeSplit_vwp hr hb hn f _ _ _ _ _ _ (fun p => by rw [hle.L]; exact h5 p)
      · have h2 := held_nil.1 h2
        split
        · exact Vw.ret h2
        · exact completeSplit_vwp hr hb hn f _ _ _ _ _ _ h2

theorem splitAnd_vwp (hr : Roomy cfg L) (hb : cfg.blink = true) (hn : NavOk cfg d nav) {fuel : Nat} {leaf : Ptr} {stack : List Ptr} {op : Ptr → Prog K V NodeRC}
    (hop : ∀ p (σ : Vis K V) n, σ.Held [p] → σ.H p = some n → Room cfg L n → (op p).vwp (bp cfg d) σ (fun _ σ' => σ'.Free))
    {n : Node K V} (hh : σ.Held [leaf]) (hH : σ.H leaf = some n) (hbig : Big cfg n) :
    (splitAnd nav cfg fuel leaf stack k op).vwp (bp cfg d) σ (fun _ σ' => σ'.Free) := by
  unfold splitAnd
  refine Vw.call (halfSplit_vwp hr hb hh hH hbig) ?_
  rintro ⟨r', sep⟩ σ3 ⟨g1, g2, ln, rn, g3, g4, g5, g6, g7⟩
  refine Vw.call (validSplitNode_vwp g1 g2 g3 g4 g5 g6 g7) ?_
  rintro target σ4 ⟨f1, n4, f2, f3⟩
  refine Vw.call (hop target σ4 n4 f1 f2 f3) fun _ σ5 h5 => ?_
  refine Vw.lockfree separatorKey_lockfree h5.ask fun key' σ6 hle => ?_
  exact completeSplit_vwp hr hb hn _ _ _ _ _ _ _ (fun p => by rw [hle.L]; exact h5 p)

theorem OpOk.second {op : Ptr → Prog K V NodeRC} (h : ∀ p, OpOk cfg L d p (op p)) (p : Ptr) (σ : Vis K V) (n : Node K V) (h1 : σ.Held [p])
    (h2 : σ.H p = some n) (h3 : Room cfg L n) : (op p).vwp (bp cfg d) σ (fun _ σ' => σ'.Free) := by
  refine vwp_mono (h p σ [] h1 (by simp)) ?_
  rintro rc σ' ⟨⟨-, hp⟩, hroom⟩
  rcases hp with ⟨h, -⟩ | ⟨-, h⟩
  · exact absurd h (hroom n h2 h3)
  · exact held_nil.1 h

/-! ## Merges -/

theorem mergeInto_vwp (hr : Roomy cfg L) {l r : Ptr} (hh : σ.Held (l :: r :: S)) (hlr : l ≠ r) (hl : l ∉ S) (hrS : r ∉ S) :
    (mergeInto cfg l r : Prog K V Unit).vwp (bp cfg d) σ (fun _ σ' => σ'.Held S) := by
  unfold mergeInto
  refine Vw.read rfl hh fun ln hln _ σ1 h1 _ _ => Vw.read rfl h1 fun rn hrn _ σ2 h2 _ _ => Vw.lift fun n e => ?_
  refine Vw.change h2 (by simp [hlr, hl]) (SizeW.merge hr hln hrn e) fun σ3 h3 _ => ?_
  exact Vw.change (f := fun _ => Prog.ret ()) h3 hrS (hrn.flags _ _) fun σ4 h4 _ => h4

theorem removeRoot_vwp {node : Ptr} (hd : d = false) (hh : σ.Held [node]) :
    (removeRoot node : Prog K V Ptr).vwp (bp cfg d) σ (fun c σ' => σ'.Held [c]) := by
  unfold removeRoot
  refine Vw.upgradeX (fun _ => hh.ord) fun _ _ => Vw.load fun n hn _ _ => Vw.note (Vw.lift fun child e => ?_)
  refine Vw.lockSIX (fun h => by simp [bp, hd] at h) fun h6 hx => Vw.store (hn.flags _ _) fun _ => Vw.unlockX fun _ => Vw.ret ?_
  rw [know_L] at hx
  have hc : child ≠ node := by
    rintro rfl
    rw [set_at] at hx; cases hx
  intro q
  by_cases hq : q = node
  · subst hq; rw [set_at]; simp [hc.symm]
  · rw [set_ne hq, know_L]
    by_cases hq2 : q = child
    · subst hq2
      rw [set_at, know_L, set_ne hq, hh.off (by simpa using hq)]
      simp [Md.intent, Md.none]
    · rw [set_ne hq2, know_L, set_ne hq, hh q]; simp [hq, hq2]

theorem shrinkLoop_vwp (hd : d = false) {old : Ptr} : ∀ (f : Nat) (node : Ptr) (σ : Vis K V), σ.Held [node] →
    (shrinkLoop old f node : Prog K V Ptr).vwp (bp cfg d) σ (fun c σ' => σ'.Held [c])
  | 0, node, σ, hh => trivial
  | f + 1, node, σ, hh => by
    rw [shrinkLoop]
    refine Vw.retire (Vw.call (removeRoot_vwp hd hh) fun child σ1 h1 => Vw.read rfl h1 fun cn _ _ σ2 h2 _ _ => ?_)
    split
    · exact shrinkLoop_vwp hd f child σ2 h2
    · exact Vw.setRoot (Vw.ret h2)

theorem tryShrinkTree_vwp (hd : d = false) {fuel : Nat} {node : Ptr} (hh : σ.Held [node]) :
    (tryShrinkTree fuel node : Prog K V Unit).vwp (bp cfg d) σ (fun _ σ' => σ'.Free) := by
  unfold tryShrinkTree
  refine Vw.getRoot fun root => Vw.read rfl hh fun n _ _ σ1 h1 _ _ => ?_
  split
  · exact Vw.call (shrinkLoop_vwp hd fuel node σ1 h1) fun c σ2 h2 =>
      Vw.unsix (f := fun _ => Prog.ret ()) (S := []) h2 (by simp) fun σ3 h3 _ => held_nil.1 h3
  · exact Vw.unsix (f := fun _ => Prog.ret ()) (S := []) h1 (by simp) fun σ3 h3 _ => held_nil.1 h3

/-- `Merge` begins with a lock on the left page, or (in later turns) with locks on the left page and its right neighbour. -/
theorem merge_vwp (hr : Roomy cfg L) (hn : NavOk cfg d nav) (hd : d = false) : ∀ (f : Nat) (stack : List Ptr) (node : Option Ptr) (l : Ptr) (σ : Vis K V),
    (σ.Held [l] ∨ ∃ r ln, l ≠ r ∧ σ.Held [l, r] ∧ σ.H l = some ln ∧ ln.next = some r) →
    (merge nav cfg f stack node l).vwp (bp cfg d) σ (fun _ σ' => σ'.Free)
  | 0, stack, node, l, σ, hh => trivial
  | f + 1, stack, node, l, σ, hh => by
    have hd' : ∀ S : List Ptr, d = true → S = [] := fun S h => by rw [hd] at h; cases h
    rw [merge]
    rcases hh with hh | ⟨r, ln, hlr, hh, e1, e2⟩
    · refine Vw.read rfl hh fun ln hln _ σ1 h1 e1 _ => ?_
      cases hnx : ln.next with
      | none => exact Vw.unsix (f := fun _ => Prog.ret ()) (S := []) h1 (by simp) fun σ3 h3 _ => held_nil.1 h3
      | some r =>
        refine Vw.six h1 (hd' _) fun hr1 σ2 h2 k2 => ?_
        have hlr : l ≠ r := fun h => hr1 (by simp [h])
        have h2 : σ2.Held [l, r] := h2.perm (by simp [or_comm])
        have e2 : σ2.H l = some ln := k2 l (by simp) _ e1
        refine Vw.read rfl h2 fun rn hrn _ σ3 h3 _ g3 => ?_
        have e3 : σ3.H l = some ln := by rw [g3 l hlr, e2]
        split
        · exact Vw.unsix (S := [l]) (h3.perm (by simp [or_comm])) (by simpa using hlr.symm) fun σ4 h4 _ =>
            Vw.unsix (f := fun _ => Prog.ret ()) (S := []) h4 (by simp) fun σ5 h5 _ => held_nil.1 h5
        · cases hhi : ln.high with
          | none => trivial
          | some key =>
            dsimp only
            cases stack with
            | nil =>
              refine Vw.getRoot fun root => Vw.call (hn.searchParent _ _ _ _ _ _ [l, r] h3 (hd' _)) ?_
              rintro st σ4 ⟨k4, h4⟩
              exact merge_vwp hr hn hd f _ _ _ _ (Or.inr ⟨r, ln, hlr, h4, k4 l (by simp) _ e3, hnx⟩)
            | cons top rest =>
              dsimp only
              refine Vw.call (hn.checkW _ _ _ _ [l, r] h3 (hd' _)) ?_
              rintro o σ4 ⟨k4, h4⟩
              have e4 : σ4.H l = some ln := k4 l (by simp) _ e3
              cases o with
              | none =>
                refine Vw.getRoot fun root => Vw.call (hn.searchParent _ _ _ _ _ _ [l, r] h4 (hd' _)) ?_
                rintro st σ5 ⟨k5, h5⟩
                exact merge_vwp hr hn hd f _ _ _ _ (Or.inr ⟨r, ln, hlr, h5, k5 l (by simp) _ e4, hnx⟩)
              | some p =>
                obtain ⟨hp, h4⟩ := h4
                refine Vw.call (deleteChild_vwp hr h4 hp) ?_
                rintro rc σ5 ⟨⟨k5, h5⟩, hrc⟩
                have e5 : σ5.H l = some ln := k5 l (by simp) _ e4
                have hpl : p ≠ l := fun h => hp (by simp [h])
                have hpr : p ≠ r := fun h => hp (by simp [h])
                rcases h5 with ⟨rfl, h5⟩ | ⟨hne, h5⟩
                · simp only [reduceCtorEq, if_false]
                  have h5 : σ5.Held (l :: r :: [p]) := h5.perm (by intro q; simp; tauto)
                  refine Vw.call (mergeInto_vwp hr h5 hlr (by simpa using hpl.symm) (by simpa using hpr.symm)) fun _ σ6 h6 => Vw.retire ?_
                  split
                  · exact tryShrinkTree_vwp hd h6
                  · exact merge_vwp hr hn hd f _ _ _ _ (Or.inl h6)
                · split
                  · exact Vw.unsix (S := [r]) h5 (by simpa using hlr) fun σ6 h6 _ =>
                      Vw.unsix (f := fun _ => Prog.ret ()) (S := []) h6 (by simp) fun σ7 h7 _ => held_nil.1 h7
                  · split
                    · exact merge_vwp hr hn hd f _ _ _ _ (Or.inr ⟨r, ln, hlr, h5, e5, hnx⟩)
                    · have hc : rc = .completed := by
                        rcases hrc with h | h | h | h
                        · contradiction
                        · contradiction
                        · exact h
                        · contradiction
                      refine Vw.call (mergeInto_vwp (S := []) hr h5 hlr (by simp) (by simp)) fun _ σ6 h6 => Vw.retire ?_
                      rw [if_pos hc]
                      exact Vw.ret (held_nil.1 h6)
    · refine Vw.read rfl hh fun ln' hln hH σ1 h1 _ _ => ?_
      have := hH _ e1
      subst this
      rw [e2]
      dsimp only
      exact Vw.six h1 (hd' _) fun hr1 => absurd (by simp) hr1

end CBlink
end BT
