import Verif.OslScanOk
import Verif.LockRun
import Mathlib.Data.Finset.Range
import Mathlib.Data.Finset.Card
import Mathlib.Data.Finset.Filter

/-!
# OML: threads do not wait for each other in a cycle

Threads of OML hold no lock in mode S.  They wait for page locks only in one order: from the root towards the leaves, and from left to right
among the pages of one level.  They wait for the end of an exclusive access only while they hold no lock.
-/

set_option linter.unusedSectionVars false

namespace BT
open Spec
variable {K V : Type} [LinearOrder K] {cfg : Cfg K} {L : Nat} {w : World K V} {t u : Tid} {p q : Ptr} {σ : Vis K V} {m m' : Mem K V}
  {I : CImpl K V} {c c' c0 : Conf K V} {ro : Op K V → Prop}

/-- The simulation holds in every reachable configuration. -/
theorem Lg.sim_reach {Lo : Lg K V} {m0 : Map K V} (h0 : Lo.Sim m0 c0)
    (hI : ∀ t fuel op w, Lo.Inv w → Lo.Idle t w → (Lo.ps w).ph t = .waiting op (Lo.ps w).now →
      Lo.wp t (I fuel op) (fun out w => (Lo.ps w).ph t = .done out ∧ Lo.Idle t w) w)
    (hc : Conf.Reach I c0 c) (hn : c.mem.raced = false) : Lo.Sim m0 c := by
  induction hc with
  | refl => exact h0
  | @step c1 c2 h1 h2 ih =>
    refine Lg.sim_step hI (ih ?_) h2
    cases hr : c1.mem.raced with
    | false => rfl
    | true =>
      cases h2 with
      | inv => exact absurd (hr.symm.trans hn) (by simp)
      | act _ hrun => exact absurd ((Lg.raced_mono hrun hr).symm.trans hn) (by simp)
      | crash => exact absurd (hr.symm.trans hn) (by simp)
      | res => exact absurd (hr.symm.trans hn) (by simp)

/-! ## Nobody holds a lock in mode S -/

theorem Act.noS {β : Type} {a : Act K V β} {Q : β → Vis K V → Prop} {b : β} (h : a.vwp omlP σ Q) (e : a.run t m = .run (b, m'))
    (hs : ∀ p, (m.lk p).s = []) : ∀ p, (m'.lk p).s = [] := by
  intro p
  cases a
  case lockS => exact absurd h.2.1 (by simp [omlP])
  case tryLockS => exact absurd h.1 (by simp [omlP])
  all_goals
    simp only [Act.run] at e
    (try split at e) <;> (try split at e) <;> (try split at e) <;>
    first
    | (cases e; done)
    | (cases e; exact hs p)
    | (cases e; simp only [Mem.setHeap, Mem.setLk, Spec.upd]; split <;> simp [hs])

theorem VInv.noS (hI : ∀ fuel op, ∀ σ : Vis K V, σ.Free → (I fuel op).vwp omlP σ (fun _ σ' => σ'.Free))
    (hro : ∀ fuel op, ro op → (I fuel op).Lockfree) (h0 : VInv omlP ro c0) (hs : ∀ p, (c0.mem.lk p).s = []) (hc : Conf.Reach I c0 c) :
    ∀ p, (c.mem.lk p).s = [] := by
  induction hc with
  | refl => exact hs
  | @step c1 c2 h1 h2 ih =>
    have hv := VInv.reach (adm := fun _ => True) (fun fuel op _ => hI fuel op) hro h0 h1 (fun _ _ _ => trivial)
    cases h2 with
    | inv => exact ih
    | @act t β a k b m h0 hrun =>
      obtain ⟨σ, -, -, s3⟩ := hv.thr t
      exact Act.noS (s3 _ h0).1 hrun ih
    | crash => exact ih
    | res => exact ih

/-! ## The order of the pages -/

/-- Page `q` comes after page `p`: it is further down, or further to the right. -/
def World.After (w : World K V) (p q : Ptr) : Prop := w.lvl q < w.lvl p ∨ w.lvl p = w.lvl q ∧ w.lo p < w.lo q

theorem World.After.trans {r : Ptr} (h1 : w.After p q) (h2 : w.After q r) : w.After p r := by
  rcases h1 with h1 | ⟨h1, h1'⟩ <;> rcases h2 with h2 | ⟨h2, h2'⟩
  · exact Or.inl (h2.trans h1)
  · exact Or.inl (h2.symm ▸ h1)
  · exact Or.inl (h1.symm ▸ h2)
  · exact Or.inr ⟨h1.trans h2, h1'.trans h2'⟩

theorem World.After.irrefl : ¬ w.After p p := by
  rintro (h | ⟨-, h⟩) <;> exact absurd h (lt_irrefl _)

open Classical in
/-- The number of pages after `p`. -/
noncomputable def World.pageRank (w : World K V) (p : Ptr) : Nat := ((Finset.range w.mem.fresh).filter (fun q => w.After p q)).card

theorem World.pageRank_lt (h : w.After p q) (hq : q < w.mem.fresh) : w.pageRank q < w.pageRank p := by
  classical
  refine Finset.card_lt_card (Finset.ssubset_iff_of_subset ?_ |>.2 ⟨q, ?_, ?_⟩)
  · intro r hr
    rw [Finset.mem_filter] at hr ⊢
    exact ⟨hr.1, h.trans hr.2⟩
  · rw [Finset.mem_filter]
    exact ⟨Finset.mem_range.2 hq, h⟩
  · rw [Finset.mem_filter]
    exact fun h => World.After.irrefl h.2

/-! ## Deadlocks -/

/-- Whoever is waited for waits for a page further down or further to the right. -/
theorem VInv.rankedO {m0 : Map K V} (hb : cfg.blink = false) (hv : VInv omlP ro c) (hs : ∀ p, (c.mem.lk p).s = [])
    (hsim : (blg V cfg).Sim m0 c) (hn : c.mem.raced = false) : c.Ranked := by
  rcases hsim with e | ⟨w, e, hi, -, ht⟩
  · rw [hn] at e; cases e
  have e : w.mem = c.mem := e
  have hi : CInv cfg w := hi
  refine ⟨fun _ a => w.pageRank a.lockOf, fun t u β γ a k b k' h1 h2 h3 h4 h5 => ?_⟩
  obtain ⟨σ, s1, -, s3⟩ := hv.thr u
  have hw : b.vwp omlP σ (fun b σ' => (k' b).vwp omlP σ' (fun _ σ' => σ'.Free)) := (s3 _ h4).1
  have hL := s1.L
  have hm := h3.md
  have ho : w.Own u a.lockOf := by
    by_contra hc
    apply hm
    refine Lk.md_none (fun h => hc (Or.inr ?_)) (fun h => hc (Or.inl ?_)) (by rw [hs]; simp)
    · show (w.mem.lk _).x = _; rw [e]; exact h
    · show (w.mem.lk _).six = _; rw [e]; exact h
  have hf : ¬ σ.Free := fun hf => hm (by rw [hL]; exact hf _)
  obtain ⟨w0, r0, hwp⟩ := (ht u).2 _ h4
  obtain ⟨⟨-, hask⟩, -⟩ := hwp w r0 hi
  have hord : b.Ordered u w := hask.2.2 hb
  obtain ⟨v, hx⟩ := Act.wait_held h5
  have sixcase : ∀ p', w.Pub p' → w.Before u p' → w.pageRank p' < w.pageRank a.lockOf := by
    intro p' hp hbf
    obtain ⟨-, hb⟩ := hbf _ ho
    refine World.pageRank_lt hb ?_
    by_contra hc
    obtain ⟨n, hn⟩ := hi.some_of_pub hp
    have := hi.fresh p' (Nat.le_of_not_lt hc)
    rw [hn] at this; cases this
  cases b <;> try exact hx.elim
  case lockS p' => exact absurd hw.2.1 (by simp [omlP])
  case getVer p' => exact absurd (hw.1.2.2 rfl) hf
  case lockSIX p' => exact sixcase p' hord.1 hord.2
  case tryLockSIX p' ver => exact sixcase p' hord.1 hord.2
  case tryLockX p' ver => exact absurd (hw.2.1 rfl) hf
  case upgradeX p' =>
    have hx : v ∈ (c.mem.lk p').s := hx
    rw [hs] at hx; cases hx
  case lockX p' =>
    have hmd := Act.HeldBy.md hx
    have hp : w.st p' = .priv u := hord
    have hv' : w.st p' = .priv v := by
      refine hi.lkn p' v (fun h => by simp [World.Pub, hp] at h) (Or.inl ?_)
      rcases hx with h | h | h
      · exact Or.inr (by show (w.mem.lk _).x = _; rw [e]; exact h)
      · exact Or.inl (by show (w.mem.lk _).six = _; rw [e]; exact h)
      · rw [hs] at h; cases h
    rw [hp] at hv'
    cases hv'
    exact absurd (by rw [hL]; exact hw.2.1 rfl) hmd

namespace COml

/-- The simulation holds in executions of OML in which none of the noted situations occurs. -/
theorem simS (hr : Roomy cfg L) (hb : cfg.blink = false) {junk : Node K V → Node K V → K} {m0 : Map K V} (h0 : (blg V cfg).Sim m0 c0)
    (hc : Conf.Reach (execS cfg junk) c0 c) (hn : c.mem.raced = false) : (blg V cfg).Sim m0 c := by
  have : Fact (cfg.blink = false) := ⟨hb⟩
  exact Lg.sim_reach (Lo := blg V cfg) h0 (fun t fuel op w a b d =>
    withSolo (WP.noLk (exec_g fuel op) (b.2.2.1 hb) ((execS_ok hr t fuel op w a b.2.1 b.1 b.2.2.2 (b.2.2.1 hb) d).mono fun _ _ h n s =>
      ⟨h.1, h.2.1, s.trans b.2.1, fun _ => n, h.2.2⟩))) hc hn

/-- Threads that run OML wait in the order of the pages, as long as no merge has run into trouble. -/
theorem ranked (hr : Roomy cfg L) (hb : cfg.blink = false) {junk : Node K V → Node K V → K} {m0 : Map K V} (h0 : (blg V cfg).Sim m0 c0)
    (hv : VInv omlP ro c0) (hro : ∀ fuel op, ro op → (execS cfg junk fuel op : Prog K V _).Lockfree) (hs : ∀ p, (c0.mem.lk p).s = [])
    (hc : Conf.Reach (execS cfg junk) c0 c) (hn : c.mem.raced = false) : VInv omlP ro c ∧ c.Ranked := by
  have : Fact (cfg.blink = false) := ⟨hb⟩
  have hI : ∀ fuel op, ∀ σ : Vis K V, σ.Free → (execS cfg junk fuel op).vwp omlP σ (fun _ σ' => σ'.Free) := fun fuel op => exec_g fuel op
  have hv' := VInv.reach (adm := fun _ => True) (fun fuel op _ => hI fuel op) hro hv hc (fun _ _ _ => trivial)
  refine ⟨hv', hv'.rankedO hb (hv.noS hI hro hs hc) (simS hr hb h0 hc hn) hn⟩

end COml
end BT
