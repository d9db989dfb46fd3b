import Verif.PmlConcOk

/-!
# Executions of PML from the empty tree: start, blocking, executions without readers
-/

set_option linter.unusedSectionVars false

namespace BT
variable {K V : Type}

/-- Thread `u` holds the lock that the action wants in a mode that makes it wait (see `Act.run`). -/
def Act.HeldBy {β : Type} (m : Mem K V) (u : Tid) : Act K V β → Prop
  | .lockS p | .getVer p => (m.lk p).x = some u
  | .lockSIX p | .tryLockSIX p _ => (m.lk p).x = some u ∨ (m.lk p).six = some u
  | .lockX p | .tryLockX p _ => (m.lk p).x = some u ∨ (m.lk p).six = some u ∨ u ∈ (m.lk p).s
  | .upgradeX p => u ∈ (m.lk p).s
  | _ => False

/-- Thread `t` waits for a lock that thread `u` holds. -/
def Conf.WaitsFor (c : Conf K V) (t u : Tid) : Prop :=
  ∃ (β : Type) (a : Act K V β) (k : β → Prog K V (Out K V)), c.thr t = some (.act a k) ∧ a.run t c.mem = .wait ∧ a.HeldBy c.mem u

/-- Thread `t` is in the middle of a call and need not wait. -/
def Conf.Runs (c : Conf K V) (t : Tid) : Prop :=
  c.thr t = some .stuck ∨ ∃ (β : Type) (a : Act K V β) (k : β → Prog K V (Out K V)) (b : β) (m : Mem K V),
    c.thr t = some (.act a k) ∧ a.run t c.mem = .run (b, m)

namespace PL
open Spec
variable [LinearOrder K] {cfg : Cfg K} {L : Nat}

/-- The world of the empty tree. -/
def w0 : World K V where
  mem := Conf.initPml.mem
  ps := ⟨0, fun _ => Spec.empty, fun _ => .idle⟩
  vh := fun p => if p = 1 then some Node.emptyLeaf else none
  root := 1
  H := 0
  gr := fun _ => [(1, [])]
  own := fun _ => none

theorem inv0 : PInv cfg (w0 : World K V) where
  good := by
    refine ⟨⟨⟨[], rfl⟩, ?_, fun i hi => by simp [w0] at hi, fun i hi j hj => by simp [w0] at hi hj; omega, ?_, ?_⟩, ?_⟩
    · intro i hi
      refine ⟨Node.emptyLeaf, by simp [w0], ⟨?_, ?_⟩, ?_⟩
      · have : i = 0 := by simpa [w0] using hi
        subst this
        simpa using emptyLeaf_ok cfg
      · simp [Node.emptyLeaf]
      · simp [Chain, Node.emptyLeaf]
    · intro p
      simp only [w0]
      constructor
      · intro h
        refine ⟨0, le_refl _, ?_⟩
        by_cases hp : p = 1
        · simp [flat, hp]
        · simp [hp] at h
      · rintro ⟨i, -, h⟩
        simp [flat] at h
        simp [h]
    · intro p h
      simp only [w0] at h ⊢
      by_cases hp : p = 1
      · subst hp; simp [Conf.initPml]
      · simp [hp] at h
    · intro i _ g hg
      simp [w0] at hg
      simp [hg]
  zero := by simp [w0, Conf.initPml]
  map := by
    funext k
    simp [contents, flat, pairsOf, w0, Node.emptyLeaf, mapOf, Spec.empty]
  raced := rfl
  lkx := fun p t h => by simp [w0, Conf.initPml] at h
  nodup := fun p => by simp [w0, Conf.initPml]
  clean := fun p _ _ => by simp only [w0, Conf.initPml, World.cells]
  owned := fun p t h => by simp [w0] at h
  guard := fun p t h => by simp [w0] at h
  xown := fun p t h => by simp [w0, Conf.initPml] at h
  gc := fun p h => by simp [w0, Conf.initPml] at h
  fresh := fun p h => by simp [w0, Conf.initPml]

theorem sim0 (cfg : Cfg K) : (lg cfg : LLg K V).Sim Spec.empty Conf.initPml (w0 : World K V) where
  mem := rfl
  inv := inv0
  past := Past.init _ rfl
  idle := fun t _ => ⟨rfl, ⟨fun p _ => by simp [w0, Conf.initPml], fun p _ => by simp [w0, Conf.initPml],
    fun p _ => by simp [w0, Conf.initPml], fun p _ => by simp [w0], fun p h => by simp at h⟩⟩
  busy := fun t p h => by simp [Conf.initPml] at h

theorem sim (hR : Roomy cfg L) (hmf : L + cfg.maxPayLen + cfg.mlen ≤ cfg.minFree) {c : Conf K V}
    (hc : Conf.Reach (CPml.exec cfg) Conf.initPml c) (hn : c.mem.raced = false) : ∃ w : World K V, (lg cfg : LLg K V).Sim Spec.empty c w :=
  LLg.adequate (impl hR hmf) (sim0 cfg) hc hn

/-! ## Waiting -/

variable {c : Conf K V} {w : World K V} {t u : Tid} {m0 : Map K V}

theorem par_ne_zero (hi : PInv cfg w) {q : Ptr} (h : w.Par q 0) : False := by
  by_cases hq : q = 0
  · subst hq
    exact hi.root_ne (par0_iff.1 h).symm
  · obtain ⟨i, h1, -, -, h4⟩ := hi.par_level hq h
    obtain ⟨g, hg, e⟩ := List.mem_map.1 h4
    have : (0 : Ptr) ∈ flat (w.gr i) := by rw [← e]; exact fst_mem_flat hg
    have := (hi.good.wf.alloc 0).2 ⟨i, by omega, this⟩
    exact this hi.zero.1

theorem excl_unique (hi : PInv cfg w) {p : Ptr} (h1 : w.Excl t p) (h2 : w.Excl u p) : t = u := by
  rcases h1 with h1 | h1 <;> rcases h2 with h2 | h2
  · rw [h1] at h2; exact Option.some.inj h2
  · rw [(hi.lkx p u h2).1] at h1; cases h1
  · rw [(hi.lkx p t h1).1] at h2; cases h2
  · rw [h1] at h2; exact Option.some.inj h2

/-- A thread that waits has a rank, and whoever it waits for and waits as well has a lower one. -/
theorem wait_rank (hs : (lg cfg : LLg K V).Sim m0 c w) (hw : c.Waiting t) : ∃ r, Below w t r ∧ (∃ u, c.WaitsFor t u) ∧
    ∀ u r', c.WaitsFor t u → Below w u r' → r' < r := by
  obtain ⟨β, a, k, h1, h2⟩ := hw
  have hW : Wait t w a := hs.wait h1 h2
  have hi : PInv cfg w := hs.inv
  have e : w.mem = c.mem := hs.mem
  cases a with
  | lockS p =>
    obtain ⟨j, hl, hb⟩ := hW
    refine ⟨_, hb, ?_, ?_⟩
    · simp only [Act.run] at h2
      split at h2
      · cases h2
      · split at h2
        · cases h2
        · next hx =>
          obtain ⟨u, hu⟩ := Option.ne_none_iff_exists'.1 hx
          refine ⟨u, _, _, k, h1, ?_, hu⟩
          simp only [Act.run]
          simp_all
    · rintro u r' ⟨β', a', k', g1, -, g3⟩ hb'
      rw [h1] at g1
      cases g1
      have : (w.lk p).x = some u := by rw [World.lk, e]; exact g3
      exact ((hb' p j hl).2.1 this)
  | lockSIX p =>
    obtain ⟨⟨j, hl, hb⟩, hq, hne⟩ := hW
    refine ⟨_, hb, ?_, ?_⟩
    · have h2' := h2
      simp only [Act.run] at h2
      split at h2
      · cases h2
      · split at h2
        · cases h2
        · next hx =>
          by_cases hx' : (c.mem.lk p).x = none
          · have h6 : (c.mem.lk p).six ≠ none := fun e => hx ⟨hx', e⟩
            obtain ⟨u, hu⟩ := Option.ne_none_iff_exists'.1 h6
            exact ⟨u, _, _, k, h1, h2', Or.inr hu⟩
          · obtain ⟨u, hu⟩ := Option.ne_none_iff_exists'.1 hx'
            exact ⟨u, _, _, k, h1, h2', Or.inl hu⟩
    · rintro u r' ⟨β', a', k', g1, -, g3⟩ hb'
      rw [h1] at g1
      cases g1
      rcases g3 with g3 | g3
      · have : (w.lk p).x = some u := by rw [World.lk, e]; exact g3
        exact ((hb' p j hl).2.1 this)
      · have g3 : (w.lk p).six = some u := by rw [World.lk, e]; exact g3
        rcases (hb' p j hl).2.2 g3 with h | ⟨q', hp', hx'⟩
        · exact h
        · exfalso
          rcases hq with rfl | ⟨q, hp, hx⟩
          · exact par_ne_zero hi hp'
          · have := hi.par_unique hp hp'
            subst this
            have := excl_unique hi hx hx'
            subst this
            exact hne (Or.inl g3)
  | upgradeX p =>
    obtain ⟨⟨j, hl, hb⟩, hne⟩ := hW
    refine ⟨_, hb, ?_, ?_⟩
    · have h2' := h2
      simp only [Act.run] at h2
      split at h2
      · split at h2
        · cases h2
        · next hx =>
          obtain ⟨u, hu⟩ := List.exists_mem_of_ne_nil _ hx
          exact ⟨u, _, _, k, h1, h2', hu⟩
      · cases h2
    · rintro u r' ⟨β', a', k', g1, -, g3⟩ hb'
      rw [h1] at g1
      cases g1
      have : u ∈ (w.lk p).s := by rw [World.lk, e]; exact g3
      exact ((hb' p j hl).1 this)
  | _ => exact hW.elim

/-- What a waiting thread waits for is a page of the tree. -/
theorem wait_live (hs : (lg cfg : LLg K V).Sim m0 c w) (hw : c.WaitsFor t u) :
    ∃ p, p ∉ w.mem.gc ∧ (u ∈ (w.lk p).s ∨ (w.lk p).six = some u ∨ (w.lk p).x = some u) := by
  obtain ⟨β, a, k, h1, h2, h3⟩ := hw
  have hW : Wait t w a := hs.wait h1 h2
  have hi : PInv cfg w := hs.inv
  have e : w.mem = c.mem := hs.mem
  cases a with
  | lockS p =>
    obtain ⟨j, hl, hb⟩ := hW
    exact ⟨p, hi.lvl_live hl, Or.inr (Or.inr (by rw [World.lk, e]; exact h3))⟩
  | lockSIX p =>
    obtain ⟨⟨j, hl, hb⟩, hq, hne⟩ := hW
    refine ⟨p, hi.lvl_live hl, Or.inr ?_⟩
    rw [World.lk, e]
    exact h3.symm
  | upgradeX p =>
    obtain ⟨⟨j, hl, hb⟩, hne⟩ := hW
    exact ⟨p, hi.lvl_live hl, Or.inl (by rw [World.lk, e]; exact h3)⟩
  | _ => exact hW.elim

/-- Whoever is waited for is in the middle of a call. -/
theorem waits_runs (hs : (lg cfg : LLg K V).Sim m0 c w) (hw : c.WaitsFor t u) : c.Waiting u ∨ c.Runs u := by
  obtain ⟨p, hp, hl⟩ := wait_live hs hw
  have key : TS w u [] [] [] [] → False := by
    intro h
    rcases hl with hl | hl | hl
    · exact absurd ((h.s p hp).1 hl) (by simp)
    · exact absurd ((h.six p hp).1 hl) (by simp)
    · exact absurd ((h.x p hp).1 hl) (by simp)
  rcases hu : c.thr u with _ | pr
  · exact (key (hs.idle u hu).2).elim
  · cases pr with
    | ret out => exact (key (hs.idle_ret hu)).elim
    | ub => exact (hs.not_bad ⟨u, hu⟩).elim
    | stuck => exact Or.inr (Or.inl hu)
    | @act β a k =>
      obtain ⟨v, g1, g2⟩ := hs.busy u _ hu
      obtain ⟨g3, -⟩ := g2 w g1 hs.inv
      have e : w.mem = c.mem := hs.mem
      cases hr : a.run u c.mem with
      | wait => exact Or.inl ⟨_, _, _, hu, hr⟩
      | ub =>
        refine (g3 ?_).elim
        show a.run u w.mem = _
        rw [e]; exact hr
      | run x => exact Or.inr (Or.inr ⟨_, _, _, x.1, x.2, hu, hr⟩)

theorem waits_waiting {c : Conf K V} (h : c.WaitsFor t u) : c.Waiting t := by
  obtain ⟨β, a, k, h1, h2, -⟩ := h
  exact ⟨β, a, k, h1, h2⟩

open Relation in
theorem acyclic (hs : (lg cfg : LLg K V).Sim m0 c w) : ¬ TransGen c.WaitsFor t t := by
  have key : ∀ t u, TransGen c.WaitsFor t u → ∀ r r', Below w u r' →
      (∀ u' r', c.WaitsFor t u' → Below w u' r' → r' < r) → r' < r := by
    intro t u h
    induction h using TransGen.head_induction_on with
    | single h => exact fun r r' hb hr => hr _ _ h hb
    | @head a b h1 h2 ih =>
      intro r r' hb hr
      have hwb : c.Waiting b := by
        obtain ⟨x, hx, -⟩ := TransGen.head'_iff.1 h2
        exact waits_waiting hx
      obtain ⟨rb, g1, -, g3⟩ := wait_rank hs hwb
      exact (ih rb r' hb g3).trans (hr b rb h1 g1)
  intro h
  have hw : c.Waiting t := by
    obtain ⟨x, hx, -⟩ := TransGen.head'_iff.1 h
    exact waits_waiting hx
  obtain ⟨r, g1, -, g3⟩ := wait_rank hs hw
  exact absurd (key t t h r r g1 g3) (lt_irrefl _)

open Relation in
theorem progress (hs : (lg cfg : LLg K V).Sim m0 c w) (hw : c.Waiting t) : ∃ u, TransGen c.WaitsFor t u ∧ c.Runs u := by
  obtain ⟨r, g1, g2, g3⟩ := wait_rank hs hw
  clear g1
  induction r using Nat.strong_induction_on generalizing t with
  | _ r ih =>
    obtain ⟨u, hu⟩ := g2
    rcases waits_runs hs hu with h | h
    · obtain ⟨r', k1, k2, k3⟩ := wait_rank hs h
      obtain ⟨v, hv, hv'⟩ := ih r' (g3 u r' hu k1) h k2 k3
      exact ⟨v, TransGen.head hu hv, hv'⟩
    · exact ⟨u, TransGen.single hu, h⟩

theorem gc_free (hs : (lg cfg : LLg K V).Sim m0 c w) {p : Ptr} (hp : p ∈ c.mem.gc) : (c.mem.lk p).s = [] := by
  have hi : PInv cfg w := hs.inv
  have e : w.mem = c.mem := hs.mem
  obtain ⟨-, h2⟩ := hi.gc p (by rw [e]; exact hp)
  obtain ⟨u, hu⟩ := Option.ne_none_iff_exists'.1 h2
  rw [← e]
  exact (hi.owned p u hu).2.1

/-! ## Executions without readers -/

/-- The action takes a shared lock. -/
def shares {β : Type} : Act K V β → Bool
  | .lockS _ | .tryLockS _ _ => true
  | _ => false

/-- The code takes no shared lock. -/
def NoS {α : Type} : Prog K V α → Prop
  | .act a k => shares a = false ∧ ∀ b, NoS (k b)
  | _ => True

theorem NoS.bind {α β : Type} {p : Prog K V α} {f : α → Prog K V β} (h : NoS p) (hf : ∀ a, NoS (f a)) : NoS (p >>= f) := by
  show NoS (Prog.bind p f)
  induction p with
  | ret a => exact hf a
  | ub => trivial
  | stuck => trivial
  | act a k ih => exact ⟨h.1, fun b => ih b (h.2 b)⟩

theorem NoS.ret {α : Type} (a : α) : NoS (Prog.ret a : Prog K V α) := trivial
theorem NoS.pure {α : Type} (a : α) : NoS (pure a : Prog K V α) := trivial
theorem NoS.do_ {β : Type} {a : Act K V β} (h : shares a = false) : NoS (Prog.do_ a) := ⟨h, fun _ => trivial⟩
theorem NoS.lift {α : Type} (r : Res α) : NoS (Prog.lift r : Prog K V α) := by cases r <;> trivial

macro "nos1" : tactic => `(tactic| first
  | exact NoS.ret _ | exact NoS.pure _ | exact NoS.lift _ | exact trivial | assumption | refine NoS.do_ rfl
  | (refine NoS.bind ?_ (fun _ => ?_)) | split)

theorem noS_rootPtr : NoS (CPml.rootPtr : Prog K V Ptr) := by unfold CPml.rootPtr; repeat nos1
theorem noS_cleanUp (p : Ptr) (n : Node K V) : NoS (CPml.cleanUp cfg p n) := by unfold CPml.cleanUp; repeat nos1
theorem noS_needSplit (p : Ptr) : NoS (CPml.needSplit cfg p : Prog K V Bool) := by
  have := fun n => noS_cleanUp (V := V) (cfg := cfg) p n
  unfold CPml.needSplit; repeat (first | nos1 | exact this _)
theorem noS_needMerge (p : Ptr) : NoS (CPml.needMerge cfg p : Prog K V Bool) := by
  have := fun n => noS_cleanUp (V := V) (cfg := cfg) p n
  unfold CPml.needMerge; repeat (first | nos1 | exact this _)
theorem noS_shrinkTree : ∀ f, NoS (CPml.shrinkTree f : Prog K V Unit)
  | 0 => trivial
  | f + 1 => by
    have := noS_shrinkTree f
    have := noS_rootPtr (K := K) (V := V)
    unfold CPml.shrinkTree; repeat nos1
theorem noS_splitNode (l : Ptr) : NoS (CPml.splitNode cfg l : Prog K V Ptr) := by unfold CPml.splitNode; repeat nos1
theorem noS_validSplitNode (k : K) (l r : Ptr) : NoS (CPml.validSplitNode k l r : Prog K V Ptr) := by
  unfold CPml.validSplitNode; repeat nos1
theorem noS_rootSplit (k : K) : NoS (CPml.rootSplit cfg k : Prog K V Ptr) := by
  unfold CPml.rootSplit
  repeat (first | exact noS_rootPtr | exact noS_splitNode _ | exact noS_validSplitNode _ _ _ | nos1)
theorem noS_getRootForWrite (fuel : Nat) (k : K) : NoS (CPml.getRootForWrite cfg fuel k : Prog K V Ptr) := by
  unfold CPml.getRootForWrite
  repeat (first | exact noS_rootPtr | exact noS_shrinkTree _ | exact noS_needSplit _ | exact noS_rootSplit _ | nos1)
theorem noS_split (l p : Ptr) (pos : Nat) : NoS (CPml.split cfg l p pos : Prog K V Ptr) := by
  unfold CPml.split
  repeat (first | exact noS_splitNode _ | nos1)
theorem noS_merge (l p : Ptr) (pos : Nat) : NoS (CPml.merge cfg l p pos : Prog K V Unit) := by
  unfold CPml.merge
  repeat nos1
theorem noS_descend (k : K) : ∀ f p, NoS (CPml.descendForWrite cfg k f p : Prog K V Ptr)
  | 0, _ => trivial
  | f + 1, p => by
    have := noS_descend k f
    unfold CPml.descendForWrite
    repeat (first | exact this _ | exact noS_needSplit _ | exact noS_needMerge _ | exact noS_split _ _ _ | exact noS_merge _ _ _ |
      exact noS_validSplitNode _ _ _ | nos1)
theorem noS_search (fuel : Nat) (k : K) : NoS (CPml.searchLeafForWrite cfg fuel k : Prog K V Ptr) := by
  unfold CPml.searchLeafForWrite
  repeat (first | exact noS_getRootForWrite _ _ | exact noS_descend _ _ _ | nos1)
theorem noS_leafOp (leaf : Ptr) (op : Node K V → Res (RC × Node K V)) : NoS (CPml.leafOp leaf op) := by
  unfold CPml.leafOp; repeat nos1

theorem noS_exec (fuel : Nat) {op : Op K V} (h : ∀ k, op ≠ .read k) (h' : ∀ b e, op ≠ .scan b e) :
    NoS (CPml.exec cfg fuel op) := by
  cases op with
  | read k => exact absurd rfl (h k)
  | scan b e => exact absurd rfl (h' b e)
  | write k v =>
    show NoS (CPml.write cfg fuel k v >>= _)
    unfold CPml.write
    repeat (first | exact noS_search _ _ | nos1)
  | insert k v =>
    show NoS (CPml.insert cfg fuel k v >>= _)
    unfold CPml.insert
    repeat (first | exact noS_search _ _ | exact noS_leafOp _ _ | nos1)
  | update k v =>
    show NoS (CPml.update cfg fuel k v >>= _)
    unfold CPml.update
    repeat (first | exact noS_search _ _ | exact noS_leafOp _ _ | nos1)
  | delete k =>
    show NoS (CPml.delete cfg fuel k >>= _)
    unfold CPml.delete
    repeat (first | exact noS_search _ _ | exact noS_leafOp _ _ | nos1)

/-- Without new shared locks there are none. -/
theorem run_noS {β : Type} {a : Act K V β} {m m' : Mem K V} {b : β} (ha : shares a = false) (h : ∀ p, (m.lk p).s = [])
    (hr : a.run t m = .run (b, m')) (p : Ptr) : (m'.lk p).s = [] := by
  have key : ∀ q l, l.s = (m.lk q).s → ((m.setLk q l).lk p).s = [] := by
    intro q l e
    simp only [Mem.setLk]
    split
    · rw [e]; exact h q
    · exact h p
  cases a <;> simp only [Act.run] at hr <;> (try cases ha) <;> (repeat' split at hr) <;> cases hr <;>
    first
    | exact h p
    | exact key _ _ rfl
    | (refine key _ _ ?_; simp only [h]; rfl)

/-- Executions without `Read` and `Scan` never release a page that somebody else has locked. -/
theorem no_readers (hR : Roomy cfg L) (hmf : L + cfg.maxPayLen + cfg.mlen ≤ cfg.minFree) {c0 c : Conf K V} {w0 : World K V} {m0 : Map K V}
    (h0 : (lg cfg : LLg K V).Sim m0 c0 w0) (hs0 : ∀ p, (c0.mem.lk p).s = []) (ht0 : ∀ t, c0.thr t = none)
    (hc : Conf.Reach (CPml.exec cfg) c0 c) (hn : ∀ t k, Ev.inv t (.read k) ∉ c.hist)
    (hsc : ∀ t b e, Ev.inv t (.scan b e) ∉ c.hist) :
    (∃ w : World K V, (lg cfg : LLg K V).Sim m0 c w) ∧ (∀ p, (c.mem.lk p).s = []) ∧ ∀ t p, c.thr t = some p → NoS p := by
  induction hc with
  | refl => exact ⟨⟨_, h0⟩, hs0, fun t p h => by rw [ht0] at h; cases h⟩
  | @step c1 c2 h1 h2 ih =>
    have hsub : ∀ x ∈ c1.hist, x ∈ c2.hist := by
      intro x hm
      cases h2 with
      | inv => exact List.mem_append_left _ hm
      | act => exact hm
      | crash => exact hm
      | res => exact List.mem_append_left _ hm
    obtain ⟨⟨w, hw⟩, hs, hp⟩ := ih (fun t k hm => hn t k (hsub _ hm)) (fun t b e hm => hsc t b e (hsub _ hm))
    refine ⟨?_, ?_, ?_⟩
    · rcases LLg.sim_step (impl hR hmf) hw h2 with ⟨-, t, β, a, k, -, p, u, -, -, h3⟩ | h
      · exfalso
        have e : w.mem = c1.mem := hw.mem
        have h3 : u ∈ (w.mem.lk p).s := h3
        rw [e, hs p] at h3
        cases h3
      · exact h
    · intro p
      cases h2 with
      | inv => exact hs p
      | act g1 g2 => exact run_noS (hp _ _ g1).1 hs g2 p
      | crash => exact hs p
      | res => exact hs p
    · intro u p hu
      cases h2 with
      | inv t op fuel g =>
        simp only [Spec.upd] at hu
        split at hu
        · cases hu
          refine noS_exec fuel (fun k e => ?_) (fun b e h => ?_)
          · subst e
            exact hn t k (by simp)
          · subst h
            exact hsc t b e (by simp)
        · exact hp u p hu
      | act g1 g2 =>
        simp only [Spec.upd] at hu
        split at hu
        · cases hu
          exact (hp _ _ g1).2 _
        · exact hp u p hu
      | crash g1 g2 =>
        simp only [Spec.upd] at hu
        split at hu
        · cases hu
          trivial
        · exact hp u p hu
      | res g1 =>
        simp only [Spec.upd] at hu
        split at hu
        · cases hu
        · exact hp u p hu

end PL
end BT
