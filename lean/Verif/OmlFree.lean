import Verif.OmlNavOk
import Verif.LockOml

/-!
# Threads of OML that hold no lock

The logic of locks (`Act.vwp`) says when a piece of code has given up its locks.  Here this is carried over to the logic of the trees.
-/

set_option linter.unusedSectionVars false

namespace BT
variable {K V : Type} [LinearOrder K] {cfg : Cfg K} {w w' : World K V} {t : Tid} {p : Ptr} {σ : Vis K V} {m m' : Mem K V}

/-- The locks of thread `t` are those of `σ`, and nothing else is known. -/
structure Vis.Lks (σ : Vis K V) (t : Tid) (m : Mem K V) : Prop where
  L : ∀ p, (m.lk p).md t = σ.L p
  H : ∀ p, σ.H p = none
  pk : ∀ p v n, ¬ σ.pk p v n

theorem Act.vwp_lks {β : Type} {a : Act K V β} {Q : β → Vis K V → Prop} {b : β} (h : a.vwp omlP σ Q) (hs : σ.Lks t m) (hw : MWf omlP m)
    (e : a.run t m = .run (b, m')) : ∃ σ', Q b σ' ∧ σ'.Lks t m' := by
  have key : a.vwp omlP { σ with vs := fun _ _ => False } (fun b τ => ∃ σ', Q b σ' ∧ τ.L = σ'.L ∧ (∀ p, σ'.H p = none) ∧ ∀ p v n, ¬ σ'.pk p v n) := by
    have hset : ∀ p md q, (σ.set p md).H q = none := by
      intro p md q
      simp only [Vis.set]
      split
      · simp only [Spec.upd]; split
        · rfl
        · exact hs.H q
      · exact hs.H q
    cases a with
    | getRoot => exact fun p => ⟨_, h p, rfl, hs.H, hs.pk⟩
    | setRoot => exact ⟨_, h, rfl, hs.H, hs.pk⟩
    | isInner => exact fun p => ⟨_, h p, rfl, hs.H, hs.pk⟩
    | load p => exact fun n h1 h2 h3 => ⟨_, h n h1 h2 h3, rfl, hs.H, hs.pk⟩
    | peek p => exact fun n h1 => ⟨_, h n h1, rfl, hs.H, hs.pk⟩
    | store p n => exact ⟨h.1, fun h1 => ⟨_, h.2 h1, rfl, hs.H, hs.pk⟩⟩
    | poke p n => exact ⟨h.1, h.2.1, _, h.2.2, rfl, hs.H, hs.pk⟩
    | alloc n => exact ⟨h.1, fun p h1 h2 => ⟨_, h.2 p h1 h2, rfl, hs.H, hs.pk⟩⟩
    | retire => exact ⟨_, h, rfl, hs.H, hs.pk⟩
    | lockS p => exact absurd h.2.1 (by simp [omlP])
    | unlockS p => exact fun h1 => ⟨_, h h1, rfl, hset _ _, hs.pk⟩
    | lockSIX p => exact ⟨h.1, fun h1 h2 => ⟨_, h.2 h1 h2, rfl, hset _ _, hs.pk⟩⟩
    | unlockSIX p => exact fun h1 => ⟨_, h h1, rfl, hset _ _, hs.pk⟩
    | lockX p => exact ⟨h.1, h.2.1, fun h1 => ⟨_, h.2.2 h1, rfl, hset _ _, hs.pk⟩⟩
    | unlockX p => exact fun h1 => ⟨_, h h1, rfl, hset _ _, hs.pk⟩
    | unlockXVer p =>
      refine fun h1 v => ⟨_, h h1 v, rfl, hset p Md.none, ?_⟩
      rintro q w n (h' | ⟨-, -, h'⟩)
      · exact hs.pk q w n h'
      · rw [hs.H] at h'; cases h'
    | upgradeX p => exact ⟨h.1, fun h1 h2 => ⟨_, h.2 h1 h2, rfl, hset _ _, hs.pk⟩⟩
    | downgradeSIX p => exact fun h1 => ⟨_, h h1, rfl, hset _ _, hs.pk⟩
    | getVer p => exact ⟨h.1, fun v => ⟨_, h.2 v, rfl, hs.H, hs.pk⟩⟩
    | same => exact fun b => ⟨_, h b, rfl, hs.H, hs.pk⟩
    | tryLockS p v => exact absurd h.1 (by simp [omlP])
    | tryLockSIX p v => exact ⟨h.1, ⟨_, h.2.1, rfl, hs.H, hs.pk⟩, fun h1 h2 n h3 h4 => ⟨_, h.2.2 h1 h2 n h3 h4, rfl, hset _ _, hs.pk⟩⟩
    | tryLockX p v => exact ⟨h.1, h.2.1, ⟨_, h.2.2.1, rfl, hs.H, hs.pk⟩, fun h1 n h3 h4 => ⟨_, h.2.2.2 h1 n h3 h4, rfl, hset _ _, hs.pk⟩⟩
    | note => exact ⟨_, h, rfl, hs.H, hs.pk⟩
    | free => exact ⟨_, h, rfl, hs.H, hs.pk⟩
  obtain ⟨⟨τ, ⟨σ', h1, h2, h3, h4⟩, h5⟩, -⟩ := Act.vwp_run key (t := t)
    ⟨hs.L, (fun p n e => by rw [show σ.H p = none from hs.H p] at e; cases e), fun _ _ e => e.elim, fun p v n e => absurd e (hs.pk p v n), fun _ => ⟨hs.H, hs.pk⟩⟩ hw e
  exact ⟨σ', h1, fun p => by rw [h5.L, h2], h3, h4⟩

theorem CInv.mwf (h : CInv cfg w) : MWf omlP w.mem where
  ex := h.lkx
  al := by
    intro p hp
    by_contra hc
    exact hp (h.fresh p (Nat.le_of_not_lt hc))
  fr := by
    intro p hp
    have hst : w.st p = .free := (h.alloc p).1 (h.fresh p hp)
    have hno : ∀ u, ¬ (w.Own u p ∨ u ∈ (w.lk p).s) := fun u hu => by
      have := h.lkn p u (fun hp => by rw [World.Pub, hst] at hp; exact absurd hp (by simp)) hu
      rw [hst] at this; cases this
    refine ⟨?_, ?_, ?_⟩
    · by_contra hc
      obtain ⟨u, hu⟩ := Option.ne_none_iff_exists'.1 hc
      exact hno u (Or.inl (Or.inr hu))
    · by_contra hc
      obtain ⟨u, hu⟩ := Option.ne_none_iff_exists'.1 hc
      exact hno u (Or.inl (Or.inl hu))
    · by_contra hc
      obtain ⟨u, hu⟩ := List.exists_mem_of_ne_nil _ hc
      exact hno u (Or.inr hu)
  pg := fun _ _ _ => trivial

theorem Vis.Lks.rely (h : σ.Lks t w.mem) (r : Rely t w w') : σ.Lks t w'.mem := by
  refine ⟨fun p => ?_, h.H, h.pk⟩
  rw [← h.L]
  have e1 := r.kp.six p (fun e => e)
  have e2 := r.kp.x p (fun e => e)
  have e3 := r.s p
  show Lk.md (w'.lk p) t = Lk.md (w.lk p) t
  simp only [Lk.md, e1, e2, e3]

/-- What the logic of locks says about a piece of code of OML holds in the logic of trees. -/
theorem WP.withLks {α : Type} {c : Prog K V α} {Q : α → World K V → Prop} {R : α → Vis K V → Prop} (hs : σ.Lks t w.mem) (hv : c.vwp omlP σ R)
    (h : WP cfg t c (fun a w' => (∃ σ', R a σ' ∧ σ'.Lks t w'.mem) → Q a w') w) : WP cfg t c Q w := by
  induction c generalizing w σ with
  | ret a => exact h ⟨σ, hv, hs⟩
  | ub => exact h.elim
  | stuck => trivial
  | act a k ih =>
    intro w1 r1 i1
    obtain ⟨h1, h2⟩ := h w1 r1 i1
    refine ⟨h1, fun b m e => ?_⟩
    rcases h2 b m e with h2 | ⟨w2, e2, o2, h2⟩
    · exact Or.inl h2
    · obtain ⟨σ', v1, v2⟩ := Act.vwp_lks hv (hs.rely r1) (CInv.mwf (cfg := cfg) i1) e
      exact Or.inr ⟨w2, e2, o2, ih b (by rw [show w2.mem = m from e2]; exact v2) v1 h2⟩

theorem World.noLk_iff : w.NoLk t ↔ ∀ p, (w.mem.lk p).md t = Md.none := by
  constructor
  · intro h p
    exact Lk.md_none (fun e => (h p).1 (Or.inr e)) (fun e => (h p).1 (Or.inl e)) (h p).2
  · intro h p
    have e := h p
    simp only [Lk.md, Md.none, Md.mk.injEq, decide_eq_false_iff_not] at e
    exact ⟨fun ho => ho.elim e.2.1 e.2.2, List.count_eq_zero.1 e.1⟩

theorem WP.noLkIf {α : Type} {c : Prog K V α} {Q : α → World K V → Prop} {S : α → Prop}
    (hg : ∀ σ : Vis K V, σ.Free → c.vwp omlP σ (fun a σ' => S a → σ'.Free)) (hf : w.NoLk t)
    (h : WP cfg t c (fun a w' => (S a → w'.NoLk t) → Q a w') w) : WP cfg t c Q w := by
  refine WP.withLks (σ := ⟨fun _ => Md.none, fun _ => none, fun _ _ => False, fun _ _ _ => False⟩) (R := fun a σ' => S a → σ'.Free)
    ⟨World.noLk_iff.1 hf, fun _ => rfl, fun _ _ _ e => e⟩ (hg _ fun _ => rfl) (h.mono ?_)
  rintro a w' hq ⟨σ', h1, h2⟩
  exact hq fun ha => World.noLk_iff.2 fun p => by rw [h2.L]; exact h1 ha p

/-- A piece of code that gives up its locks ends without locks. -/
theorem WP.noLk {α : Type} {c : Prog K V α} {Q : α → World K V → Prop} (hg : COml.Gives c) (hf : w.NoLk t)
    (h : WP cfg t c (fun a w' => w'.NoLk t → Q a w') w) : WP cfg t c Q w :=
  WP.noLkIf (S := fun _ => True) (fun σ hσ => Prog.vwp_mono (hg σ hσ) fun _ _ h _ => h) hf (h.mono fun _ _ hq hn => hq (hn trivial))

theorem COml.exec_gx {junk : Node K V → Node K V → K} (fuel : Nat) (o : Op K V) : COml.Gives (COml.exec cfg junk fuel o : Prog K V _) := by
  cases o with
  | scan b e => exact fun _ _ => trivial
  | read k => exact COml.exec_g (cfg := cfg) (junk := junk) fuel (.read k)
  | write k v => exact COml.exec_g (cfg := cfg) (junk := junk) fuel (.write k v)
  | insert k v => exact COml.exec_g (cfg := cfg) (junk := junk) fuel (.insert k v)
  | update k v => exact COml.exec_g (cfg := cfg) (junk := junk) fuel (.update k v)
  | delete k => exact COml.exec_g (cfg := cfg) (junk := junk) fuel (.delete k)

end BT
