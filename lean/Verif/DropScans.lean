import Verif.LockSolo
import Verif.OslConcOk

/-!
# Executions without their scans

A scan of the optimistic trees takes no lock and changes no page.  So there is an execution without scans in which the other calls do the
same (`Drop`): what has been proved about executions of `Read`, `Write`, `Insert`, `Update` and `Delete` holds when scans run at the same
time.
-/

set_option linter.unusedSectionVars false

namespace BT
open Spec
variable {K V : Type} [LinearOrder K] {cfg : Cfg K} {L : Nat} {c c' : Conf K V} {t u : Tid} {α β : Type}

/-- Code that returns a list of records. -/
def Prog.Recs : Prog K V (Out K V) → Prop
  | .ret o => ∃ l, o = .recs l
  | .act _ k => ∀ b, (k b).Recs
  | .ub => True
  | .stuck => True

theorem Prog.Recs.bind {p : Prog K V α} {f : α → Prog K V (Out K V)} (h : ∀ a, (f a).Recs) : (p >>= f).Recs := by
  show (Prog.bind p f).Recs
  induction p with
  | ret a => exact h a
  | act a k ih => exact ih
  | ub => trivial
  | stuck => trivial

/-- `c'` is `c` without the scans. -/
structure Drop (c c' : Conf K V) : Prop where
  mem : ∃ r, c'.mem = { c.mem with raced := r }
  hist : c'.hist = c.hist.filter Ev.point
  thr : ∀ t, c'.thr t = c.thr t ∧ (∀ p, c.thr t = some p → p.NoRecs ∧ ∃ op, Pending c.hist t op ∧ Pending c'.hist t op) ∨
    c'.thr t = none ∧ ∃ p, c.thr t = some p ∧ p.Lockfree ∧ p.Recs ∧ ∃ b e, Pending c.hist t (.scan b e)

theorem Act.run_raced {a : Act K V β} {m : Mem K V} (r : Bool) :
    (a.run t m = .wait → a.run t { m with raced := r } = .wait) ∧ (a.run t m = .ub → a.run t { m with raced := r } = .ub) ∧
    ∀ b m', a.run t m = .run (b, m') → ∃ r', a.run t { m with raced := r } = .run (b, { m' with raced := r' }) := by
  cases a <;> simp only [Act.run] <;> (try split) <;> (try split) <;> (try split) <;> refine ⟨?_, ?_, ?_⟩ <;> intros <;>
    first
      | rfl
      | contradiction
      | (rename_i h; cases h; exact ⟨_, rfl⟩)

theorem Act.lockfree_run {a : Act K V β} (h : a.lockfree) {m m' : Mem K V} {b : β} (e : a.run t m = .run (b, m')) :
    ∃ r, m' = { m with raced := r } := by
  cases a <;> first | exact h.elim | skip
  all_goals simp only [Act.run] at e
  all_goals (try split at e)
  all_goals (try split at e)
  all_goals cases e
  all_goals exact ⟨_, rfl⟩

theorem OneWriter.snoc {h : List (Ev K V)} (ho : OneWriter h) {op' : Op K V} (hn : Writes op' → ∀ t op, Writes op → ¬ Pending h t op) :
    OneWriter (h ++ [.inv u op']) := by
  intro h1 h2 h3 t v op op2 e w1 w2
  rcases List.eq_nil_or_concat h3 with rfl | ⟨h3, y, rfl⟩
  · have e : h ++ [Ev.inv u op'] = (h1 ++ .inv t op :: h2) ++ [.inv v op2] := by rw [e]; simp
    obtain ⟨e1, e2⟩ := List.append_inj' e rfl
    simp only [List.cons.injEq, and_true, Ev.inv.injEq] at e2
    obtain ⟨rfl, rfl⟩ := e2
    by_contra hc
    exact hn w2 t op w1 ⟨h1, h2, e1, fun out hm => hc ⟨out, hm⟩⟩
  · have e : h ++ [Ev.inv u op'] = (h1 ++ .inv t op :: (h2 ++ .inv v op2 :: h3)) ++ [y] := by rw [e]; simp
    obtain ⟨e1, -⟩ := List.append_inj' e rfl
    exact ho h1 h2 h3 t v op op2 e1 w1 w2

theorem OneWriter.snocRes {h : List (Ev K V)} (ho : OneWriter h) {out : Out K V} : OneWriter (h ++ [.res u out]) := by
  intro h1 h2 h3 t v op op2 e w1 w2
  rcases List.eq_nil_or_concat h3 with rfl | ⟨h3, y, rfl⟩
  · have e : h ++ [Ev.res u out] = (h1 ++ .inv t op :: h2) ++ [.inv v op2] := by rw [e]; simp
    obtain ⟨-, e2⟩ := List.append_inj' e rfl
    simp at e2
  · have e : h ++ [Ev.res u out] = (h1 ++ .inv t op :: (h2 ++ .inv v op2 :: h3)) ++ [y] := by rw [e]; simp
    obtain ⟨e1, -⟩ := List.append_inj' e rfl
    exact ho h1 h2 h3 t v op op2 e1 w1 w2

/-- Implementations `I` without scans and `J` with scans that take no lock and change no page. -/
structure Adds (I J : CImpl K V) : Prop where
  same : ∀ fuel op, (∀ b e, op ≠ .scan b e) → J fuel op = I fuel op
  noRecs : ∀ fuel op, (I fuel op).NoRecs
  scan : ∀ fuel b e, (J fuel (.scan b e)).Lockfree ∧ (J fuel (.scan b e)).Recs

theorem Drop.start {c0 : Conf K V} (ht : ∀ t, c0.thr t = none) (hh : c0.hist = []) : Drop c0 c0 :=
  ⟨⟨_, rfl⟩, by rw [hh]; rfl, fun t => Or.inl ⟨rfl, fun p h => by rw [ht] at h; cases h⟩⟩

theorem Drop.step {I J : CImpl K V} (hA : Adds I J) {c0 d : Conf K V} (h0' : c0.hist = []) (hD : Drop c c') (hc' : Conf.Reach I c0 c')
    (hw' : OneWriter c.hist → OneWriter c'.hist) (hs : Conf.Step J c d) :
    ∃ d', Drop d d' ∧ Conf.Reach I c0 d' ∧ (OneWriter d.hist → OneWriter d'.hist) := by
  obtain ⟨⟨r, hm⟩, hh, ht⟩ := hD
  have other : ∀ {x : Ev K V} {v : Tid} {p : Prog K V (Out K V)}, (∀ out, x ≠ .res v out) → (p.NoRecs ∧ ∃ op, Pending c.hist v op ∧ Pending c'.hist v op) →
      p.NoRecs ∧ ∃ op, Pending (c.hist ++ [x]) v op ∧ Pending (c'.hist ++ [x]) v op := by
    rintro x v p hx ⟨h1, op, h2, h3⟩
    exact ⟨h1, op, h2.snoc hx, h3.snoc hx⟩
  have other' : ∀ {x : Ev K V} {v : Tid} {p : Prog K V (Out K V)}, (∀ out, x ≠ .res v out) → (p.NoRecs ∧ ∃ op, Pending c.hist v op ∧ Pending c'.hist v op) →
      p.NoRecs ∧ ∃ op, Pending (c.hist ++ [x]) v op ∧ Pending c'.hist v op := by
    rintro x v p hx ⟨h1, op, h2, h3⟩
    exact ⟨h1, op, h2.snoc hx, h3⟩
  have mk : ∀ {d'}, Conf.Reach I c0 d' → Drop d d' → (OneWriter d.hist → OneWriter d'.hist) →
      ∃ d', Drop d d' ∧ Conf.Reach I c0 d' ∧ (OneWriter d.hist → OneWriter d'.hist) := fun a b e => ⟨_, b, a, e⟩
  cases hs with
  | inv t op fuel hn =>
    have hn' : c'.thr t = none := by
      rcases ht t with h | ⟨h, -⟩
      · exact h.1.trans hn
      · exact h
    by_cases hsc : ∃ b e, op = .scan b e
    · -- a scan begins
      obtain ⟨b, e, rfl⟩ := hsc
      refine ⟨c', ⟨⟨r, hm⟩, by simp [hh, Ev.point], fun v => ?_⟩, hc', fun ho => hw' (OneWriter.prefix ho)⟩
      by_cases ev : v = t
      · subst ev
        exact Or.inr ⟨hn', _, by simp [Spec.upd], (hA.scan fuel b e).1, (hA.scan fuel b e).2, b, e, ⟨_, [], rfl, by simp⟩⟩
      · have ne : (Spec.upd c.thr t (some (J fuel (.scan b e)))) v = c.thr v := if_neg ev
        refine (ht v).imp (fun h => ⟨h.1.trans ne.symm, fun p hp => other' (by simp) (h.2 p (ne.symm.trans hp))⟩) fun h => ?_
        obtain ⟨h1, p, h2, h3, h4, b', e', h5⟩ := h
        exact ⟨h1, p, ne.trans h2, h3, h4, b', e', h5.snoc (by simp)⟩
    · have hop : Ev.point (.inv t op : Ev K V) = true := by
        cases op <;> first | rfl | exact absurd ⟨_, _, rfl⟩ hsc
      have hJ : J fuel op = I fuel op := hA.same _ _ fun b e h => hsc ⟨b, e, h⟩
      have hst := Conf.Reach.step hc' (.inv t op fuel hn')
      refine mk hst ⟨⟨r, hm⟩, ?_, fun v => ?_⟩ (fun ho => ?_)
      · simp [hh, List.filter_append, hop]
      · by_cases ev : v = t
        · subst ev
          refine Or.inl ⟨?_, fun p hp => ?_⟩
          · show Spec.upd _ _ _ _ = Spec.upd _ _ _ _
            simp [Spec.upd, hJ]
          · have hp : Spec.upd _ _ _ _ = _ := hp
            simp only [Spec.upd, if_true] at hp
            cases hp
            exact ⟨hJ ▸ hA.noRecs fuel op, op, ⟨_, [], rfl, by simp⟩, ⟨_, [], rfl, by simp⟩⟩
        · have ne : (Spec.upd c.thr t (some (J fuel op))) v = c.thr v := if_neg ev
          have ne' : (Spec.upd c'.thr t (some (I fuel op))) v = c'.thr v := if_neg ev
          refine (ht v).imp (fun h => ⟨ne'.trans (h.1.trans ne.symm), fun p hp => other (by simp) (h.2 p (ne.symm.trans hp))⟩) fun h => ?_
          obtain ⟨h1, p, h2, h3, h4, b', e', h5⟩ := h
          exact ⟨ne'.trans h1, p, ne.trans h2, h3, h4, b', e', h5.snoc (by simp)⟩
      · refine OneWriter.snoc (hw' (OneWriter.prefix ho)) fun w2 v op1 w1 hp => ?_
        -- the writer in progress is in progress in the other execution, too
        have hne : c'.thr v ≠ none := fun h => (hc'.pend h0' v).1 h op1 hp
        rcases ht v with ⟨h1, h2⟩ | ⟨h1, -⟩
        · obtain ⟨p, hp'⟩ := Option.ne_none_iff_exists'.1 (h1 ▸ hne)
          obtain ⟨-, op2, h3, h4⟩ := h2 p hp'
          have := (hc'.pend h0' v).2 _ _ hp h4
          subst this
          obtain ⟨l1, l2, e, hno⟩ := h3
          obtain ⟨out, hmem⟩ := ho l1 l2 [] v t op1 op (by simp [e]) w1 w2
          exact hno out hmem
        · exact hne h1
  | @act t β a k b m h0 hrun =>
    rcases ht t with ⟨h1, h2⟩ | ⟨h1, p, h2, h3, h4, h5⟩
    · obtain ⟨r', hr'⟩ := (Act.run_raced (t := t) (a := a) (m := c.mem) r).2.2 b m hrun
      rw [← hm] at hr'
      obtain ⟨h3, h4⟩ := h2 _ h0
      have hst := Conf.Reach.step hc' (.act (h1.trans h0) hr')
      refine mk hst ⟨⟨r', rfl⟩, hh, fun v => ?_⟩ (hw')
      by_cases ev : v = t
      · subst ev
        refine Or.inl ⟨?_, fun p hp => ?_⟩
        · show Spec.upd _ _ _ _ = Spec.upd _ _ _ _
          simp [Spec.upd]
        · have hp : Spec.upd _ _ _ _ = _ := hp
          simp only [Spec.upd, if_true] at hp
          cases hp
          exact ⟨h3 b, h4⟩
      · have ne : (Spec.upd c.thr t (some (k b))) v = c.thr v := if_neg ev
        have ne' : (Spec.upd c'.thr t (some (k b))) v = c'.thr v := if_neg ev
        refine (ht v).imp (fun h => ⟨ne'.trans (h.1.trans ne.symm), fun p hp => h.2 p (ne.symm.trans hp)⟩) fun h => ?_
        obtain ⟨h1, p, h2, h3⟩ := h
        exact ⟨ne'.trans h1, p, ne.trans h2, h3⟩
    · -- a step of a scan
      rw [h0] at h2
      cases h2
      obtain ⟨r', hr'⟩ := Act.lockfree_run h3.1 hrun
      refine ⟨c', ⟨⟨r, by rw [hm, hr']⟩, hh, fun v => ?_⟩, hc', hw'⟩
      by_cases ev : v = t
      · subst ev
        exact Or.inr ⟨h1, _, by simp [Spec.upd], h3.2 b, h4 b, h5⟩
      · have ne : (Spec.upd c.thr t (some (k b))) v = c.thr v := if_neg ev
        refine (ht v).imp (fun h => ⟨h.1.trans ne.symm, fun p hp => h.2 p (ne.symm.trans hp)⟩) fun h => ?_
        obtain ⟨h1, p, h2, h3⟩ := h
        exact ⟨h1, p, ne.trans h2, h3⟩
  | @crash t β a k h0 hrun =>
    rcases ht t with ⟨h1, h2⟩ | ⟨h1, p, h2, h3, h4, h5⟩
    · have hr' := (Act.run_raced (t := t) (a := a) (m := c.mem) r).2.1 hrun
      rw [← hm] at hr'
      obtain ⟨h3, h4⟩ := h2 _ h0
      have hst := Conf.Reach.step hc' (.crash (h1.trans h0) hr')
      refine mk hst ⟨⟨r, hm⟩, hh, fun v => ?_⟩ (hw')
      by_cases ev : v = t
      · subst ev
        refine Or.inl ⟨?_, fun p hp => ?_⟩
        · show Spec.upd _ _ _ _ = Spec.upd _ _ _ _
          simp [Spec.upd]
        · have hp : Spec.upd _ _ _ _ = _ := hp
          simp only [Spec.upd, if_true] at hp
          cases hp
          exact ⟨trivial, h4⟩
      · have ne : (Spec.upd c.thr t (some (.ub : Prog K V (Out K V)))) v = c.thr v := if_neg ev
        have ne' : (Spec.upd c'.thr t (some (.ub : Prog K V (Out K V)))) v = c'.thr v := if_neg ev
        refine (ht v).imp (fun h => ⟨ne'.trans (h.1.trans ne.symm), fun p hp => h.2 p (ne.symm.trans hp)⟩) fun h => ?_
        obtain ⟨h1, p, h2, h3⟩ := h
        exact ⟨ne'.trans h1, p, ne.trans h2, h3⟩
    · refine ⟨c', ⟨⟨r, hm⟩, hh, fun v => ?_⟩, hc', hw'⟩
      by_cases ev : v = t
      · subst ev
        exact Or.inr ⟨h1, .ub, by simp [Spec.upd], trivial, trivial, h5⟩
      · have ne : (Spec.upd c.thr t (some (.ub : Prog K V (Out K V)))) v = c.thr v := if_neg ev
        refine (ht v).imp (fun h => ⟨h.1.trans ne.symm, fun p hp => h.2 p (ne.symm.trans hp)⟩) fun h => ?_
        obtain ⟨h1, p, h2, h3⟩ := h
        exact ⟨h1, p, ne.trans h2, h3⟩
  | @res t out h0 =>
    have nres : ∀ v, v ≠ t → ∀ o, (.res t out : Ev K V) ≠ .res v o := by
      rintro v hv o h
      injection h with h
      exact hv h.symm
    rcases ht t with ⟨h1, h2⟩ | ⟨h1, p, h2, h3, h4, h5⟩
    · obtain ⟨h3, -⟩ := h2 _ h0
      have hop : Ev.point (.res t out : Ev K V) = true := by
        cases out <;> first | rfl | exact absurd rfl (h3 _)
      have hst := Conf.Reach.step hc' (.res (h1.trans h0))
      refine mk hst ⟨⟨r, hm⟩, ?_, fun v => ?_⟩ (fun ho => OneWriter.snocRes (hw' (OneWriter.prefix ho)))
      · simp [hh, List.filter_append, hop]
      by_cases ev : v = t
      · subst ev
        refine Or.inl ⟨?_, fun p hp => ?_⟩
        · show Spec.upd _ _ _ _ = Spec.upd _ _ _ _
          simp [Spec.upd]
        · have hp : Spec.upd _ _ _ _ = _ := hp
          simp [Spec.upd] at hp
      · have ne : (Spec.upd c.thr t (none : Option (Prog K V (Out K V)))) v = c.thr v := if_neg ev
        have ne' : (Spec.upd c'.thr t (none : Option (Prog K V (Out K V)))) v = c'.thr v := if_neg ev
        refine (ht v).imp (fun h => ⟨ne'.trans (h.1.trans ne.symm), fun p hp => other (nres v ev) (h.2 p (ne.symm.trans hp))⟩) fun h => ?_
        obtain ⟨h1, p, h2, h3, h4, b', e', h5⟩ := h
        exact ⟨ne'.trans h1, p, ne.trans h2, h3, h4, b', e', h5.snoc (nres v ev)⟩
    · rw [h0] at h2
      cases h2
      obtain ⟨l, rfl⟩ := h4
      refine ⟨c', ⟨⟨r, hm⟩, by simp [hh, Ev.point], fun v => ?_⟩, hc', fun ho => hw' (OneWriter.prefix ho)⟩
      by_cases ev : v = t
      · subst ev
        exact Or.inl ⟨h1.trans (by simp [Spec.upd]), fun p hp => by simp [Spec.upd] at hp⟩
      · have ne : (Spec.upd c.thr t (none : Option (Prog K V (Out K V)))) v = c.thr v := if_neg ev
        refine (ht v).imp (fun h => ⟨h.1.trans ne.symm, fun p hp => other' (nres v ev) (h.2 p (ne.symm.trans hp))⟩) fun h => ?_
        obtain ⟨h1, p, h2, h3, h4, b', e', h5⟩ := h
        exact ⟨h1, p, ne.trans h2, h3, h4, b', e', h5.snoc (nres v ev)⟩

/-- For every execution there is one without the scans. -/
theorem drop_scans {I J : CImpl K V} (hA : Adds I J) {c0 : Conf K V} (ht : ∀ t, c0.thr t = none) (hh : c0.hist = []) (hc : Conf.Reach J c0 c) :
    ∃ c', Drop c c' ∧ Conf.Reach I c0 c' ∧ (OneWriter c.hist → OneWriter c'.hist) := by
  induction hc with
  | refl => exact ⟨_, Drop.start ht hh, .refl, id⟩
  | step _ hs ih =>
    obtain ⟨c', h1, h2, h3⟩ := ih
    exact Drop.step hA hh h1 h2 h3 hs

theorem COsl.adds : Adds (COsl.exec cfg : CImpl K V) (COsl.execS cfg) := by
  refine ⟨fun fuel op h => ?_, COsl.exec_noRecs cfg, fun fuel b e => ⟨Prog.Lockfree.bind COsl.scan_lf fun _ => trivial, Prog.Recs.bind fun l => ⟨l, rfl⟩⟩⟩
  cases op <;> first | rfl | exact absurd rfl (h _ _)

theorem Drop.asking (hD : Drop c c') (h : c'.Asking cfg) : c.Asking cfg := by
  obtain ⟨⟨r, hm⟩, -, ht⟩ := hD
  intro t β a k e hn
  rcases ht t with ⟨h1, -⟩ | ⟨-, p, h1, h2, -⟩
  · obtain ⟨w, h2, h3⟩ := h t β a k (h1.trans e) hn
    exact ⟨w, by rw [h2, hm], h3⟩
  · rw [e] at h1
    cases h1
    exact absurd (Prog.Sharing.of h2).1 hn

/-- What is true of the executions without scans is true of the point operations of all executions. -/
theorem Drop.bad (hD : Drop c c') (hb : ¬ c'.Bad) (h : c.thr t = some .ub) : ∃ b e, Pending c.hist t (.scan b e) := by
  rcases hD.thr t with ⟨h1, -⟩ | ⟨-, p, -, -, -, h1⟩
  · exact absurd ⟨t, h1.trans h⟩ hb
  · exact h1

end BT
