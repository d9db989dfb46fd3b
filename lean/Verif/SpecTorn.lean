import Verif.LinFacts

/-!
# Scans that are not snapshots

`TornScan` is the observable sign that a scan has not read its range at one instant.
-/

set_option linter.unusedSectionVars false

namespace BT.Spec
variable {K V : Type} [LinearOrder K]

/-- In the history `h` the key `k1` is changed by thread `t` only, which deletes it at last; `k2` is changed after that deletion
has returned only.  So there is no instant at which both keys are in the map.  And yet a scan reports both. -/
def TornScan (h : List (Ev K V)) : Prop :=
  ∃ k1 k2 v1 v2 t u l h1 h2 h3, h = h1 ++ .inv t (.delete k1) :: h2 ++ .res t (.code .success) :: h3 ∧
    (∀ out, .res t out ∉ h2) ∧ (∀ t' op, .inv t' op ∈ h → Changes k1 op → t' = t) ∧ (∀ t' op, .inv t' op ∈ h3 → ¬ Changes k1 op) ∧
    (∀ t' op, .inv t' op ∈ h1 ++ h2 → ¬ Changes k2 op) ∧ k1 ≠ k2 ∧ .res u (.recs l) ∈ h ∧ (k1, v1) ∈ l ∧ (k2, v2) ∈ l

/-- The same as `Atomic.keeps`, without parts. -/
theorem Atomic.keeps1 {P : AState K V → Prop} {h : List (Ev K V)} {s s' : AState K V} (ha : Atomic false s h s')
    (he : ∀ s t op out m, P s → s.ph t = .waiting op → Step s.map op out m → P ⟨m, upd s.ph t (.done out)⟩)
    (hi : ∀ s t op, .inv t op ∈ h → P s → s.ph t = .idle → P ⟨s.map, upd s.ph t (.waiting op)⟩)
    (hr : ∀ s t out, .res t out ∈ h → P s → s.ph t = .done out → P ⟨s.map, upd s.ph t .idle⟩) (h0 : P s) : P s' := by
  induction ha with
  | refl => exact h0
  | inv t op ha hid ih =>
    exact hi _ _ _ (by simp) (ih (fun s t op hm => hi s t op (by simp [hm])) (fun s t out hm => hr s t out (by simp [hm]))) hid
  | effect ha hw hs ih => exact he _ _ _ _ _ (ih hi hr) hw hs
  | scan hp _ _ _ => cases hp
  | res ha hd ih =>
    exact hr _ _ _ (by simp) (ih (fun s t op hm => hi s t op (by simp [hm])) (fun s t out hm => hr s t out (by simp [hm]))) hd

/-- Key `k` is not in the map and no pending call changes it. -/
def Absent (k : K) (s : AState K V) : Prop := s.map k = none ∧ ∀ t op, s.ph t = .waiting op → ¬ Changes k op

/-- No answer that is already determined has both keys. -/
def Apart2 (k1 k2 : K) (s : AState K V) : Prop := ∀ u l, s.ph u = .done (.recs l) → ∀ v1 v2, (k1, v1) ∈ l → (k2, v2) ∉ l

theorem Absent.effect {k : K} {s : AState K V} {t op out m} (h : Absent k s) (hw : s.ph t = .waiting op) (hs : Step s.map op out m) :
    Absent k ⟨m, upd s.ph t (.done out)⟩ := by
  refine ⟨(step_other hs (h.2 _ _ hw)).trans h.1, fun t' op' e => ?_⟩
  simp only [upd] at e
  split at e
  · cases e
  · exact h.2 _ _ e

theorem Absent.phase {k : K} {s : AState K V} {t x} (h : Absent k s) (hx : ∀ op, x = .waiting op → ¬ Changes k op) :
    Absent k ⟨s.map, upd s.ph t x⟩ := by
  refine ⟨h.1, fun t' op' e => ?_⟩
  simp only [upd] at e
  split at e
  · exact hx _ e
  · exact h.2 _ _ e

theorem Apart2.phase {k1 k2 : K} {s : AState K V} {m : Map K V} {t x} (h : Apart2 k1 k2 s)
    (hx : ∀ l, x = .done (.recs l) → ∀ v1 v2, (k1, v1) ∈ l → (k2, v2) ∉ l) : Apart2 k1 k2 ⟨m, upd s.ph t x⟩ := by
  intro u l e
  simp only [upd] at e
  split at e
  · exact hx _ e
  · exact h _ _ e

theorem Apart2.effect {k1 k2 : K} {s : AState K V} {t op out m} (h : Apart2 k1 k2 s) (ha : s.map k1 = none ∨ s.map k2 = none)
    (hs : Step s.map op out m) : Apart2 k1 k2 ⟨m, upd s.ph t (.done out)⟩ := by
  refine h.phase fun l e v1 v2 m1 m2 => ?_
  cases e
  cases hs with
  | scan _ _ l hl =>
    have a1 := ((hl.2 _ _).1 m1).1
    have a2 := ((hl.2 _ _).1 m2).1
    rcases ha with ha | ha
    · rw [ha] at a1; cases a1
    · rw [ha] at a2; cases a2

/-- Only thread `t` has calls that change `k`. -/
def Mine (k : K) (t : Nat) (s : AState K V) : Prop := ∀ t' op, s.ph t' = .waiting op → Changes k op → t' = t

theorem Mine.phase {k : K} {t0 : Nat} {s : AState K V} {m : Map K V} {t x} (h : Mine k t0 s)
    (hx : ∀ op, x = .waiting op → Changes k op → t = t0) : Mine k t0 ⟨m, upd s.ph t x⟩ := by
  intro t' op' e hc
  simp only [upd] at e
  split at e
  · next h' => subst h'; exact hx _ e hc
  · exact h _ _ e hc

theorem before_keeps {k1 k2 : K} {t : Nat} {h : List (Ev K V)} {s s' : AState K V} (ha : Atomic false s h s')
    (h1 : ∀ t' op, .inv t' op ∈ h → Changes k1 op → t' = t) (h2 : ∀ t' op, .inv t' op ∈ h → ¬ Changes k2 op)
    (h0 : Absent k2 s ∧ Apart2 k1 k2 s ∧ Mine k1 t s) : Absent k2 s' ∧ Apart2 k1 k2 s' ∧ Mine k1 t s' := by
  refine ha.keeps1 (P := fun s => Absent k2 s ∧ Apart2 k1 k2 s ∧ Mine k1 t s) ?_ ?_ ?_ h0
  · intro s t' op out m a b c
    exact ⟨a.1.effect b c, a.2.1.effect (Or.inr a.1.1) c, a.2.2.phase fun op e => by cases e⟩
  · intro s t' op hm a b
    exact ⟨a.1.phase (fun op' e => by cases e; exact h2 _ _ hm), a.2.1.phase (fun l e => by cases e),
      a.2.2.phase (fun op' e => by cases e; exact h1 _ _ hm)⟩
  · intro s t' out hm a b
    exact ⟨a.1.phase (fun op' e => by cases e), a.2.1.phase (fun l e => by cases e), a.2.2.phase (fun op' e => by cases e)⟩

/-- Thread `t` deletes `k`, or has deleted it. -/
def Deleting (k : K) (t : Nat) (s : AState K V) : Prop := s.ph t = .waiting (.delete k) ∨ ∃ out, s.ph t = .done out ∧ s.map k = none

theorem during_keeps {k1 k2 : K} {t : Nat} {h : List (Ev K V)} {s s' : AState K V} (ha : Atomic false s h s')
    (h1 : ∀ t' op, .inv t' op ∈ h → Changes k1 op → t' = t) (h2 : ∀ t' op, .inv t' op ∈ h → ¬ Changes k2 op) (hr : ∀ out, .res t out ∉ h)
    (h0 : (Absent k2 s ∧ Apart2 k1 k2 s ∧ Mine k1 t s) ∧ Deleting k1 t s) :
    (Absent k2 s' ∧ Apart2 k1 k2 s' ∧ Mine k1 t s') ∧ Deleting k1 t s' := by
  refine ha.keeps1 (P := fun s => (Absent k2 s ∧ Apart2 k1 k2 s ∧ Mine k1 t s) ∧ Deleting k1 t s) ?_ ?_ ?_ h0
  · rintro s t' op out m ⟨a, d⟩ b c
    refine ⟨⟨a.1.effect b c, a.2.1.effect (Or.inr a.1.1) c, a.2.2.phase fun op e => by cases e⟩, ?_⟩
    by_cases ht : t = t'
    · subst ht
      rcases d with d | ⟨o, d, -⟩
      · rw [d] at b
        cases b
        refine Or.inr ⟨out, by simp [upd], ?_⟩
        cases c <;> simp_all [set]
      · rw [d] at b; cases b
    · unfold Deleting
      simp only [upd, if_neg ht]
      rcases d with d | ⟨o, d, e⟩
      · exact Or.inl d
      · refine Or.inr ⟨o, d, ?_⟩
        exact (step_other c fun hc => ht (a.2.2 _ _ b hc).symm).trans e
  · rintro s t' op hm ⟨a, d⟩ b
    refine ⟨⟨a.1.phase (fun op' e => by cases e; exact h2 _ _ hm), a.2.1.phase (fun l e => by cases e),
      a.2.2.phase (fun op' e => by cases e; exact h1 _ _ hm)⟩, ?_⟩
    have ht : t ≠ t' := by
      rintro rfl
      rcases d with d | ⟨o, d, -⟩ <;> rw [d] at b <;> cases b
    unfold Deleting
    simp only [upd, if_neg ht]
    exact d
  · rintro s t' out hm ⟨a, d⟩ b
    refine ⟨⟨a.1.phase (fun op' e => by cases e), a.2.1.phase (fun l e => by cases e), a.2.2.phase (fun op' e => by cases e)⟩, ?_⟩
    have ht : t ≠ t' := by
      rintro rfl
      exact hr _ hm
    unfold Deleting
    simp only [upd, if_neg ht]
    exact d

theorem after_keeps {k1 k2 : K} {h : List (Ev K V)} {s s' : AState K V} (ha : Atomic false s h s')
    (h1 : ∀ t' op, .inv t' op ∈ h → ¬ Changes k1 op) (h0 : Absent k1 s ∧ Apart2 k1 k2 s) : Absent k1 s' ∧ Apart2 k1 k2 s' := by
  refine ha.keeps1 (P := fun s => Absent k1 s ∧ Apart2 k1 k2 s) ?_ ?_ ?_ h0
  · intro s t' op out m a b c
    exact ⟨a.1.effect b c, a.2.effect (Or.inl a.1.1) c⟩
  · intro s t' op hm a b
    exact ⟨a.1.phase (fun op' e => by cases e; exact h1 _ _ hm), a.2.phase (fun l e => by cases e)⟩
  · intro s t' out hm a b
    exact ⟨a.1.phase (fun op' e => by cases e), a.2.phase (fun l e => by cases e)⟩

theorem Atomic.append {parts : Bool} {h1 h2 : List (Ev K V)} {s s1 s2 : AState K V} (a : Atomic parts s h1 s1) (b : Atomic parts s1 h2 s2) :
    Atomic parts s (h1 ++ h2) s2 := by
  induction b with
  | refl => rw [List.append_nil]; exact a
  | inv t op _ hi ih => rw [← List.append_assoc]; exact .inv t op ih hi
  | effect _ hw hs ih => exact .effect ih hw hs
  | scan hp _ hs ih => exact .scan hp ih hs
  | res _ hd ih => rw [← List.append_assoc]; exact .res ih hd

/-- A history with a torn scan is not linearizable. -/
theorem TornScan.not_linearizable {h : List (Ev K V)} (ht : TornScan h) : ¬ Linearizable h := by
  rintro ⟨s, ha⟩
  obtain ⟨k1, k2, v1, v2, t, u, l, h1, h2, h3, e, hr, w1, w3, w2, hne, hu, m1, m2⟩ := ht
  have e' : h = h1 ++ ([.inv t (.delete k1)] ++ (h2 ++ ([.res t (.code .success)] ++ h3))) := by simp [e]
  rw [e'] at ha
  obtain ⟨s1, a1, ha⟩ := ha.split
  obtain ⟨s2, a2, ha⟩ := ha.split
  obtain ⟨s3, a3, ha⟩ := ha.split
  obtain ⟨s4, a4, a5⟩ := ha.split
  obtain ⟨x2, b2, i2, c2⟩ := a2.inv1
  obtain ⟨x4, b4, i4, c4⟩ := a4.res1
  have nn : ∀ t' op, Ev.inv t' op ∈ ([] : List (Ev K V)) → Changes k1 op → t' = t := by simp
  have n2 : ∀ t' op, Ev.inv t' op ∈ ([] : List (Ev K V)) → ¬ Changes k2 op := by simp
  have n1 : ∀ t' op, Ev.inv t' op ∈ ([] : List (Ev K V)) → ¬ Changes k1 op := by simp
  have q1 : ∀ t' op, Ev.inv t' op ∈ h1 → Changes k1 op → t' = t := fun t' op hm => w1 t' op (by rw [e']; simp [hm])
  have q2 : ∀ t' op, Ev.inv t' op ∈ h1 → ¬ Changes k2 op := fun t' op hm => w2 t' op (by simp [hm])
  have q3 : ∀ t' op, Ev.inv t' op ∈ h2 → Changes k1 op → t' = t := fun t' op hm => w1 t' op (by rw [e']; simp [hm])
  have q4 : ∀ t' op, Ev.inv t' op ∈ h2 → ¬ Changes k2 op := fun t' op hm => w2 t' op (by simp [hm])
  have p0 : Absent k2 (⟨empty, fun _ => .idle⟩ : AState K V) ∧ Apart2 k1 k2 (⟨empty, fun _ => .idle⟩ : AState K V) ∧
      Mine k1 t (⟨empty, fun _ => .idle⟩ : AState K V) := ⟨⟨rfl, by simp⟩, (by intro u l h; cases h), (by intro t' op h; cases h)⟩
  have p1 := before_keeps b2 nn n2 (before_keeps a1 q1 q2 p0)
  have p2 : (Absent k2 (⟨x2.map, upd x2.ph t (.waiting (.delete k1))⟩ : AState K V) ∧
      Apart2 k1 k2 (⟨x2.map, upd x2.ph t (.waiting (.delete k1))⟩ : AState K V) ∧
      Mine k1 t (⟨x2.map, upd x2.ph t (.waiting (.delete k1))⟩ : AState K V)) ∧
      Deleting k1 t (⟨x2.map, upd x2.ph t (.waiting (.delete k1))⟩ : AState K V) :=
    ⟨⟨p1.1.phase (fun op e => by cases e; exact hne), p1.2.1.phase (fun l e => by cases e), p1.2.2.phase (fun op e _ => rfl)⟩, Or.inl (by simp [upd])⟩
  have p3 := during_keeps a3 q3 q4 hr (during_keeps c2 nn n2 (by simp) p2)
  have p4 := during_keeps b4 nn n2 (by simp) p3
  have p5 : Absent k1 (⟨x4.map, upd x4.ph t .idle⟩ : AState K V) ∧ Apart2 k1 k2 (⟨x4.map, upd x4.ph t .idle⟩ : AState K V) := by
    refine ⟨⟨?_, fun t' op e hc => ?_⟩, p4.1.2.1.phase (fun l e => by cases e)⟩
    · rcases p4.2 with d | ⟨o, -, d⟩
      · rw [d] at i4; cases i4
      · exact d
    · simp only [upd] at e
      split at e
      · cases e
      · next hx => exact hx (p4.1.2.2 _ _ e hc)
  -- where the scan returns
  have fin : ∀ (s s' : AState K V) (g : List (Ev K V)), Atomic false s g s' → .res u (.recs l) ∈ g →
      ∃ g1 s1, (∀ x ∈ g1, x ∈ g) ∧ Atomic false s g1 s1 ∧ s1.ph u = .done (.recs l) := by
    intro s s' g hg hm
    obtain ⟨g1, g2, rfl⟩ := List.append_of_mem hm
    obtain ⟨y1, d1, d2⟩ := hg.split
    rw [show Ev.res u (.recs l) :: g2 = [Ev.res u (.recs l)] ++ g2 from rfl] at d2
    obtain ⟨y2, d3, -⟩ := d2.split
    obtain ⟨y3, d4, d5, -⟩ := d3.res1
    refine ⟨g1 ++ [], y3, by intro x hx; rw [List.append_nil] at hx; exact List.mem_append_left _ hx, ?_, d5⟩
    exact Atomic.append d1 d4
  rw [e'] at hu
  simp only [List.mem_append, List.mem_singleton, reduceCtorEq, false_or] at hu
  rcases hu with hu | hu | hu | hu
  · obtain ⟨g1, y, z1, z2, z3⟩ := fin _ _ _ a1 hu
    exact (before_keeps z2 (fun t' op hm => q1 t' op (z1 _ hm)) (fun t' op hm => q2 t' op (z1 _ hm)) p0).2.1 u l z3 v1 v2 m1 m2
  · obtain ⟨g1, y, z1, z2, z3⟩ := fin _ _ _ a3 hu
    exact (before_keeps z2 (fun t' op hm => q3 t' op (z1 _ hm)) (fun t' op hm => q4 t' op (z1 _ hm))
      (during_keeps c2 nn n2 (by simp) p2).1).2.1 u l z3 v1 v2 m1 m2
  · cases hu
  · obtain ⟨g1, y, z1, z2, z3⟩ := fin _ _ _ a5 hu
    exact (after_keeps z2 (fun t' op hm => w3 t' op (z1 _ hm)) (after_keeps c4 n1 p5)).2 u l z3 v1 v2 m1 m2

/-! ## Scans without writers -/

/-- In the history `h` thread `t` has called `op`, and the call has not returned. -/
def Pending (h : List (Ev K V)) (t : Nat) (op : Op K V) : Prop :=
  ∃ h1 h2, h = h1 ++ .inv t op :: h2 ∧ ∀ out, .res t out ∉ h2

/-- In the history `h` no call that can change the map overlaps a scan. -/
def QuietScans (h : List (Ev K V)) : Prop :=
  ∀ h1 h2 t u op b e, h = h1 ++ h2 → Writes op → Pending h1 t op → Pending h1 u (.scan b e) → False

theorem Pending.snoc {h : List (Ev K V)} {t : Nat} {op : Op K V} (hp : Pending h t op) {x : Ev K V} (hx : ∀ out, x ≠ .res t out) :
    Pending (h ++ [x]) t op := by
  obtain ⟨h1, h2, rfl, hr⟩ := hp
  refine ⟨h1, h2 ++ [x], by simp, fun out hm => ?_⟩
  rcases List.mem_append.1 hm with hm | hm
  · exact hr out hm
  · exact hx out (List.mem_singleton.1 hm).symm

/-- What the threads of the atomic map wait for is pending. -/
theorem Atomic.pending {parts : Bool} {h : List (Ev K V)} {s' : AState K V} {m0 : Map K V} (ha : Atomic parts ⟨m0, fun _ => .idle⟩ h s') (t : Nat) :
    (∀ op, s'.ph t = .waiting op → Pending h t op) ∧ (∀ b e acc, s'.ph t = .scanning b e acc → ∃ b0 e0, Pending h t (.scan b0 e0)) := by
  induction ha with
  | refl => exact ⟨fun op h => (by cases h), fun b e acc h => by cases h⟩
  | inv u op ha hi ih =>
    by_cases ht : t = u
    · subst ht
      simp only [upd, if_true]
      refine ⟨fun op' e => ?_, fun b e acc h => by cases h⟩
      cases e
      exact ⟨_, [], rfl, by simp⟩
    · simp only [upd, if_neg ht]
      exact ⟨fun op' e => (ih.1 _ e).snoc (by simp), fun b e acc h => by
        obtain ⟨b0, e0, hp⟩ := ih.2 _ _ _ h
        exact ⟨b0, e0, hp.snoc (by simp)⟩⟩
  | @effect h s' u op out m ha hw hs ih =>
    by_cases ht : t = u
    · subst ht
      simp only [upd, if_true]
      exact ⟨fun op h => (by cases h), fun b e acc h => by cases h⟩
    · simp only [upd, if_neg ht]
      exact ih
  | @scan h s' u x hp ha hs ih =>
    by_cases ht : t = u
    · subst ht
      simp only [upd, if_true]
      generalize hy : s'.ph t = y at hs ih
      cases hs with
      | start b e => exact ⟨fun op h => (by cases h), fun b' e' acc h => ⟨b, e, ih.1 _ rfl⟩⟩
      | part c cl l _ _ _ => exact ⟨fun op h => (by cases h), fun b' e' acc h => ih.2 _ _ _ rfl⟩
      | last l _ => exact ⟨fun op h => (by cases h), fun b e acc h => by cases h⟩
    · simp only [upd, if_neg ht]
      exact ih
  | @res h s' u out ha hd ih =>
    by_cases ht : t = u
    · subst ht
      simp only [upd, if_true]
      exact ⟨fun op h => (by cases h), fun b e acc h => by cases h⟩
    · simp only [upd, if_neg ht]
      have hx : ∀ out', Ev.res u out ≠ (.res t out' : Ev K V) := fun out' e => by cases e; exact ht rfl
      exact ⟨fun op' e => (ih.1 _ e).snoc hx, fun b e acc h => by
        obtain ⟨b0, e0, hp⟩ := ih.2 _ _ _ h
        exact ⟨b0, e0, hp.snoc hx⟩⟩

/-- The phase of a thread when scans happen at one instant: a scan that has read some parts still waits. -/
inductive Whole (m : Map K V) : Phase K V → Phase K V → Prop
  | same (x) : (∀ b e acc, x ≠ .scanning b e acc) → Whole m x x
  | wait {b e acc b0 e0} : (∀ l, IsScan m b e l → IsScan m b0 e0 (acc ++ l)) → Whole m (.scanning b e acc) (.waiting (.scan b0 e0))

theorem Whole.eq' {m : Map K V} {x y z : Phase K V} (h : Whole m x y) (hx : x = z) (hn : ∀ b e acc, z ≠ .scanning b e acc) : y = z := by
  cases h with
  | same _ _ => exact hx
  | wait _ => exact absurd hx.symm (hn _ _ _)

theorem IsScan.join {m : Map K V} {b e : ScanKey K} {c : K} {cl : Bool} {l l' : List (K × V)}
    (hb : ∀ k, AboveLo (some (c, !cl)) k → AboveLo b k) (he : ∀ k, BelowHi (some (c, cl)) k → BelowHi e k)
    (h1 : IsScan m b (some (c, cl)) l) (h2 : IsScan m (some (c, !cl)) e l') : IsScan m b e (l ++ l') := by
  refine ⟨List.pairwise_append.2 ⟨h1.1, h2.1, fun x hx y hy =>
    above_of_below ((h1.2 x.1 x.2).1 hx).2.2 ((h2.2 y.1 y.2).1 hy).2.1⟩, fun k v => ?_⟩
  rw [List.mem_append, h1.2, h2.2]
  constructor
  · rintro (⟨a, b', c'⟩ | ⟨a, b', c'⟩)
    · exact ⟨a, b', he _ c'⟩
    · exact ⟨a, hb _ b', c'⟩
  · rintro ⟨a, b', c'⟩
    by_cases hk : BelowHi (some (c, cl)) k
    · exact Or.inl ⟨a, b', hk⟩
    · refine Or.inr ⟨a, ?_, c'⟩
      cases cl
      · exact not_lt.1 hk
      · exact not_le.1 hk

theorem Step.reads {m m' : Map K V} {op : Op K V} {out} (h : Step m op out m') (hn : ¬ Writes op) : m' = m := by
  cases h <;> simp_all [Writes]

/-- If no call that can change the map overlaps a scan, then reading in parts is reading at one instant. -/
theorem Atomic.whole {h : List (Ev K V)} {s : AState K V} {m0 : Map K V} (ha : Atomic true ⟨m0, fun _ => .idle⟩ h s) (hq : QuietScans h) :
    ∃ s', Atomic false ⟨m0, fun _ => .idle⟩ h s' ∧ s'.map = s.map ∧ ∀ t, Whole s.map (s.ph t) (s'.ph t) := by
  induction ha with
  | refl => exact ⟨_, .refl _, rfl, fun t => .same _ (by simp)⟩
  | @inv h s1 u op ha hi ih =>
    obtain ⟨s', a, b, c⟩ := ih fun h1 h2 t u' op' b e eq => hq h1 (h2 ++ [.inv u op]) t u' op' b e (by rw [eq]; simp)
    have hu : s'.ph u = .idle := by
      exact (c u).eq' hi (by simp)
    refine ⟨_, .inv u op a hu, b, fun t => ?_⟩
    by_cases ht : t = u
    · subst ht
      simp only [upd, if_true]
      exact .same _ (by simp)
    · simp only [upd, if_neg ht]
      exact c t
  | @effect h s1 u op out m ha hw hs ih =>
    obtain ⟨s', a, b, c⟩ := ih hq
    have hu : s'.ph u = .waiting op := by
      exact (c u).eq' hw (by simp)
    refine ⟨_, .effect a hu (by rw [b]; exact hs), rfl, fun t => ?_⟩
    by_cases ht : t = u
    · subst ht
      simp only [upd, if_true]
      exact .same _ (by simp)
    · simp only [upd, if_neg ht]
      by_cases hwr : Writes op
      · have hns : ∀ b e acc, s1.ph t ≠ .scanning b e acc := by
          intro b e acc hsc
          obtain ⟨b0, e0, hp⟩ := (ha.pending t).2 _ _ _ hsc
          exact hq h [] u t op b0 e0 (by simp) hwr ((ha.pending u).1 _ hw) hp
        have := c t
        generalize s1.ph t = x at this hns
        generalize s'.ph t = y at this
        cases this with
        | same x h => exact .same _ h
        | wait h => exact absurd rfl (hns _ _ _)
      · rw [Step.reads hs hwr]
        exact c t
  | @scan h s1 u x hp ha hs ih =>
    obtain ⟨s', a, b, c⟩ := ih hq
    have hc := c u
    generalize hy : s1.ph u = y at hs hc
    have keep : (Whole s1.map x (s'.ph u) → ∃ s', Atomic false ⟨m0, fun _ => .idle⟩ h s' ∧ s'.map = s1.map ∧
        ∀ t, Whole s1.map (upd s1.ph u x t) (s'.ph t)) := by
      intro hz
      refine ⟨s', a, b, fun t => ?_⟩
      by_cases ht : t = u
      · subst ht
        simp only [upd, if_true]
        exact hz
      · simp only [upd, if_neg ht]
        exact c t
    cases hs with
    | start b0 e0 =>
      refine keep ?_
      generalize s'.ph u = z at hc
      cases hc
      exact .wait fun l hl => hl
    | part cc cl l h1 h2 h3 =>
      refine keep ?_
      generalize s'.ph u = z at hc
      cases hc with
      | same _ h => exact absurd rfl (h _ _ _)
      | wait h =>
        refine .wait fun l' hl' => ?_
        rw [List.append_assoc]
        exact h _ (IsScan.join h1 h2 h3 hl')
    | last l h1 =>
      generalize hz : s'.ph u = z at hc
      cases hc with
      | same _ h => exact absurd rfl (h _ _ _)
      | wait h =>
        refine ⟨_, .effect a hz (by rw [b]; exact Step.scan _ _ _ (h _ h1)), rfl, fun t => ?_⟩
        by_cases ht : t = u
        · subst ht
          simp only [upd, if_true]
          exact .same _ (by simp)
        · simp only [upd, if_neg ht]
          exact c t
  | @res h s1 u out ha hd ih =>
    obtain ⟨s', a, b, c⟩ := ih fun h1 h2 t u' op' b e eq => hq h1 (h2 ++ [.res u out]) t u' op' b e (by rw [eq]; simp)
    have hu : s'.ph u = .done out := by
      exact (c u).eq' hd (by simp)
    refine ⟨_, .res a hu, b, fun t => ?_⟩
    by_cases ht : t = u
    · subst ht
      simp only [upd, if_true]
      exact .same _ (by simp)
    · simp only [upd, if_neg ht]
      exact c t

theorem PartwiseLinearizableFrom.quiet {m0 : Map K V} {h : List (Ev K V)} (hp : PartwiseLinearizableFrom m0 h) (hq : QuietScans h) :
    LinearizableFrom m0 h := by
  obtain ⟨s, ha⟩ := hp
  obtain ⟨s', a, -⟩ := ha.whole hq
  exact ⟨s', a⟩

/-- The event is not the call or the return of a scan. -/
def Ev.point : Ev K V → Bool
  | .inv _ (.scan _ _) => false
  | .res _ (.recs _) => false
  | _ => true

end BT.Spec
