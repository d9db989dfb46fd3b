import Verif.SpecConc
import Mathlib.Tactic.Common

/-!
# Histories that lose a write or miss a record are not linearizable, not even partwise
-/

set_option linter.unusedSectionVars false

namespace BT.Spec
variable {K V : Type} [LinearOrder K] {parts : Bool} {m0 : Map K V}

theorem Atomic.split {s s' : AState K V} : ∀ {h1 h2 : List (Ev K V)}, Atomic parts s (h1 ++ h2) s' →
    ∃ s1, Atomic parts s h1 s1 ∧ Atomic parts s1 h2 s' := by
  intro h1 h2 h
  generalize e : h1 ++ h2 = h0 at h
  induction h generalizing h1 h2 with
  | refl => 
    obtain ⟨rfl, rfl⟩ := List.append_eq_nil_iff.1 e
    exact ⟨_, .refl _, .refl _⟩
  | @inv h s' t op ha hi ih =>
    rcases List.eq_nil_or_concat h2 with rfl | ⟨h2', x, rfl⟩
    · rw [List.append_nil] at e
      subst e
      exact ⟨_, .inv t op ha hi, .refl _⟩
    · rw [List.concat_eq_append, ← List.append_assoc] at e
      obtain ⟨e1, e2⟩ := List.append_inj' e rfl
      obtain ⟨s1, a, b⟩ := ih e1
      cases e2
      exact ⟨s1, a, by rw [List.concat_eq_append]; exact .inv t op b hi⟩
  | @effect h s' t op out m ha hi hs ih =>
    obtain ⟨s1, a, b⟩ := ih e
    exact ⟨s1, a, .effect b hi hs⟩
  | @scan h s' t x hp ha hs ih =>
    obtain ⟨s1, a, b⟩ := ih e
    exact ⟨s1, a, .scan hp b hs⟩
  | @res h s' t out ha hi ih =>
    rcases List.eq_nil_or_concat h2 with rfl | ⟨h2', x, rfl⟩
    · rw [List.append_nil] at e
      subst e
      exact ⟨_, .res ha hi, .refl _⟩
    · rw [List.concat_eq_append, ← List.append_assoc] at e
      obtain ⟨e1, e2⟩ := List.append_inj' e rfl
      obtain ⟨s1, a, b⟩ := ih e1
      cases e2
      exact ⟨s1, a, by rw [List.concat_eq_append]; exact .res b hi⟩

/-- A property of atomic states that survives all effects and the given events. -/
theorem Atomic.keeps {P : AState K V → Prop} {h : List (Ev K V)} {s s' : AState K V} (ha : Atomic parts s h s')
    (he : ∀ s t op out m, P s → s.ph t = .waiting op → Step s.map op out m → P ⟨m, upd s.ph t (.done out)⟩)
    (hsc : ∀ s t x, P s → ScanStep s.map (s.ph t) x → P ⟨s.map, upd s.ph t x⟩)
    (hi : ∀ s t op, .inv t op ∈ h → P s → s.ph t = .idle → P ⟨s.map, upd s.ph t (.waiting op)⟩)
    (hr : ∀ s t out, .res t out ∈ h → P s → s.ph t = .done out → P ⟨s.map, upd s.ph t .idle⟩) (h0 : P s) : P s' := by
  induction ha with
  | refl => exact h0
  | inv t op ha hid ih =>
    exact hi _ _ _ (by simp) (ih (fun s t op hm => hi s t op (by simp [hm])) (fun s t out hm => hr s t out (by simp [hm]))
      ) hid
  | effect ha hw hs ih => exact he _ _ _ _ _ (ih hi hr) hw hs
  | scan _ ha hs ih => exact hsc _ _ _ (ih hi hr) hs
  | res ha hd ih =>
    exact hr _ _ _ (by simp) (ih (fun s t op hm => hi s t op (by simp [hm])) (fun s t out hm => hr s t out (by simp [hm]))
      ) hd

/-- All pending calls that change `k` write `v`. -/
def OnlyWrites (k : K) (v : V) (s : AState K V) : Prop := ∀ t op, s.ph t = .waiting op → Changes k op → op = .write k v

theorem step_other {m m' : Map K V} {op : Op K V} {out k} (h : Step m op out m') (hn : ¬ Changes k op) : m' k = m k := by
  cases h <;> simp only [Changes] at hn <;> simp_all [set] <;> (try (intro h; exact absurd h.symm hn))

theorem onlyWrites_effect {k : K} {v : V} {s : AState K V} {t op out m} (h : OnlyWrites k v s)
    (_ : s.ph t = .waiting op) (_ : Step s.map op out m) : OnlyWrites k v ⟨m, upd s.ph t (.done out)⟩ := by
  intro t' op' h1
  simp only [upd] at h1
  split at h1
  · cases h1
  · exact h t' op' h1

theorem onlyWrites_upd {k : K} {v : V} {s : AState K V} {t x} (h : OnlyWrites k v s)
    (hx : ∀ op, x = .waiting op → Changes k op → op = .write k v) : OnlyWrites k v ⟨s.map, upd s.ph t x⟩ := by
  intro t' op' h1
  simp only [upd] at h1
  split at h1
  · exact hx _ h1
  · exact h t' op' h1

theorem effect_keeps {k : K} {v : V} {s : AState K V} {t op out m} (h : OnlyWrites k v s) (hv : s.map k = some v)
    (hw : s.ph t = .waiting op) (hs : Step s.map op out m) : m k = some v := by
  by_cases hc : Changes k op
  · have := h _ _ hw hc
    subst this
    cases hs
    simp [set]
  · rw [step_other hs hc, hv]

theorem Atomic.inv1 {s s' : AState K V} {t op} (h : Atomic parts s [.inv t op] s') : ∃ s1, Atomic parts s [] s1 ∧ s1.ph t = .idle ∧
    Atomic parts ⟨s1.map, upd s1.ph t (.waiting op)⟩ [] s' := by
  generalize e : [Ev.inv t op] = h0 at h
  induction h with
  | refl => cases e
  | @inv h s' t op ha hi ih =>
    cases h with
    | nil => cases e; exact ⟨_, ha, hi, .refl _⟩
    | cons a l => simp at e
  | effect ha hi hs ih => obtain ⟨s1, a, b, c⟩ := ih e; exact ⟨s1, a, b, .effect c hi hs⟩
  | scan hp ha hs ih => obtain ⟨s1, a, b, c⟩ := ih e; exact ⟨s1, a, b, .scan hp c hs⟩
  | @res h s' t out ha hi ih =>
    cases h with
    | nil => cases e
    | cons a l => simp at e

theorem Atomic.res1 {s s' : AState K V} {t out} (h : Atomic parts s [.res t out] s') : ∃ s1, Atomic parts s [] s1 ∧ s1.ph t = .done out ∧
    Atomic parts ⟨s1.map, upd s1.ph t .idle⟩ [] s' := by
  generalize e : [Ev.res t out] = h0 at h
  induction h with
  | refl => cases e
  | @inv h s' t op ha hi ih =>
    cases h with
    | nil => cases e
    | cons a l => simp at e
  | effect ha hi hs ih => obtain ⟨s1, a, b, c⟩ := ih e; exact ⟨s1, a, b, .effect c hi hs⟩
  | scan hp ha hs ih => obtain ⟨s1, a, b, c⟩ := ih e; exact ⟨s1, a, b, .scan hp c hs⟩
  | @res h s' t out ha hi ih =>
    cases h with
    | nil => cases e; exact ⟨_, ha, hi, .refl _⟩
    | cons a l => simp at e

/-- The entry of `k` is `v` and no pending call will change that. -/
def Settled (k : K) (v : V) (s : AState K V) : Prop := OnlyWrites k v s ∧ s.map k = some v

/-- The thread `t` is about to write `(k, v)` or has done so. -/
def Writing (k : K) (v : V) (t : Nat) (s : AState K V) : Prop :=
  OnlyWrites k v s ∧ (s.ph t = .waiting (.write k v) ∨ ∃ out, s.ph t = .done out ∧ s.map k = some v)

/-- The thread `u` is about to read `k` or has read `v`. -/
def Reading (k : K) (v : V) (u : Nat) (s : AState K V) : Prop :=
  Settled k v s ∧ (s.ph u = .waiting (.read k) ∨ s.ph u = .done (.payload (some v)))

theorem scan_next {m : Map K V} {x y : Phase K V} (h : ScanStep m x y) (op : Op K V) : y ≠ .waiting op := by
  cases h <;> simp

theorem onlyWrites_keeps {k : K} {v : V} {h : List (Ev K V)} {s s' : AState K V} (ha : Atomic parts s h s')
    (hw : ∀ t op, .inv t op ∈ h → Changes k op → op = .write k v) (h0 : OnlyWrites k v s) : OnlyWrites k v s' := by
  refine ha.keeps (P := OnlyWrites k v) ?_ ?_ ?_ ?_ h0
  · intro s t op out m a b c; exact onlyWrites_effect a b c
  · intro s t x a b; exact onlyWrites_upd a (fun op e => (scan_next b op e).elim)
  · intro s t op hm a b
    exact onlyWrites_upd a (fun op' e => by cases e; exact hw _ _ hm)
  · intro s t out hm a b
    exact onlyWrites_upd a (fun op' e => by cases e)

theorem settled_keeps {k : K} {v : V} {h : List (Ev K V)} {s s' : AState K V} (ha : Atomic parts s h s')
    (hw : ∀ t op, .inv t op ∈ h → Changes k op → op = .write k v) (h0 : Settled k v s) : Settled k v s' := by
  refine ha.keeps (P := Settled k v) ?_ ?_ ?_ ?_ h0
  · intro s t op out m a b c; exact ⟨onlyWrites_effect a.1 b c, effect_keeps a.1 a.2 b c⟩
  · intro s t x a b; exact ⟨onlyWrites_upd a.1 (fun op e => (scan_next b op e).elim), a.2⟩
  · intro s t op hm a b
    exact ⟨onlyWrites_upd a.1 (fun op' e => by cases e; exact hw _ _ hm), a.2⟩
  · intro s t out hm a b
    exact ⟨onlyWrites_upd a.1 (fun op' e => by cases e), a.2⟩

theorem writing_keeps {k : K} {v : V} {t : Nat} {h : List (Ev K V)} {s s' : AState K V} (ha : Atomic parts s h s')
    (hw : ∀ t op, .inv t op ∈ h → Changes k op → op = .write k v) (hr : ∀ out, .res t out ∉ h) (h0 : Writing k v t s) :
    Writing k v t s' := by
  refine ha.keeps (P := Writing k v t) ?_ ?_ ?_ ?_ h0
  · intro s t' op out m a b c
    refine ⟨onlyWrites_effect a.1 b c, ?_⟩
    by_cases ht : t = t'
    · subst ht
      rcases a.2 with d | ⟨o, d, -⟩
      · rw [d] at b
        cases b
        cases c
        exact Or.inr ⟨.code .success, by simp [upd], by simp [set]⟩
      · rw [d] at b; cases b
    · simp only [upd, if_neg ht]
      rcases a.2 with d | ⟨o, d, e⟩
      · exact Or.inl d
      · exact Or.inr ⟨o, d, effect_keeps a.1 e b c⟩
  · intro s t' x a b
    refine ⟨onlyWrites_upd a.1 (fun op e => (scan_next b op e).elim), ?_⟩
    have ht : t ≠ t' := by
      rintro rfl
      rcases a.2 with d | ⟨o, d, -⟩ <;> rw [d] at b <;> cases b
    simp only [upd, if_neg ht]
    exact a.2
  · intro s t' op hm a b
    refine ⟨onlyWrites_upd a.1 (fun op' e => by cases e; exact hw _ _ hm), ?_⟩
    have ht : t ≠ t' := by
      rintro rfl
      rcases a.2 with d | ⟨o, d, -⟩ <;> rw [d] at b <;> cases b
    simp only [upd, if_neg ht]
    exact a.2
  · intro s t' out hm a b
    refine ⟨onlyWrites_upd a.1 (fun op' e => by cases e), ?_⟩
    have ht : t ≠ t' := by
      rintro rfl
      exact hr _ hm
    simp only [upd, if_neg ht]
    exact a.2

theorem reading_keeps {k : K} {v : V} {u : Nat} {h : List (Ev K V)} {s s' : AState K V} (ha : Atomic parts s h s')
    (hw : ∀ t op, .inv t op ∈ h → Changes k op → op = .write k v) (hr : ∀ out, .res u out ∉ h) (h0 : Reading k v u s) :
    Reading k v u s' := by
  refine ha.keeps (P := Reading k v u) ?_ ?_ ?_ ?_ h0
  · intro s t' op out m a b c
    refine ⟨⟨onlyWrites_effect a.1.1 b c, effect_keeps a.1.1 a.1.2 b c⟩, ?_⟩
    by_cases ht : u = t'
    · subst ht
      rcases a.2 with d | d
      · rw [d] at b
        cases b
        cases c
        exact Or.inr (by simp [upd, a.1.2])
      · rw [d] at b; cases b
    · simp only [upd, if_neg ht]
      exact a.2
  · intro s t' x a b
    refine ⟨⟨onlyWrites_upd a.1.1 (fun op e => (scan_next b op e).elim), a.1.2⟩, ?_⟩
    have ht : u ≠ t' := by
      rintro rfl
      rcases a.2 with d | d <;> rw [d] at b <;> cases b
    simp only [upd, if_neg ht]
    exact a.2
  · intro s t' op hm a b
    refine ⟨⟨onlyWrites_upd a.1.1 (fun op' e => by cases e; exact hw _ _ hm), a.1.2⟩, ?_⟩
    have ht : u ≠ t' := by
      rintro rfl
      rcases a.2 with d | d <;> rw [d] at b <;> cases b
    simp only [upd, if_neg ht]
    exact a.2
  · intro s t' out hm a b
    refine ⟨⟨onlyWrites_upd a.1.1 (fun op' e => by cases e), a.1.2⟩, ?_⟩
    have ht : u ≠ t' := by
      rintro rfl
      exact hr _ hm
    simp only [upd, if_neg ht]
    exact a.2

/-- A history that loses a write is not linearizable. -/
theorem LosesWrite.not_atomic {h : List (Ev K V)} (hl : LosesWrite h) {s : AState K V} :
    ¬ Atomic parts ⟨m0, fun _ => .idle⟩ h s := by
  intro ha
  obtain ⟨k, v, t, u, o, h1, h2, h3, h4, h5, e, hw, ht, hu, ho⟩ := hl
  have e' : h = h1 ++ ([.inv t (.write k v)] ++ (h2 ++ ([.res t (.code .success)] ++ (h3 ++ ([.inv u (.read k)] ++ (h4 ++
      ([.res u (.payload o)] ++ h5))))))) := by simp [e]
  have hmem : ∀ l : List (Ev K V), (∀ x ∈ l, x ∈ h) → ∀ t op, .inv t op ∈ l → Changes k op → op = .write k v :=
    fun l hl t op hm => hw t op (hl _ hm)
  have w1 := hmem h1 (by intro x hx; rw [e']; simp [hx])
  have w2 := hmem h2 (by intro x hx; rw [e']; simp [hx])
  have w3 := hmem h3 (by intro x hx; rw [e']; simp [hx])
  have w4 := hmem h4 (by intro x hx; rw [e']; simp [hx])
  have wn : ∀ t op, .inv t op ∈ ([] : List (Ev K V)) → Changes k op → op = .write k v := by simp
  rw [e'] at ha
  obtain ⟨s1, a1, ha⟩ := ha.split
  obtain ⟨s2, a2, ha⟩ := ha.split
  obtain ⟨s3, a3, ha⟩ := ha.split
  obtain ⟨s4, a4, ha⟩ := ha.split
  obtain ⟨s5, a5, ha⟩ := ha.split
  obtain ⟨s6, a6, ha⟩ := ha.split
  obtain ⟨s7, a7, ha⟩ := ha.split
  obtain ⟨s8, a8, -⟩ := ha.split
  obtain ⟨x2, b2, i2, c2⟩ := a2.inv1
  obtain ⟨x4, b4, i4, c4⟩ := a4.res1
  obtain ⟨x6, b6, i6, c6⟩ := a6.inv1
  obtain ⟨x8, b8, i8, -⟩ := a8.res1
  have p1 : OnlyWrites k v s1 := onlyWrites_keeps a1 w1 (by intro t op h; cases h)
  have p2 := onlyWrites_keeps b2 wn p1
  have p3 : Writing k v t ⟨x2.map, upd x2.ph t (.waiting (.write k v))⟩ :=
    ⟨onlyWrites_upd p2 (fun op e _ => by cases e; rfl), Or.inl (by simp [upd])⟩
  have p4 := writing_keeps a3 w2 ht (writing_keeps c2 wn (by simp) p3)
  have p5 := writing_keeps b4 wn (by simp) p4
  have p6 : Settled k v ⟨x4.map, upd x4.ph t .idle⟩ := by
    refine ⟨onlyWrites_upd p5.1 (fun op e => by cases e), ?_⟩
    rcases p5.2 with d | ⟨_, _, d⟩
    · rw [d] at i4; cases i4
    · exact d
  have p7 := settled_keeps b6 wn (settled_keeps a5 w3 (settled_keeps c4 wn p6))
  have p8 : Reading k v u ⟨x6.map, upd x6.ph u (.waiting (.read k))⟩ :=
    ⟨⟨onlyWrites_upd p7.1 (fun op e h => by cases e; exact h.elim), p7.2⟩, Or.inl (by simp [upd])⟩
  have p9 := reading_keeps b8 wn (by simp) (reading_keeps a7 w4 hu (reading_keeps c6 wn (by simp) p8))
  rcases p9.2 with d | d
  · rw [d] at i8; cases i8
  · rw [d] at i8; cases i8; exact ho rfl

theorem LosesWrite.not_linearizable {h : List (Ev K V)} (hl : LosesWrite h) : ¬ LinearizableFrom m0 h := fun ⟨_, ha⟩ => hl.not_atomic ha

/-! ## Scans -/

/-- Above the lower bound `b` there is nothing in `acc`, which is ascending. -/
def SortedBelow (b : ScanKey K) (acc : List (K × V)) : Prop :=
  acc.Pairwise (fun x y => x.1 < y.1) ∧ ∀ x ∈ acc, ∀ k, AboveLo b k → x.1 < k

theorem above_of_below {c : K} {cl : Bool} {x k : K} (h1 : BelowHi (some (c, cl)) x) (h2 : AboveLo (some (c, !cl)) k) : x < k := by
  cases cl
  · exact lt_of_lt_of_le h1 h2
  · exact lt_of_le_of_lt h1 h2

theorem SortedBelow.append {m : Map K V} {b e : ScanKey K} {acc l : List (K × V)} (h : SortedBelow b acc) (hl : IsScan m b e l) :
    (acc ++ l).Pairwise (fun x y => x.1 < y.1) :=
  List.pairwise_append.2 ⟨h.1, hl.1, fun x hx y hy => h.2 x hx _ ((hl.2 y.1 y.2).1 hy).2.1⟩

/-- Thread `u` scans, or has scanned, with ascending keys. -/
def Sorting (u : Nat) (s : AState K V) : Prop :=
  (∃ b e, s.ph u = .waiting (.scan b e)) ∨ (∃ b e acc, s.ph u = .scanning b e acc ∧ SortedBelow b acc) ∨
    ∃ l, s.ph u = .done (.recs l) ∧ l.Pairwise (fun x y => x.1 < y.1)

theorem sorting_acc {b e : ScanKey K} {acc : List (K × V)}
    (h : (∃ b' e', Phase.scanning b e acc = .waiting (.scan b' e')) ∨
      (∃ b' e' acc', Phase.scanning b e acc = .scanning b' e' acc' ∧ SortedBelow b' acc') ∨
      ∃ l, Phase.scanning b e acc = .done (.recs l) ∧ l.Pairwise (fun x y => x.1 < y.1)) : SortedBelow b acc := by
  rcases h with ⟨_, _, d⟩ | ⟨_, _, _, d, d'⟩ | ⟨_, d, -⟩
  · cases d
  · cases d; exact d'
  · cases d

theorem sorting_keeps {u : Nat} {h : List (Ev K V)} {s s' : AState K V} (ha : Atomic parts s h s')
    (hr : ∀ out, .res u out ∉ h) (h0 : Sorting u s) : Sorting u s' := by
  refine ha.keeps (P := Sorting u) ?_ ?_ ?_ ?_ h0
  · intro s t op out m a b c
    by_cases ht : u = t
    · subst ht
      rcases a with ⟨b', e', d⟩ | ⟨b', e', acc, d, -⟩ | ⟨l, d, -⟩ <;> rw [d] at b <;> cases b
      cases c with
      | scan _ _ l hl => exact Or.inr (Or.inr ⟨l, by simp [upd], hl.1⟩)
    · unfold Sorting
      simp only [upd, if_neg ht]
      exact a
  · intro s t x a b
    by_cases ht : u = t
    · subst ht
      unfold Sorting
      simp only [upd, if_true]
      unfold Sorting at a
      generalize s.ph u = y at a b
      cases b with
      | start b e => exact Or.inr (Or.inl ⟨_, _, _, rfl, List.Pairwise.nil, by simp⟩)
      | part c cl l h1 h2 hl =>
        have d' := sorting_acc a
        refine Or.inr (Or.inl ⟨_, _, _, rfl, d'.append hl, ?_⟩)
        intro x hx k hk
        rcases List.mem_append.1 hx with hx | hx
        · exact d'.2 x hx k (h1 k hk)
        · exact above_of_below ((hl.2 x.1 x.2).1 hx).2.2 hk
      | last l hl => exact Or.inr (Or.inr ⟨_, rfl, (sorting_acc a).append hl⟩)
    · unfold Sorting
      simp only [upd, if_neg ht]
      exact a
  · intro s t op hm a b
    have ht : u ≠ t := by
      rintro rfl
      rcases a with ⟨b', e', d⟩ | ⟨b', e', acc, d, -⟩ | ⟨l, d, -⟩ <;> rw [d] at b <;> cases b
    unfold Sorting
    simp only [upd, if_neg ht]
    exact a
  · intro s t out hm a b
    have ht : u ≠ t := by
      rintro rfl
      exact hr _ hm
    unfold Sorting
    simp only [upd, if_neg ht]
    exact a

/-- A scan of a partwise linearizable history reports ascending keys. -/
theorem ScanRepeats.not_atomic {h : List (Ev K V)} (hl : ScanRepeats h) {s : AState K V} :
    ¬ Atomic parts ⟨m0, fun _ => .idle⟩ h s := by
  intro ha
  obtain ⟨u, b, e, l, h1, h2, h3, eq, hu, hn⟩ := hl
  have e' : h = h1 ++ ([.inv u (.scan b e)] ++ (h2 ++ ([.res u (.recs l)] ++ h3))) := by simp [eq]
  rw [e'] at ha
  obtain ⟨s1, a1, ha⟩ := ha.split
  obtain ⟨s2, a2, ha⟩ := ha.split
  obtain ⟨s3, a3, ha⟩ := ha.split
  obtain ⟨s4, a4, -⟩ := ha.split
  obtain ⟨x2, b2, i2, c2⟩ := a2.inv1
  obtain ⟨x4, b4, i4, -⟩ := a4.res1
  have p0 : Sorting u ⟨x2.map, upd x2.ph u (.waiting (.scan b e))⟩ := Or.inl ⟨b, e, by simp [upd]⟩
  have p1 := sorting_keeps b4 (by simp) (sorting_keeps a3 hu (sorting_keeps c2 (by simp) p0))
  rcases p1 with ⟨b', e', d⟩ | ⟨b', e', acc, d, -⟩ | ⟨l', d, p⟩ <;> rw [d] at i4 <;> cases i4
  exact hn p

/-- The thread `u` scans a range with `k`, or has scanned it; `(k, v)` is still ahead or has been found. -/
def Finding (k : K) (v : V) (u : Nat) (s : AState K V) : Prop :=
  Settled k v s ∧ ((∃ b e, s.ph u = .waiting (.scan b e) ∧ AboveLo b k ∧ BelowHi e k) ∨
    (∃ b e acc, s.ph u = .scanning b e acc ∧ BelowHi e k ∧ (AboveLo b k ∨ (k, v) ∈ acc)) ∨
    ∃ l, s.ph u = .done (.recs l) ∧ (k, v) ∈ l)

theorem finding_acc {k : K} {v : V} {b e : ScanKey K} {acc : List (K × V)}
    (h : (∃ b' e', Phase.scanning b e acc = .waiting (.scan b' e') ∧ AboveLo b' k ∧ BelowHi e' k) ∨
      (∃ b' e' acc', Phase.scanning b e acc = .scanning b' e' acc' ∧ BelowHi e' k ∧ (AboveLo b' k ∨ (k, v) ∈ acc')) ∨
      ∃ l, Phase.scanning b e acc = .done (.recs l) ∧ (k, v) ∈ l) : BelowHi e k ∧ (AboveLo b k ∨ (k, v) ∈ acc) := by
  rcases h with ⟨_, _, d, -⟩ | ⟨_, _, _, d, d'⟩ | ⟨_, d, -⟩
  · cases d
  · cases d; exact d'
  · cases d

theorem finding_keeps {k : K} {v : V} {u : Nat} {h : List (Ev K V)} {s s' : AState K V} (ha : Atomic parts s h s')
    (hw : ∀ t op, .inv t op ∈ h → Changes k op → op = .write k v) (hr : ∀ out, .res u out ∉ h) (h0 : Finding k v u s) :
    Finding k v u s' := by
  refine ha.keeps (P := Finding k v u) ?_ ?_ ?_ ?_ h0
  · intro s t op out m a b c
    refine ⟨⟨onlyWrites_effect a.1.1 b c, effect_keeps a.1.1 a.1.2 b c⟩, ?_⟩
    by_cases ht : u = t
    · subst ht
      rcases a.2 with ⟨b', e', d, d1, d2⟩ | ⟨b', e', acc, d, -⟩ | ⟨l, d, -⟩ <;> rw [d] at b <;> cases b
      cases c with
      | scan _ _ l hl => exact Or.inr (Or.inr ⟨l, by simp [upd], (hl.2 k v).2 ⟨a.1.2, d1, d2⟩⟩)
    · simp only [upd, if_neg ht]
      exact a.2
  · intro s t x a b
    refine ⟨⟨onlyWrites_upd a.1.1 (fun op e => (scan_next b op e).elim), a.1.2⟩, ?_⟩
    by_cases ht : u = t
    · subst ht
      simp only [upd, if_true]
      have a2 := a.2
      generalize s.ph u = y at a2 b
      cases b with
      | start b e =>
        rcases a2 with ⟨_, _, d, d1, d2⟩ | ⟨_, _, _, d, -⟩ | ⟨_, d, -⟩ <;> cases d
        exact Or.inr (Or.inl ⟨_, _, _, rfl, d2, Or.inl d1⟩)
      | part c cl l h1 h2 hl =>
        obtain ⟨d1, d2⟩ := finding_acc a2
        refine Or.inr (Or.inl ⟨_, _, _, rfl, d1, ?_⟩)
        rcases d2 with d2 | d2
        · by_cases hc : AboveLo (some (c, !cl)) k
          · exact Or.inl hc
          · refine Or.inr (List.mem_append_right _ ((hl.2 k v).2 ⟨a.1.2, d2, ?_⟩))
            cases cl
            · exact lt_of_not_ge hc
            · exact le_of_not_gt hc
        · exact Or.inr (List.mem_append_left _ d2)
      | last l hl =>
        obtain ⟨d1, d2⟩ := finding_acc a2
        refine Or.inr (Or.inr ⟨_, rfl, ?_⟩)
        rcases d2 with d2 | d2
        · exact List.mem_append_right _ ((hl.2 k v).2 ⟨a.1.2, d2, d1⟩)
        · exact List.mem_append_left _ d2
    · simp only [upd, if_neg ht]
      exact a.2
  · intro s t op hm a b
    refine ⟨⟨onlyWrites_upd a.1.1 (fun op' e => by cases e; exact hw _ _ hm), a.1.2⟩, ?_⟩
    have ht : u ≠ t := by
      rintro rfl
      rcases a.2 with ⟨b', e', d, d1, d2⟩ | ⟨b', e', acc, d, -⟩ | ⟨l, d, -⟩ <;> rw [d] at b <;> cases b
    simp only [upd, if_neg ht]
    exact a.2
  · intro s t out hm a b
    refine ⟨⟨onlyWrites_upd a.1.1 (fun op' e => by cases e), a.1.2⟩, ?_⟩
    have ht : u ≠ t := by
      rintro rfl
      exact hr _ hm
    simp only [upd, if_neg ht]
    exact a.2

/-- A scan of a partwise linearizable history reports every record that is there before and all the time. -/
theorem ScanMisses.not_atomic {h : List (Ev K V)} (hl : ScanMisses h) {s : AState K V} :
    ¬ Atomic parts ⟨m0, fun _ => .idle⟩ h s := by
  intro ha
  obtain ⟨k, v, t, u, b, e, l, h1, h2, h3, h4, h5, eq, hw, ht, hu, hb, he, ho⟩ := hl
  have e' : h = h1 ++ ([.inv t (.write k v)] ++ (h2 ++ ([.res t (.code .success)] ++ (h3 ++ ([.inv u (.scan b e)] ++ (h4 ++
      ([.res u (.recs l)] ++ h5))))))) := by simp [eq]
  have hmem : ∀ l : List (Ev K V), (∀ x ∈ l, x ∈ h) → ∀ t op, .inv t op ∈ l → Changes k op → op = .write k v :=
    fun l hl t op hm => hw t op (hl _ hm)
  have w1 := hmem h1 (by intro x hx; rw [e']; simp [hx])
  have w2 := hmem h2 (by intro x hx; rw [e']; simp [hx])
  have w3 := hmem h3 (by intro x hx; rw [e']; simp [hx])
  have w4 := hmem h4 (by intro x hx; rw [e']; simp [hx])
  have wn : ∀ t op, .inv t op ∈ ([] : List (Ev K V)) → Changes k op → op = .write k v := by simp
  rw [e'] at ha
  obtain ⟨s1, a1, ha⟩ := ha.split
  obtain ⟨s2, a2, ha⟩ := ha.split
  obtain ⟨s3, a3, ha⟩ := ha.split
  obtain ⟨s4, a4, ha⟩ := ha.split
  obtain ⟨s5, a5, ha⟩ := ha.split
  obtain ⟨s6, a6, ha⟩ := ha.split
  obtain ⟨s7, a7, ha⟩ := ha.split
  obtain ⟨s8, a8, -⟩ := ha.split
  obtain ⟨x2, b2, i2, c2⟩ := a2.inv1
  obtain ⟨x4, b4, i4, c4⟩ := a4.res1
  obtain ⟨x6, b6, i6, c6⟩ := a6.inv1
  obtain ⟨x8, b8, i8, -⟩ := a8.res1
  have p1 : OnlyWrites k v s1 := onlyWrites_keeps a1 w1 (by intro t op h; cases h)
  have p2 := onlyWrites_keeps b2 wn p1
  have p3 : Writing k v t ⟨x2.map, upd x2.ph t (.waiting (.write k v))⟩ :=
    ⟨onlyWrites_upd p2 (fun op e _ => by cases e; rfl), Or.inl (by simp [upd])⟩
  have p4 := writing_keeps a3 w2 ht (writing_keeps c2 wn (by simp) p3)
  have p5 := writing_keeps b4 wn (by simp) p4
  have p6 : Settled k v ⟨x4.map, upd x4.ph t .idle⟩ := by
    refine ⟨onlyWrites_upd p5.1 (fun op e => by cases e), ?_⟩
    rcases p5.2 with d | ⟨_, _, d⟩
    · rw [d] at i4; cases i4
    · exact d
  have p7 := settled_keeps b6 wn (settled_keeps a5 w3 (settled_keeps c4 wn p6))
  have p8 : Finding k v u ⟨x6.map, upd x6.ph u (.waiting (.scan b e))⟩ :=
    ⟨⟨onlyWrites_upd p7.1 (fun op e h => by cases e; exact h.elim), p7.2⟩, Or.inl ⟨b, e, by simp [upd], hb, he⟩⟩
  have p9 := finding_keeps b8 wn (by simp) (finding_keeps a7 w4 hu (finding_keeps c6 wn (by simp) p8))
  rcases p9.2 with ⟨b', e', d, d1, d2⟩ | ⟨b', e', acc, d, -⟩ | ⟨l', d, p⟩ <;> rw [d] at i8 <;> cases i8
  exact ho p

theorem PartwiseLinearizableFrom.facts {h : List (Ev K V)} (hp : PartwiseLinearizableFrom m0 h) :
    ¬ LosesWrite h ∧ ¬ ScanMisses h ∧ ¬ ScanRepeats h := by
  obtain ⟨s, ha⟩ := hp
  exact ⟨fun hl => hl.not_atomic ha, fun hl => hl.not_atomic ha, fun hl => hl.not_atomic ha⟩

/-- Scans of a linearizable history are also partwise. -/
theorem LinearizableFrom.partwise {h : List (Ev K V)} (hl : LinearizableFrom m0 h) : PartwiseLinearizableFrom m0 h := by
  obtain ⟨s, ha⟩ := hl
  refine ⟨s, ?_⟩
  induction ha with
  | refl => exact .refl _
  | inv t op _ hi ih => exact .inv t op ih hi
  | effect _ hw hs ih => exact .effect ih hw hs
  | scan hp => cases hp
  | res _ hd ih => exact .res ih hd

/-- Scans that take effect at once have no intermediate phase. -/
theorem Atomic.noScanning {h : List (Ev K V)} {s : AState K V} (ha : Atomic false ⟨m0, fun _ => .idle⟩ h s) :
    ∀ t b e acc, s.ph t ≠ .scanning b e acc := by
  generalize e0 : (⟨m0, fun _ => .idle⟩ : AState K V) = s0 at ha
  induction ha with
  | refl => subst e0; simp
  | @inv h s1 t op _ hi ih | @effect h s1 t op out m _ hw hs ih | @res h s1 t out _ hd ih =>
    intro u b e acc
    by_cases hu : u = t
    · subst hu; simp [upd]
    · simp only [upd, if_neg hu]; exact ih u b e acc
  | scan hp => cases hp

/-- If no scan returns it is the same. -/
theorem PartwiseLinearizableFrom.noRecs {h : List (Ev K V)} (hp : PartwiseLinearizableFrom m0 h)
    (hn : ∀ t l, .res t (.recs l) ∉ h) : LinearizableFrom m0 h := by
  obtain ⟨s, ha⟩ := hp
  have key : ∃ s', Atomic false ⟨m0, fun _ => .idle⟩ h s' ∧ s'.map = s.map ∧ ∀ t, s'.ph t = s.ph t ∨
      ((∃ b e, s'.ph t = .waiting (.scan b e)) ∧ ((∃ b e acc, s.ph t = .scanning b e acc) ∨ ∃ l, s.ph t = .done (.recs l))) := by
    generalize e0 : (⟨m0, fun _ => .idle⟩ : AState K V) = s0 at ha ⊢
    induction ha with
    | refl => exact ⟨s0, .refl _, rfl, fun t => Or.inl rfl⟩
    | @inv h s1 t op _ hi ih =>
      obtain ⟨s', a, b, c⟩ := ih (fun t l hm => hn t l (by simp [hm]))
      have ht : s'.ph t = .idle := by
        rcases c t with d | ⟨-, ⟨_, _, _, d⟩ | ⟨_, d⟩⟩
        · rw [d, hi]
        · rw [hi] at d; cases d
        · rw [hi] at d; cases d
      refine ⟨_, .inv t op a ht, b, fun u => ?_⟩
      by_cases hu : u = t
      · subst hu; simp [upd]
      · simp only [upd, if_neg hu]; exact c u
    | @effect h s1 t op out m _ hw hs ih =>
      obtain ⟨s', a, b, c⟩ := ih hn
      have ht : s'.ph t = .waiting op := by
        rcases c t with d | ⟨-, ⟨_, _, _, d⟩ | ⟨_, d⟩⟩
        · rw [d, hw]
        · rw [hw] at d; cases d
        · rw [hw] at d; cases d
      refine ⟨_, .effect a ht (by rw [b]; exact hs), rfl, fun u => ?_⟩
      by_cases hu : u = t
      · subst hu; simp [upd]
      · simp only [upd, if_neg hu]; exact c u
    | @scan h s1 t x _ _ hs ih =>
      obtain ⟨s', a, b, c⟩ := ih hn
      refine ⟨s', a, b, fun u => ?_⟩
      by_cases hu : u = t
      · subst hu
        simp only [upd, if_true]
        right
        have hc := c u
        generalize e1 : s1.ph u = y at hs hc
        cases hs with
        | start b e =>
          refine ⟨?_, Or.inl ⟨_, _, _, rfl⟩⟩
          rcases hc with d | ⟨-, ⟨_, _, _, d⟩ | ⟨_, d⟩⟩
          · exact ⟨b, e, d⟩
          · cases d
          · cases d
        | part =>
          refine ⟨?_, Or.inl ⟨_, _, _, rfl⟩⟩
          rcases hc with d | ⟨d, -⟩
          · exact absurd d (Atomic.noScanning (by rw [e0]; exact a) u _ _ _)
          · exact d
        | last =>
          refine ⟨?_, Or.inr ⟨_, rfl⟩⟩
          rcases hc with d | ⟨d, -⟩
          · exact absurd d (Atomic.noScanning (by rw [e0]; exact a) u _ _ _)
          · exact d
      · simp only [upd, if_neg hu]; exact c u
    | @res h s1 t out _ hd ih =>
      obtain ⟨s', a, b, c⟩ := ih (fun t l hm => hn t l (by simp [hm]))
      have ht : s'.ph t = .done out := by
        rcases c t with d | ⟨-, ⟨_, _, _, d⟩ | ⟨l, d⟩⟩
        · rw [d, hd]
        · rw [hd] at d; cases d
        · rw [hd] at d; cases d
          exact absurd (by simp) (hn t l)
      refine ⟨_, .res a ht, b, fun u => ?_⟩
      by_cases hu : u = t
      · subst hu; simp [upd]
      · simp only [upd, if_neg hu]; exact c u
  obtain ⟨s', a, -⟩ := key
  exact ⟨s', a⟩

/-- Without scans it is the same. -/
theorem PartwiseLinearizableFrom.noScan {h : List (Ev K V)} (hp : PartwiseLinearizableFrom m0 h)
    (hn : ∀ t b e, .inv t (.scan b e) ∉ h) : LinearizableFrom m0 h := by
  obtain ⟨s, ha⟩ := hp
  refine ⟨s, ?_⟩
  have key : Atomic false ⟨m0, fun _ => .idle⟩ h s ∧
      ∀ t, (∀ b e, s.ph t ≠ .waiting (.scan b e)) ∧ ∀ b e acc, s.ph t ≠ .scanning b e acc := by
    generalize e0 : (⟨m0, fun _ => .idle⟩ : AState K V) = s0 at ha ⊢
    induction ha with
    | refl => subst e0; exact ⟨.refl _, fun t => ⟨by simp, by simp⟩⟩
    | @inv h s' t op _ hi ih =>
      obtain ⟨a, b⟩ := ih (fun t b e hm => hn t b e (by simp [hm]))
      refine ⟨.inv t op a hi, fun u => ?_⟩
      by_cases hu : u = t
      · subst hu
        simp only [upd, if_true]
        exact ⟨fun b e h => hn u b e (by cases h; simp), by simp⟩
      · simp only [upd, if_neg hu]
        exact b u
    | @effect h s' t op out m _ hw hs ih =>
      obtain ⟨a, b⟩ := ih hn
      refine ⟨.effect a hw hs, fun u => ?_⟩
      by_cases hu : u = t
      · subst hu
        simp [upd]
      · simp only [upd, if_neg hu]
        exact b u
    | @scan h s' t x _ _ hs ih =>
      obtain ⟨a, b⟩ := ih hn
      exfalso
      generalize e1 : s'.ph t = y at hs
      cases hs with
      | start => exact (b t).1 _ _ e1
      | part => exact (b t).2 _ _ _ e1
      | last => exact (b t).2 _ _ _ e1
    | @res h s' t out _ hd ih =>
      obtain ⟨a, b⟩ := ih (fun t b e hm => hn t b e (by simp [hm]))
      refine ⟨.res a hd, fun u => ?_⟩
      by_cases hu : u = t
      · subst hu
        simp [upd]
      · simp only [upd, if_neg hu]
        exact b u
  exact key.1

end BT.Spec
