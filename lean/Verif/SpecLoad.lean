import Verif.LinFacts

/-!
# Specification: records that were there at first

Nothing in the definitions refers to the model of the code.  The theorems say that a (partwise) linearizable history does not forget them.
-/

set_option linter.unusedSectionVars false

namespace BT.Spec
variable {K V : Type} [LinearOrder K] {parts : Bool} {m : Map K V} {h : List (Ev K V)}

/-- The entry of `k` was `v` at first, no call in the history `h` changes it, and yet a `Read(k)` does not return `v`. -/
def Forgets (m : Map K V) (h : List (Ev K V)) : Prop :=
  ∃ k v u o h1 h2 h3, m k = some v ∧ h = h1 ++ .inv u (.read k) :: h2 ++ .res u (.payload o) :: h3 ∧
    (∀ t op, .inv t op ∈ h → ¬ Changes k op) ∧ (∀ out, .res u out ∉ h2) ∧ o ≠ some v

/-- The entry of `k` was `v` at first, no call in the history `h` changes it, and yet a scan of a range with `k` does not report it. -/
def ScanForgets (m : Map K V) (h : List (Ev K V)) : Prop :=
  ∃ k v u b e l h1 h2 h3, m k = some v ∧ h = h1 ++ .inv u (.scan b e) :: h2 ++ .res u (.recs l) :: h3 ∧
    (∀ t op, .inv t op ∈ h → ¬ Changes k op) ∧ (∀ out, .res u out ∉ h2) ∧ AboveLo b k ∧ BelowHi e k ∧ (k, v) ∉ l

theorem Forgets.not_atomic (hl : Forgets m h) {s : AState K V} : ¬ Atomic parts ⟨m, fun _ => .idle⟩ h s := by
  intro ha
  obtain ⟨k, v, u, o, h1, h2, h3, hm, e, hw, hu, ho⟩ := hl
  have e' : h = h1 ++ ([.inv u (.read k)] ++ (h2 ++ ([.res u (.payload o)] ++ h3))) := by simp [e]
  have hmem : ∀ l : List (Ev K V), (∀ x ∈ l, x ∈ h) → ∀ t op, .inv t op ∈ l → Changes k op → op = .write k v :=
    fun l hl t op hm hc => absurd hc (hw t op (hl _ hm))
  have w1 := hmem h1 (by intro x hx; rw [e']; simp [hx])
  have w2 := hmem h2 (by intro x hx; rw [e']; simp [hx])
  have wn : ∀ t op, .inv t op ∈ ([] : List (Ev K V)) → Changes k op → op = .write k v := by simp
  rw [e'] at ha
  obtain ⟨s1, a1, ha⟩ := ha.split
  obtain ⟨s2, a2, ha⟩ := ha.split
  obtain ⟨s3, a3, ha⟩ := ha.split
  obtain ⟨s4, a4, -⟩ := ha.split
  obtain ⟨x2, b2, i2, c2⟩ := a2.inv1
  obtain ⟨x4, b4, i4, -⟩ := a4.res1
  have p1 : Settled k v s1 := settled_keeps a1 w1 ⟨(by intro t op h; simp at h), hm⟩
  have p2 := settled_keeps b2 wn p1
  have p3 : Reading k v u ⟨x2.map, upd x2.ph u (.waiting (.read k))⟩ :=
    ⟨⟨onlyWrites_upd p2.1 (fun op e h => by cases e; exact h.elim), p2.2⟩, Or.inl (by simp [upd])⟩
  have p4 := reading_keeps b4 wn (by simp) (reading_keeps a3 w2 hu (reading_keeps c2 wn (by simp) p3))
  rcases p4.2 with d | d
  · rw [d] at i4; cases i4
  · rw [d] at i4; cases i4; exact ho rfl

theorem ScanForgets.not_atomic (hl : ScanForgets m h) {s : AState K V} : ¬ Atomic parts ⟨m, fun _ => .idle⟩ h s := by
  intro ha
  obtain ⟨k, v, u, b, e, l, h1, h2, h3, hm, eq, hw, hu, hb, he, ho⟩ := hl
  have e' : h = h1 ++ ([.inv u (.scan b e)] ++ (h2 ++ ([.res u (.recs l)] ++ h3))) := by simp [eq]
  have hmem : ∀ l : List (Ev K V), (∀ x ∈ l, x ∈ h) → ∀ t op, .inv t op ∈ l → Changes k op → op = .write k v :=
    fun l hl t op hm hc => absurd hc (hw t op (hl _ hm))
  have w1 := hmem h1 (by intro x hx; rw [e']; simp [hx])
  have w2 := hmem h2 (by intro x hx; rw [e']; simp [hx])
  have wn : ∀ t op, .inv t op ∈ ([] : List (Ev K V)) → Changes k op → op = .write k v := by simp
  rw [e'] at ha
  obtain ⟨s1, a1, ha⟩ := ha.split
  obtain ⟨s2, a2, ha⟩ := ha.split
  obtain ⟨s3, a3, ha⟩ := ha.split
  obtain ⟨s4, a4, -⟩ := ha.split
  obtain ⟨x2, b2, i2, c2⟩ := a2.inv1
  obtain ⟨x4, b4, i4, -⟩ := a4.res1
  have p1 : Settled k v s1 := settled_keeps a1 w1 ⟨(by intro t op h; simp at h), hm⟩
  have p2 := settled_keeps b2 wn p1
  have p3 : Finding k v u ⟨x2.map, upd x2.ph u (.waiting (.scan b e))⟩ :=
    ⟨⟨onlyWrites_upd p2.1 (fun op e h => by cases e; exact h.elim), p2.2⟩, Or.inl ⟨b, e, by simp [upd], hb, he⟩⟩
  have p4 := finding_keeps b4 wn (by simp) (finding_keeps a3 w2 hu (finding_keeps c2 wn (by simp) p3))
  rcases p4.2 with ⟨b', e', d, d1, d2⟩ | ⟨b', e', acc, d, -⟩ | ⟨l', d, p⟩ <;> rw [d] at i4 <;> cases i4
  exact ho p

theorem PartwiseLinearizableFrom.remembers (hp : PartwiseLinearizableFrom m h) : ¬ Forgets m h ∧ ¬ ScanForgets m h := by
  obtain ⟨s, ha⟩ := hp
  exact ⟨fun hl => hl.not_atomic ha, fun hl => hl.not_atomic ha⟩

end BT.Spec
