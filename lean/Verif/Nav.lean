import Verif.Actions

/-!
# Reading a well-formed tree: contents as a map, key ranges, descending by key
-/

set_option linter.unusedSectionVars false

namespace BT
variable {K V : Type} [LinearOrder K]

/-- The map a list of pairs stands for. -/
def mapOf (l : List (K × V)) : Map K V := fun k => (l.find? (fun x => decide (x.1 = k))).map Prod.snd

theorem mapOf_append (A B : List (K × V)) (k : K) :
    mapOf (A ++ B) k = (mapOf A k).or (mapOf B k) := by
  simp only [mapOf, List.find?_append]
  cases List.find? (fun x => decide (x.1 = k)) A <;> simp

theorem mapOf_none {A : List (K × V)} {k : K} (h : ∀ x ∈ A, x.1 ≠ k) : mapOf A k = none := by
  simp only [mapOf, Option.map_eq_none_iff, List.find?_eq_none, decide_eq_true_eq]
  exact h

theorem Around.map {k : K} {l A B : List (K × V)} {C : Option V} (h : Around k l A C B) :
    mapOf l k = C := by
  rw [h.eq, mapOf_append, mapOf_append, mapOf_none (A := A) (fun x hx => ne_of_lt (h.lo x hx)),
    mapOf_none (A := B) (fun x hx => (ne_of_lt (h.hi x hx)).symm)]
  cases C <;> simp [mapOf]

theorem Around.set {k : K} {l l' A B : List (K × V)} {C C' : Option V} (h : Around k l A C B)
    (h' : Around k l' A C' B) : mapOf l' = Spec.set (mapOf l) k C' := by
  funext x
  unfold Spec.set
  by_cases hx : x = k
  · subst hx; simp [h'.map]
  · rw [if_neg hx, h.eq, h'.eq]
    simp only [mapOf_append]
    have : ∀ D : Option V, mapOf (D.map (fun v => (k, v))).toList x = none := by
      intro D
      apply mapOf_none
      cases D <;> simp
      exact fun h => hx h.symm
    rw [this, this]

/-- Keys of a leaf's pairs lie in its range. -/
theorem NodeOk.pairs_range {cfg : Cfg K} {lo : Bd K} {n : Node K V} (h : NodeOk cfg false lo n) :
    ∀ x ∈ pairs n.recs, lo.leKey x.1 ∧ (hiB n.high).gtKey x.1 := by
  intro x hx
  obtain ⟨r, hr, hp⟩ := mem_pairs.1 hx
  obtain ⟨a, ha, h1, h2⟩ := h.leaf.keyed r hr
  have := (pair_key hp).1
  rw [ha] at this
  cases this
  exact ⟨h1, h2⟩

theorem Bd.leKey_of_gtKey_lt {a : Bd K} {k : K} (h : a.leKey k) {x : K} (hx : a.gtKey x) : x < k := by
  cases a <;> simp_all
  order

/-- Keys below the range of a chain of leaves do not occur in it. -/
theorem chain_pairs_ge {cfg : Cfg K} {h : Heap K V} {L : List Ptr} {lo hi : Bd K} {e : Option Ptr}
    (hc : Chain (PageAt cfg 0) h lo L hi e) : ∀ x ∈ L.flatMap (pairsOf h), lo.leKey x.1 := by
  induction L generalizing lo with
  | nil => simp
  | cons p ps ih =>
    obtain ⟨n, h1, h2, h3⟩ := hc
    intro x hx
    simp only [List.flatMap_cons, List.mem_append, pairsOf_eq h1] at hx
    rcases hx with hx | hx
    · exact (NodeOk.pairs_range h2.1 x hx).1
    · exact Bd.leKey_of_lt h2.1.lt (ih h3 x hx)

theorem Chain.le_end {P : Bd K → Node K V → Option Ptr → Prop} {h : Heap K V} {L : List Ptr} {lo hi : Bd K}
    {e : Option Ptr} (hc : Chain P h lo L hi e) (hP : ∀ lo n nx, P lo n nx → lo.lt (hiB n.high)) :
    lo = hi ∨ lo.lt hi := by
  induction L generalizing lo with
  | nil => exact Or.inl hc
  | cons p ps ih =>
    obtain ⟨n, h1, h2, h3⟩ := hc
    rcases ih h3 with h4 | h4
    · rw [← h4]; exact Or.inr (hP _ _ _ h2)
    · exact Or.inr (Bd.lt_trans (hP _ _ _ h2) h4)

theorem Bd.gtKey_of_lt' {a b : Bd K} {k : K} (h : a.gtKey k) (h' : a = b ∨ a.lt b) : b.gtKey k := by
  rcases h' with rfl | h'
  · exact h
  · cases a <;> cases b <;> simp_all [Bd.lt]
    order

theorem chain_pairs_lt {cfg : Cfg K} {h : Heap K V} {L : List Ptr} {lo hi : Bd K} {e : Option Ptr}
    (hc : Chain (PageAt cfg 0) h lo L hi e) : ∀ x ∈ L.flatMap (pairsOf h), hi.gtKey x.1 := by
  induction L generalizing lo with
  | nil => simp
  | cons p ps ih =>
    obtain ⟨n, h1, h2, h3⟩ := hc
    intro x hx
    simp only [List.flatMap_cons, List.mem_append, pairsOf_eq h1] at hx
    rcases hx with hx | hx
    · exact Bd.gtKey_of_lt' (NodeOk.pairs_range h2.1 x hx).2 (h3.le_end (fun _ _ _ h => h.lt))
    · exact ih h3 x hx

theorem NodeOk.pairs_sorted {cfg : Cfg K} {lo : Bd K} {n : Node K V} (h : NodeOk cfg false lo n) :
    (pairs n.recs).Pairwise (fun x y => x.1 < y.1) := by
  have hs := h.leaf.sorted
  unfold pairs
  rw [List.pairwise_filterMap]
  refine hs.imp ?_
  intro r r' hrr x hx y hy
  exact hrr x.1 (pair_key hx).1 y.1 (pair_key hy).1

theorem chain_pairs_sorted {cfg : Cfg K} {h : Heap K V} {L : List Ptr} {lo hi : Bd K} {e : Option Ptr}
    (hc : Chain (PageAt cfg 0) h lo L hi e) : (L.flatMap (pairsOf h)).Pairwise (fun x y => x.1 < y.1) := by
  induction L generalizing lo with
  | nil => simp
  | cons p ps ih =>
    obtain ⟨n, h1, h2, h3⟩ := hc
    simp only [List.flatMap_cons, pairsOf_eq h1]
    rw [List.pairwise_append]
    refine ⟨NodeOk.pairs_sorted h2.1, ih h3, ?_⟩
    intro x hx y hy
    exact Bd.leKey_of_gtKey_lt (chain_pairs_ge h3 y hy) (NodeOk.pairs_range h2.1 x hx).2

section wf
variable {cfg : Cfg K} {L : Nat} {s : St K V} {H : Nat} {gr : Nat → List Grp}

theorem WF.sorted (w : WF cfg s H gr) : (contents s gr).Pairwise (fun x y => x.1 < y.1) :=
  chain_pairs_sorted (w.chain 0 (by omega))

/-- What happens around `k` in the leaf responsible for `k` happens in the whole tree. -/
theorem WF.around (w : WF cfg s H gr) {p : Ptr} {n : Node K V} {lo : Bd K} {k : K}
    (hat : At cfg s gr 0 p n lo) (hlo : lo.leKey k) (hhi : (hiB n.high).gtKey k)
    {A B : List (K × V)} {C : Option V} (ha : Around k (pairs n.recs) A C B) :
    ∃ A' B', Around k (contents s gr) A' C B' ∧
      ∀ n' C', Around k (pairs n'.recs) A C' B →
        Around k (contents { s with heap := upd s.heap p n' } gr) A' C' B' := by
  obtain ⟨X, Y, h1, h2, h3, h4, h5⟩ := hat
  obtain ⟨c1, c2⟩ := w.leaf_contents h1 h2
  have hX : ∀ x ∈ X.flatMap (pairsOf s.heap), x.1 < k := fun x hx =>
    Bd.leKey_of_gtKey_lt hlo (chain_pairs_lt h3 x hx)
  have hY : ∀ x ∈ Y.flatMap (pairsOf s.heap), k < x.1 := fun x hx =>
    Bd.leKey_of_gtKey_lt (chain_pairs_ge h5 x hx) hhi
  refine ⟨X.flatMap (pairsOf s.heap) ++ A, B ++ Y.flatMap (pairsOf s.heap), ?_, ?_⟩
  · refine ⟨by rw [c1, ha.eq]; simp, ?_, ?_⟩
    · intro x hx
      rcases List.mem_append.1 hx with hx | hx
      · exact hX x hx
      · exact ha.lo x hx
    · intro x hx
      rcases List.mem_append.1 hx with hx | hx
      · exact ha.hi x hx
      · exact hY x hx
  · intro n' C' ha'
    refine ⟨by rw [c2, ha'.eq]; simp, ?_, ?_⟩
    · intro x hx
      rcases List.mem_append.1 hx with hx | hx
      · exact hX x hx
      · exact ha.lo x hx
    · intro x hx
      rcases List.mem_append.1 hx with hx | hx
      · exact ha.hi x hx
      · exact hY x hx

/-- Where a run of groups ends, as seen by the parents. -/
theorem groups_end {P : Bd K → Node K V → Option Ptr → Prop} {h : Heap K V} {G : List Grp} {lo hi : Bd K}
    {e : Option Ptr} (hc : Chain P h lo (flat G) hi e) :
    hi = match (G.map (fun g => (g.1, highOf h (lastOf g)))).getLast? with
      | none => lo
      | some x => hiB x.2 := by
  rcases List.eq_nil_or_concat' G with rfl | ⟨G', g, rfl⟩
  · simpa [Chain] using hc.symm
  · have := hc.end_eq
    simp only [List.map_append, List.map_cons, List.map_nil, List.getLast?_append,
      List.getLast?_singleton, Option.or] at this ⊢
    rw [this]
    have h1 : flat (G' ++ [g]) = flat G' ++ (g.1 :: g.2) := by simp
    have : (flat (G' ++ [g])).getLast? = some (lastOf g) := by
      rw [h1, List.getLast?_append]
      have : (g.1 :: g.2).getLast? = some (lastOf g) := by
        rw [List.getLast?_eq_some_getLast (by simp)]
        unfold lastOf
        cases hg : g.2 with
        | nil => simp
        | cons a b => simp [List.getLastD]
      rw [this]; rfl
    rw [this]

/-- Where a run of inner pages ends, as seen from their slots. -/
theorem slots_end {cfg : Cfg K} {i : Nat} {h : Heap K V} {U : List Ptr} {lo hi : Bd K}
    {e : Option Ptr} (hc : Chain (PageAt cfg (i + 1)) h lo U hi e) :
    hi = match (U.flatMap (slotsOf h)).getLast? with
      | none => lo
      | some x => hiB x.2 := by
  rcases List.eq_nil_or_concat' U with rfl | ⟨U', u, rfl⟩
  · simpa [Chain] using hc.symm
  · have h1 := hc.end_eq
    simp only [List.getLast?_append, List.getLast?_singleton, Option.or] at h1
    rw [h1]
    obtain ⟨n, lo', nx, h2, h3⟩ := hc.mem (p := u) (by simp)
    have h4 : NodeOk cfg true lo' n := by simpa using h3.1
    obtain ⟨X, q, hX⟩ := slots_getLast (hi := n.high) h4.inner.ne
    simp only [List.flatMap_append, List.flatMap_cons, List.flatMap_nil, List.append_nil, slotsOf_eq h2, hX,
      List.getLast?_append, List.getLast?_singleton, Option.or, highOf_eq h2]

/-- Following a slot of an inner page: the group of the child, and the left border of that group. -/
theorem WF.follow (w : WF cfg s H gr) {i : Nat} (hi : i < H) {u : Ptr} {un : Node K V} {lo : Bd K}
    (hat : At cfg s gr (i + 1) u un lo) {T D : List (Rec K V)} {r : Rec K V}
    (hrecs : un.recs = T ++ r :: D) :
    ∃ G1 run G2 lo', gr i = G1 ++ (r.toPtr, run) :: G2 ∧
      highOf s.heap (lastOf (r.toPtr, run)) = hdKey D un.high ∧
      Chain (PageAt cfg i) s.heap .bot (flat G1) lo' (some r.toPtr) ∧
      lo' = (if T = [] then lo else hiB r.key) := by
  obtain ⟨U1, U2, h1, h2, h3, h4, h5⟩ := hat
  have hkid := w.kid i hi
  rw [h1] at hkid
  have hsl : slotsOf s.heap u = slots T r.key ++ (r.toPtr, hdKey D un.high) :: slots D un.high := by
    rw [slotsOf_eq h2, hrecs, slots_append, slots_cons]; rfl
  obtain ⟨G1, run, G2, e1, e2, e3, e4⟩ := hkid.split hsl
  have hc := w.chain i (by omega)
  rw [e1, flat_append, Chain.append] at hc
  obtain ⟨lo', c1, c2⟩ := hc
  refine ⟨G1, run, G2, lo', e1, e2.symm, by simpa using c1, ?_⟩
  have g1 := groups_end c1
  have g2 := slots_end h3
  rw [e3] at g1
  rw [g1]
  by_cases hT : T = []
  · subst hT
    simp only [slots_nil, List.append_nil, if_true]
    rw [g2]
  · rw [if_neg hT]
    obtain ⟨X, q, hX⟩ := slots_getLast (hi := r.key) hT
    rw [hX]
    simp [List.getLast?_append]

/-- Left border of the page behind the pages `A`. -/
def endB (h : Heap K V) (A : List Ptr) : Bd K :=
  match A.getLast? with
  | none => .bot
  | some p => hiB (highOf h p)

theorem endB_nil (h : Heap K V) : endB h [] = .bot := rfl
theorem endB_concat (h : Heap K V) (A : List Ptr) (p : Ptr) : endB h (A ++ [p]) = hiB (highOf h p) := by
  simp [endB]
theorem endB_congr {h h' : Heap K V} {A : List Ptr} (hh : ∀ p ∈ A, highOf h' p = highOf h p) :
    endB h' A = endB h A := by
  rcases List.eq_nil_or_concat' A with rfl | ⟨A', a, rfl⟩
  · rfl
  · rw [endB_concat, endB_concat, hh a (by simp)]

theorem Chain.endB_eq {P : Bd K → Node K V → Option Ptr → Prop} {h : Heap K V} {A : List Ptr} {m : Bd K}
    {e : Option Ptr} (hc : Chain P h .bot A m e) : m = endB h A := hc.end_eq

theorem WF.at_mk (w : WF cfg s H gr) {i : Nat} (hi : i ≤ H) {A B : List Ptr} {p : Ptr} {n : Node K V}
    (hfl : flat (gr i) = A ++ p :: B) (hp : s.heap p = some n) : At cfg s gr i p n (endB s.heap A) := by
  obtain ⟨n', lo, h1, h2⟩ := w.at_of_append hi hfl
  rw [h2.endB_eq] at h1
  have := h1.heap
  rw [hp] at this
  cases this
  exact h1

theorem At.lo_endB (w : WF cfg s H gr) {i : Nat} (hi : i ≤ H) {A B : List Ptr} {p : Ptr} {n : Node K V}
    {lo : Bd K} (hat : At cfg s gr i p n lo) (hfl : flat (gr i) = A ++ p :: B) : lo = endB s.heap A := by
  obtain ⟨n', lo', h1, h2⟩ := w.at_of_append hi hfl
  rw [← At.lo_eq w hi hat hfl h2, h2.endB_eq]

/-- No page is pending anywhere. -/
def NoPend (H : Nat) (gr : Nat → List Grp) : Prop := ∀ i ≤ H, ∀ g ∈ gr i, g.2 = []

/-- The child responsible for `k`, when nothing is pending. -/
theorem WF.child (w : WF cfg s H gr) (np : NoPend H gr) {i : Nat} (hi : i < H) {u : Ptr} {un : Node K V}
    {lo : Bd K} (hat : At cfg s gr (i + 1) u un lo) {T D : List (Rec K V)} {r : Rec K V} {k : K}
    (hlo : lo.leKey k)
    (hrecs : un.recs = T ++ r :: D) (hT : T ≠ [] → ∃ a, r.key = some a ∧ a ≤ k)
    (hD : (hiB (hdKey D un.high)).gtKey k) :
    ∃ G1 G2 cn lo', gr i = G1 ++ (r.toPtr, []) :: G2 ∧ At cfg s gr i r.toPtr cn lo' ∧
      cn.high = hdKey D un.high ∧ lo'.leKey k ∧ (hiB cn.high).gtKey k ∧
      lo' = (if T = [] then lo else hiB r.key) := by
  obtain ⟨G1, run, G2, lo', e1, e2, e3, e4⟩ := w.follow hi hat hrecs
  have : run = [] := np i (by omega) (r.toPtr, run) (by rw [e1]; simp)
  subst this
  have hfl : flat (gr i) = flat G1 ++ r.toPtr :: flat G2 := by rw [e1]; simp
  obtain ⟨cn, lo'', hat', hc'⟩ := w.at_of_append (by omega) hfl
  have : lo' = lo'' := At.lo_eq w (by omega) hat' hfl e3
  subst this
  have hh : cn.high = hdKey D un.high := by
    rw [← e2, lastOf_nil, highOf_eq hat'.heap]
  refine ⟨G1, G2, cn, lo', e1, hat', hh, ?_, by rw [hh]; exact hD, e4⟩
  rw [e4]
  by_cases h : T = []
  · rw [if_pos h]; exact hlo
  · rw [if_neg h]
    obtain ⟨a, ha, hak⟩ := hT h
    rw [ha]
    exact hak

/-- The root covers every key. -/
theorem WF.root_at (w : WF cfg s H gr) (np : NoPend H gr) :
    ∃ n, At cfg s gr H s.root n .bot ∧ n.high = none := by
  obtain ⟨run, hrun⟩ := w.top
  have : run = [] := np H (le_refl _) (s.root, run) (by rw [hrun]; simp)
  subst this
  have hfl : flat (gr H) = [] ++ s.root :: [] := by rw [hrun]; simp
  obtain ⟨n, lo, h1, h2⟩ := w.at_of_append (le_refl _) hfl
  have : Bd.bot = lo := h2
  subst this
  refine ⟨n, h1, ?_⟩
  have := w.last_high (le_refl _) (A := []) hfl
  rwa [highOf_eq h1.heap] at this

end wf
end BT
