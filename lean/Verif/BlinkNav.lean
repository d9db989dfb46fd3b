import Verif.PmlOk
import Verif.OScanOk
import Verif.BlinkMono

/-!
# Locating pages by key in a B-link tree, with or without pending pages
-/

set_option linter.unusedSectionVars false

namespace BT
variable {K V : Type} [LinearOrder K]

/-- Order on borders. -/
def Bd.le (a b : Bd K) : Prop := a = b ∨ a.lt b

theorem Bd.le_refl' (a : Bd K) : a.le a := Or.inl rfl
theorem Bd.le_trans' {a b c : Bd K} (h : a.le b) (h' : b.le c) : a.le c := by
  rcases h with rfl | h
  · exact h'
  · rcases h' with rfl | h'
    · exact Or.inr h
    · exact Or.inr (Bd.lt_trans h h')
theorem Bd.lt_of_le_lt {a b c : Bd K} (h : a.le b) (h' : b.lt c) : a.lt c := by
  rcases h with rfl | h
  · exact h'
  · exact Bd.lt_trans h h'
theorem Bd.lt_of_lt_le {a b c : Bd K} (h : a.lt b) (h' : b.le c) : a.lt c := by
  rcases h' with rfl | h'
  · exact h
  · exact Bd.lt_trans h h'
theorem Bd.leKey_of_le {a b : Bd K} {k : K} (h : a.le b) (h' : b.leKey k) : a.leKey k := by
  rcases h with rfl | h
  · exact h'
  · exact Bd.leKey_of_lt h h'
theorem Bd.gtKey_of_le {a b : Bd K} {k : K} (h : a.gtKey k) (h' : a.le b) : b.gtKey k := Bd.gtKey_of_lt' h h'
theorem Bd.leKey_iff {a : Bd K} {k : K} : a.leKey k ↔ a.le (.key k) := by
  cases a <;> simp [Bd.le, Bd.lt, le_iff_eq_or_lt]

section wf
variable {cfg : Cfg K} {L : Nat} {s : St K V} {H : Nat} {gr : Nat → List Grp}

theorem At.congr (w : WF cfg s H gr) {i : Nat} (hi : i ≤ H) {p : Ptr} {n m : Node K V} {lo lo' : Bd K}
    (h : At cfg s gr i p n lo) (h' : At cfg s gr i p m lo') : n = m ∧ lo = lo' := by
  have e := h.heap
  rw [h'.heap] at e
  cases e
  obtain ⟨A, B, h1, -, h3, -⟩ := h
  exact ⟨rfl, At.lo_eq w hi h' h1 h3⟩

/-- The pages of a level do not overlap. -/
theorem At.unique {i : Nat} {p q : Ptr} {n m : Node K V} {lo lo' : Bd K} {x : K}
    (h : At cfg s gr i p n lo) (h' : At cfg s gr i q m lo')
    (h1 : lo.leKey x) (h2 : (hiB n.high).gtKey x) (h3 : lo'.leKey x) (h4 : (hiB m.high).gtKey x) : p = q := by
  have key : ∀ {p q : Ptr} {n m : Node K V} {lo lo' : Bd K} {A A' a : List Ptr} {e : Option Ptr},
      s.heap p = some n → Chain (PageAt cfg i) s.heap .bot A' lo' e → A' = A ++ p :: a →
      (hiB n.high).gtKey x → lo'.leKey x → False := by
    intro p q n m lo lo' A A' a e hp hc hA g1 g2
    rw [hA, Chain.append] at hc
    obtain ⟨-, -, n0, e1, -, e3⟩ := hc
    rw [hp] at e1
    cases e1
    exact Bd.not_gt_le (Bd.gtKey_of_lt' g1 (e3.le_end (fun _ _ _ h => h.lt))) g2
  obtain ⟨A, B, a1, a2, a3, a4, a5⟩ := h
  obtain ⟨A', B', b1, b2, b3, b4, b5⟩ := h'
  rw [a1] at b1
  rcases List.append_eq_append_iff.1 b1 with ⟨a, e1, e2⟩ | ⟨a, e1, e2⟩
  · cases a with
    | nil => simp at e2; exact e2.1
    | cons y a =>
      simp only [List.cons_append, List.cons.injEq] at e2
      obtain ⟨rfl, -⟩ := e2
      exact (key (q := q) (m := m) (lo := lo) a2 b3 e1 h2 h3).elim
  · cases a with
    | nil => simp at e2; exact e2.1.symm
    | cons y a =>
      simp only [List.cons_append, List.cons.injEq] at e2
      obtain ⟨rfl, -⟩ := e2
      exact (key (q := q) (m := m) (lo := lo) b2 a3 e1 h4 h1).elim

/-- Different pages of a level end at different keys. -/
theorem Chain.high_inj {P : Bd K → Node K V → Option Ptr → Prop} {h : Heap K V} {A : List Ptr} {lo hi : Bd K}
    {e : Option Ptr} (hc : Chain P h lo A hi e) (hP : ∀ lo n nx, P lo n nx → lo.lt (hiB n.high))
    {p q : Ptr} (hp : p ∈ A) (hq : q ∈ A) (he : highOf h p = highOf h q) : p = q := by
  induction A generalizing lo with
  | nil => cases hp
  | cons a A ih =>
    obtain ⟨n, h1, h2, h3⟩ := hc
    rcases List.mem_cons.1 hp with e1 | hp' <;> rcases List.mem_cons.1 hq with e2 | hq'
    · rw [e1, e2]
    · have := h3.lt_high hP hq'
      subst e1
      rw [← he, highOf_eq h1] at this
      exact (Bd.lt_irrefl this).elim
    · have := h3.lt_high hP hp'
      subst e2
      rw [he, highOf_eq h1] at this
      exact (Bd.lt_irrefl this).elim
    · exact ih h3 hp' hq'

/-- The groups of a level do not overlap. -/
theorem WF.group_unique (w : WF cfg s H gr) {i : Nat} (hi : i ≤ H) {G1 G2 G1' G2' : List Grp} {g g' : Grp} {x : K}
    (h : gr i = G1 ++ g :: G2) (h' : gr i = G1' ++ g' :: G2')
    (h1 : (endB s.heap (flat G1)).leKey x) (h2 : (hiB (highOf s.heap (lastOf g))).gtKey x)
    (h3 : (endB s.heap (flat G1')).leKey x) (h4 : (hiB (highOf s.heap (lastOf g'))).gtKey x) :
    G1 = G1' ∧ g = g' ∧ G2 = G2' := by
  have key : ∀ {G1 G1' G2' C : List Grp} {g : Grp}, gr i = G1' ++ G2' → G1' = G1 ++ g :: C →
      (hiB (highOf s.heap (lastOf g))).gtKey x → (endB s.heap (flat G1')).leKey x → False := by
    intro G1 G1' G2' C g hg hG g1 g2
    have hc := w.chain i hi
    rw [hg, flat_append, Chain.append] at hc
    obtain ⟨m, c1, -⟩ := hc
    rw [← c1.endB_eq] at g2
    rw [hG, show G1 ++ g :: C = (G1 ++ [g]) ++ C by simp, flat_append, Chain.append] at c1
    obtain ⟨m', d1, d2⟩ := c1
    have := groups_end d1
    simp only [List.map_append, List.map_cons, List.map_nil, List.getLast?_append,
      List.getLast?_singleton, Option.or] at this
    rw [← this] at g1
    exact Bd.not_gt_le (Bd.gtKey_of_lt' g1 (d2.le_end (fun _ _ _ h => h.lt))) g2
  have hh := h
  rw [h'] at hh
  rcases List.append_eq_append_iff.1 hh with ⟨a, e1, e2⟩ | ⟨a, e1, e2⟩
  · cases a with
    | nil =>
      simp at e1 e2
      exact ⟨e1, e2.1.symm, e2.2.symm⟩
    | cons y a =>
      simp only [List.cons_append, List.cons.injEq] at e2
      obtain ⟨rfl, -⟩ := e2
      exact (key (G1 := G1') h e1 h4 h1).elim
  · cases a with
    | nil =>
      simp at e1 e2
      exact ⟨e1.symm, e2.1, e2.2⟩
    | cons y a =>
      simp only [List.cons_append, List.cons.injEq] at e2
      obtain ⟨rfl, -⟩ := e2
      exact (key (G1 := G1) h' e1 h2 h3).elim

/-- Borders of a group and of its parts. -/
theorem WF.group_lt (w : WF cfg s H gr) {i : Nat} (hi : i ≤ H) {G1 G2 : List Grp} {c q : Ptr} {A B : List Ptr}
    (hg : gr i = G1 ++ (c, A ++ q :: B) :: G2) :
    (endB s.heap (flat G1)).lt (hiB (highOf s.heap (lastOf (c, A)))) ∧
    (hiB (highOf s.heap (lastOf (c, A)))).lt (hiB (highOf s.heap (lastOf (c, A ++ q :: B)))) := by
  have hP : ∀ lo (n : Node K V) nx, PageAt cfg i lo n nx → lo.lt (hiB n.high) := fun _ _ _ h => h.lt
  have hc := w.chain i hi
  rw [hg, flat_append, Chain.append] at hc
  obtain ⟨m, c1, c2⟩ := hc
  rw [← c1.endB_eq]
  have e : flat ((c, A ++ q :: B) :: G2) = flat [(c, A)] ++ (q :: B ++ flat G2) := by simp
  rw [e, Chain.append] at c2
  obtain ⟨m', d1, d2⟩ := c2
  have hm' := groups_end d1
  simp at hm'
  constructor
  · refine d1.lt_high hP ?_
    simpa using lastOf_mem (c, A)
  · rw [← hm', lastOf_append]
    rw [Chain.append] at d2
    obtain ⟨m'', f1, -⟩ := d2
    exact f1.lt_high hP (lastOf_mem (q, B))

/-- The parent slot of a group with a pending tail `q :: B`, found by searching for the border of `q`. -/
theorem WF.attachOk (w : WF cfg s H gr) {i : Nat} (hi : i < H) {u : Ptr} {un : Node K V} {lo : Bd K}
    (hatu : At cfg s gr (i + 1) u un lo) {G1 G2 : List Grp} {c q : Ptr} {A B : List Ptr} {sep : K}
    (hg : gr i = G1 ++ (c, A ++ q :: B) :: G2) (hk : highOf s.heap (lastOf (c, A)) = some sep)
    (hlo : lo.leKey sep) (hhi : (hiB un.high).gtKey sep) :
    ∃ pos, un.searchRecord sep = .ok (.keyNotInserted, pos) ∧
      (un.fitsOne cfg (cfg.klen sep + cfg.ptrLen) = true →
        ∃ un', un.placeChild cfg (some sep) q pos = .ok un' ∧ NodeOk cfg true lo un' ∧ SameFrame un un' ∧
          WF cfg { s with heap := upd s.heap u un' } H (Function.update gr i (G1 ++ (c, A) :: (q, B) :: G2)) ∧
          contents { s with heap := upd s.heap u un' } (Function.update gr i (G1 ++ (c, A) :: (q, B) :: G2))
            = contents s gr) := by
  obtain ⟨b1, b2⟩ := w.group_lt (by omega) hg
  rw [hk] at b1 b2
  obtain ⟨T, rr, D, rc, p, h1, h2, h3, -, h5, h6, h7, h8⟩ := hatu.okS.search_inner sep hhi
  obtain ⟨G1', run, G2', lo', f1, f2, f3, f4⟩ := w.follow hi hatu h1
  have hstart : lo'.leKey sep := by
    rw [f4]
    by_cases hT : T = []
    · rw [if_pos hT]; exact hlo
    · rw [if_neg hT]
      obtain ⟨a, ha, hle⟩ := h7 hT
      rw [ha]; exact hle
  rw [f3.endB_eq] at hstart
  obtain ⟨e1, e2, e3⟩ := w.group_unique (by omega) (x := sep) f1 hg hstart
    (by rw [f2]; exact h6) (Bd.leKey_iff.2 (Or.inr b1)) (Bd.gtKey_iff.2 b2)
  have hc : rr.toPtr = c := congrArg Prod.fst e2
  have hlo' : lo'.lt (.key sep) := by rw [f3.endB_eq, e1]; exact b1
  have hT : T ≠ [] → ∃ a, rr.key = some a ∧ a < sep := by
    intro hT
    rw [f4, if_neg hT] at hlo'
    obtain ⟨a, ha, -⟩ := h7 hT
    rw [ha] at hlo'
    exact ⟨a, ha, hlo'⟩
  have hlosep : lo.lt (.key sep) := by
    by_cases hT' : T = []
    · rw [f4, if_pos hT'] at hlo'; exact hlo'
    · obtain ⟨a, ha, hlt⟩ := hT hT'
      obtain ⟨a', ha', hb, -⟩ := hatu.okS.inner.keyed rr (by
        rw [h1]
        cases T with
        | nil => exact absurd rfl hT'
        | cons t T => simp)
      rw [ha] at ha'
      cases ha'
      exact Bd.lt_trans hb hlt
  refine ⟨T.length, ?_, ?_⟩
  · rcases h8 with ⟨rfl, hne, hkey⟩ | ⟨rfl, -⟩
    · obtain ⟨a, ha, hlt⟩ := hT hne
      rw [hkey] at ha
      cases ha
      exact (lt_irrefl _ hlt).elim
    · exact h2
  · intro hfit
    obtain ⟨un', p1, p2, p3, p4⟩ := placeChild_ok (q := q) hatu.okS h1 hfit hT hlosep h6
    obtain ⟨w', c'⟩ := w.attach hi hatu h1 hc hg hk p2 p3.next p3.high p4
    exact ⟨un', p1, p2, p3, w', c'⟩

/-- Following sibling links reaches the page of the level that is responsible for the key. -/
theorem checkKeyRange_at (hb : cfg.blink = true) {i : Nat} {k : K} :
    ∀ (B : List Ptr) {p : Ptr} {n : Node K V} {lo : Bd K} (A : List Ptr), flat (gr i) = A ++ p :: B →
    s.heap p = some n → Chain (PageAt cfg i) s.heap .bot A lo (some p) → PageAt cfg i lo n B.head? →
    Chain (PageAt cfg i) s.heap (hiB n.high) B .top none → lo.leKey k →
    ∃ q m lo', At cfg s gr i q m lo' ∧ lo'.leKey k ∧ (hiB m.high).gtKey k ∧
      (∀ fuel, B.length + 1 ≤ fuel → checkKeyRange k fuel p s = .ok (q, s)) ∧
      ((q = p ∧ lo' = lo) ∨ (hiB n.high).le lo') := by
  intro B
  induction B with
  | nil =>
    intro p n lo A h1 h2 h3 h4 h5 hk
    have hgt : (hiB n.high).gtKey k := by
      have : hiB n.high = .top := h5
      rw [this]; trivial
    refine ⟨p, n, lo, ⟨A, [], h1, h2, h3, h4, h5⟩, hk, hgt, ?_, Or.inl ⟨rfl, rfl⟩⟩
    intro fuel hf
    exact checkKeyRange_ok h2 h4.1.notRemoved hgt (by omega)
  | cons r B ih =>
    intro p n lo A h1 h2 h3 h4 h5 hk
    rcases Bd.gt_or_le (hiB n.high) k with hgt | hle
    · refine ⟨p, n, lo, ⟨A, r :: B, h1, h2, h3, h4, h5⟩, hk, hgt, ?_, Or.inl ⟨rfl, rfl⟩⟩
      intro fuel hf
      exact checkKeyRange_ok h2 h4.1.notRemoved hgt (by omega)
    · obtain ⟨m, g1, g2, g3⟩ := h5
      have hc : Chain (PageAt cfg i) s.heap .bot (A ++ [p]) (hiB n.high) (some r) := by
        rw [Chain.append]
        exact ⟨lo, by simpa using h3, n, h2, by simpa using h4, rfl⟩
      obtain ⟨q, m', lo', a1, a2, a3, a4, a5⟩ := ih (p := r) (n := m) (lo := hiB n.high) (A ++ [p]) (by simp [h1]) g1 hc
        (by simpa using g2) g3 hle
      refine ⟨q, m', lo', a1, a2, a3, ?_, Or.inr ?_⟩
      swap
      · rcases a5 with ⟨-, rfl⟩ | a5
        · exact Bd.le_refl' _
        · exact Bd.le_trans' (Or.inr g2.lt) a5
      intro fuel hf
      obtain ⟨f, rfl⟩ : ∃ f, fuel = f + 1 := ⟨fuel - 1, by omega⟩
      have hne : ¬ (n.removed = false ∧ n.compHighKey k = true) := by
        rintro ⟨-, h⟩
        exact Bd.not_gt_le ((compHighKey_iff (n := n) (k := k)).1 h) hle
      have hnx : n.next = some r := h4.2 (by simp [Node.hasNext, hb])
      unfold checkKeyRange
      rw [M.bind_ok (M.load_ok h2), if_neg hne, hnx]
      exact a4 f (by simp at hf; omega)

theorem At.moveRight (hb : cfg.blink = true) {i : Nat} {k : K} {p : Ptr} {n : Node K V} {lo : Bd K}
    (h : At cfg s gr i p n lo) (hk : lo.leKey k) :
    ∃ q m lo', At cfg s gr i q m lo' ∧ lo'.leKey k ∧ (hiB m.high).gtKey k ∧
      (∀ fuel, (flat (gr i)).length ≤ fuel → checkKeyRange k fuel p s = .ok (q, s)) ∧
      ((q = p ∧ lo' = lo) ∨ (hiB n.high).le lo') := by
  obtain ⟨A, B, h1, h2, h3, h4, h5⟩ := h
  obtain ⟨q, m, lo', a1, a2, a3, a4, a5⟩ := checkKeyRange_at hb B A h1 h2 h3 h4 h5 hk
  refine ⟨q, m, lo', a1, a2, a3, fun fuel hf => a4 fuel ?_, a5⟩
  rw [h1] at hf
  simp at hf
  omega

/-- The stack of a descent, as seen from a page of level `i - 1` covering `[lo, hi)`: pages of the levels above
whose ranges are nested. -/
def Path (cfg : Cfg K) (s : St K V) (gr : Nat → List Grp) (H : Nat) : Nat → Bd K → Bd K → List Ptr → Prop
  | i, _, _, [] => i = H + 1
  | i, lo, hi, p :: st => i ≤ H ∧ ∃ n lo', At cfg s gr i p n lo' ∧ lo'.le lo ∧ hi.le (hiB n.high) ∧
      Path cfg s gr H (i + 1) lo' (hiB n.high) st

theorem Path.transfer {s' : St K V} {gr' : Nat → List Grp} (w' : WF cfg s' H gr') {st : List Ptr} :
    ∀ {i : Nat} {lo hi : Bd K}, Path cfg s gr H i lo hi st →
    (∀ j, i ≤ j → j ≤ H → flat (gr' j) = flat (gr j) ∧ ∀ p ∈ flat (gr j), s'.heap p = s.heap p) →
    Path cfg s' gr' H i lo hi st := by
  induction st with
  | nil => intro i lo hi h _; exact h
  | cons p st ih =>
    intro i lo hi h hh
    obtain ⟨h0, n, lo', h1, h2, h3, h4⟩ := h
    obtain ⟨e1, e2⟩ := hh i (le_refl _) h0
    refine ⟨h0, n, lo', h1.transfer w' h0 e1 (fun q hq => by simp only [highOf, e2 q hq]) ?_, h2, h3,
      ih h4 (fun j hj hj' => hh j (by omega) hj')⟩
    rw [e2 p h1.mem]; exact h1.heap

end wf
end BT
