import Verif.Smo2
import Mathlib.Logic.Function.Basic
import Mathlib.Data.List.Nodup

/-!
# Well-formed trees

A tree is described level by level (level `0` = leaves, level `H` = root).  A level is a list of groups
`(c, run)`: `c` is a page that some parent slot points to, `run` are pages right of `c` that have been
split off but are not (yet) known to the parent level.  Flattening the groups gives the level from left
to right.
-/

set_option linter.unusedSectionVars false

namespace BT
variable {K V : Type} [LinearOrder K]

abbrev Heap (K V : Type) := Ptr → Option (Node K V)
abbrev Grp := Ptr × List Ptr

/-- overwrite one page -/
def upd (h : Heap K V) (p : Ptr) (n : Node K V) : Heap K V := fun q => if q = p then some n else h q
/-- drop one page -/
def del (h : Heap K V) (p : Ptr) : Heap K V := fun q => if q = p then none else h q

@[simp] theorem upd_same (h : Heap K V) (p n) : upd h p n p = some n := by simp [upd]
theorem upd_other (h : Heap K V) {p q n} (hne : q ≠ p) : upd h p n q = h q := by simp [upd, hne]
@[simp] theorem del_same (h : Heap K V) (p) : del h p p = none := by simp [del]
theorem del_other (h : Heap K V) {p q} (hne : q ≠ p) : del h p q = h q := by simp [del, hne]

def highOf (h : Heap K V) (p : Ptr) : Option K := (h p).bind Node.high
def slotsOf (h : Heap K V) (p : Ptr) : List (Ptr × Option K) :=
  match h p with
  | some n => slots n.recs n.high
  | none => []
def pairsOf (h : Heap K V) (p : Ptr) : List (K × V) :=
  match h p with
  | some n => pairs n.recs
  | none => []

theorem highOf_eq {h : Heap K V} {p n} (hp : h p = some n) : highOf h p = n.high := by simp [highOf, hp]
theorem slotsOf_eq {h : Heap K V} {p n} (hp : h p = some n) : slotsOf h p = slots n.recs n.high := by
  simp [slotsOf, hp]
theorem pairsOf_eq {h : Heap K V} {p n} (hp : h p = some n) : pairsOf h p = pairs n.recs := by
  simp [pairsOf, hp]

/-- All pages of a level, left to right. -/
def flat (G : List Grp) : List Ptr := G.flatMap (fun g => g.1 :: g.2)
/-- Rightmost page of a group. -/
def lastOf (g : Grp) : Ptr := g.2.getLastD g.1

@[simp] theorem flat_nil : flat [] = [] := rfl
@[simp] theorem flat_cons (g : Grp) (G) : flat (g :: G) = g.1 :: (g.2 ++ flat G) := by simp [flat]
@[simp] theorem flat_append (A B : List Grp) : flat (A ++ B) = flat A ++ flat B := by simp [flat]

theorem lastOf_mem (g : Grp) : lastOf g ∈ g.1 :: g.2 := by
  unfold lastOf
  cases h : g.2 with
  | nil => simp
  | cons x xs => simp [List.getLastD]

theorem lastOf_append (c : Ptr) (A B : List Ptr) (q : Ptr) : lastOf (c, A ++ q :: B) = lastOf (q, B) := by
  unfold lastOf
  dsimp only
  induction A generalizing c with
  | nil => simp only [List.nil_append, List.getLastD_cons]
  | cons a A ih => rw [List.cons_append, List.getLastD_cons]; exact ih a

theorem lastOf_nil (c : Ptr) : lastOf (c, []) = c := rfl

/-- `L` is a left-to-right run of pages covering `[lo, hi)`; the page after it is `e`. -/
def Chain (P : Bd K → Node K V → Option Ptr → Prop) (h : Heap K V) :
    Bd K → List Ptr → Bd K → Option Ptr → Prop
  | lo, [], hi, _ => lo = hi
  | lo, p :: ps, hi, e => ∃ n, h p = some n ∧ P lo n (ps.head?.or e) ∧ Chain P h (hiB n.high) ps hi e

section chain
variable {P : Bd K → Node K V → Option Ptr → Prop} {h h' : Heap K V}

theorem Chain.append {A B : List Ptr} {lo hi : Bd K} {e : Option Ptr} :
    Chain P h lo (A ++ B) hi e ↔ ∃ m, Chain P h lo A m (B.head?.or e) ∧ Chain P h m B hi e := by
  induction A generalizing lo with
  | nil => simp [Chain]
  | cons p ps ih =>
    have hhead : ((ps ++ B).head?.or e) = (ps.head?.or (B.head?.or e)) := by
      cases ps <;> simp
    simp only [List.cons_append, Chain, ih, hhead]
    constructor
    · rintro ⟨n, h1, h2, m, h3, h4⟩
      exact ⟨m, ⟨n, h1, h2, h3⟩, h4⟩
    · rintro ⟨m, ⟨n, h1, h2, h3⟩, h4⟩
      exact ⟨n, h1, h2, m, h3, h4⟩

theorem Chain.congr {L : List Ptr} {lo hi : Bd K} {e : Option Ptr} (hc : Chain P h lo L hi e)
    (hh : ∀ p ∈ L, h' p = h p) : Chain P h' lo L hi e := by
  induction L generalizing lo with
  | nil => exact hc
  | cons p ps ih =>
    obtain ⟨n, h1, h2, h3⟩ := hc
    exact ⟨n, by rw [hh p (by simp), h1], h2, ih h3 (fun q hq => hh q (by simp [hq]))⟩

theorem Chain.mem {L : List Ptr} {lo hi : Bd K} {e : Option Ptr} (hc : Chain P h lo L hi e) {p : Ptr}
    (hp : p ∈ L) : ∃ n lo' nx, h p = some n ∧ P lo' n nx := by
  induction L generalizing lo with
  | nil => cases hp
  | cons q ps ih =>
    obtain ⟨n, h1, h2, h3⟩ := hc
    rcases List.mem_cons.1 hp with rfl | hp
    · exact ⟨n, lo, _, h1, h2⟩
    · exact ih h3 hp

/-- Replace an inner part of a chain. -/
theorem Chain.replace {A X X' B : List Ptr} {lo hi : Bd K} {e : Option Ptr}
    (hc : Chain P h lo (A ++ X ++ B) hi e)
    (hhd : X'.head? = X.head?) (hne : X ≠ [])
    (hX : ∀ m m', Chain P h lo A m ((X ++ B).head?.or e) → Chain P h m X m' (B.head?.or e) →
      Chain P h' m X' m' (B.head?.or e))
    (hA : ∀ p ∈ A, h' p = h p) (hB : ∀ p ∈ B, h' p = h p) : Chain P h' lo (A ++ X' ++ B) hi e := by
  rw [List.append_assoc, Chain.append] at hc ⊢
  obtain ⟨m, h1, h2⟩ := hc
  rw [Chain.append] at h2
  obtain ⟨m', h3, h4⟩ := h2
  refine ⟨m, ?_, ?_⟩
  · have : (X' ++ B).head?.or e = (X ++ B).head?.or e := by
      obtain ⟨x, xs, rfl⟩ := List.exists_cons_of_ne_nil hne
      cases X' <;> simp_all
    rw [this]
    exact h1.congr hA
  · rw [Chain.append]
    exact ⟨m', hX m m' h1 h3, h4.congr hB⟩

/-- Borders strictly increase along a chain. -/
theorem Chain.lt_high {L : List Ptr} {lo hi : Bd K} {e : Option Ptr} (hc : Chain P h lo L hi e)
    (hP : ∀ lo n nx, P lo n nx → lo.lt (hiB n.high)) {p : Ptr} (hp : p ∈ L) : lo.lt (hiB (highOf h p)) := by
  induction L generalizing lo with
  | nil => cases hp
  | cons q ps ih =>
    obtain ⟨n, h1, h2, h3⟩ := hc
    rcases List.mem_cons.1 hp with rfl | hp
    · rw [highOf_eq h1]; exact hP _ _ _ h2
    · exact Bd.lt_trans (hP _ _ _ h2) (ih h3 hp)

theorem Chain.nodup {L : List Ptr} {lo hi : Bd K} {e : Option Ptr} (hc : Chain P h lo L hi e)
    (hP : ∀ lo n nx, P lo n nx → lo.lt (hiB n.high)) : L.Nodup := by
  induction L generalizing lo with
  | nil => simp
  | cons q ps ih =>
    obtain ⟨n, h1, h2, h3⟩ := hc
    refine List.nodup_cons.2 ⟨?_, ih h3⟩
    intro hq
    have := h3.lt_high hP hq
    rw [highOf_eq h1] at this
    exact Bd.lt_irrefl this

/-- Where a chain ends is determined by its last page. -/
theorem Chain.end_eq {L : List Ptr} {lo hi : Bd K} {e : Option Ptr} (hc : Chain P h lo L hi e) :
    hi = match L.getLast? with | none => lo | some p => hiB (highOf h p) := by
  induction L generalizing lo with
  | nil => exact hc.symm
  | cons q ps ih =>
    obtain ⟨n, h1, h2, h3⟩ := hc
    have h4 := ih h3
    cases ps with
    | nil => rw [h4]; simp [highOf_eq h1]
    | cons x xs =>
      rw [List.getLast?_cons_cons]
      rw [List.getLast?_eq_some_getLast (by simp : x :: xs ≠ [])] at h4 ⊢
      exact h4

end chain

/-- A page of level `i` with its left border and its right neighbour. -/
def PageAt (cfg : Cfg K) (i : Nat) (lo : Bd K) (n : Node K V) (nx : Option Ptr) : Prop :=
  NodeOk cfg (decide (i ≠ 0)) lo n ∧ (n.hasNext cfg = true → n.next = nx)

theorem PageAt.lt {cfg : Cfg K} {i : Nat} {lo : Bd K} {n : Node K V} {nx : Option Ptr}
    (h : PageAt cfg i lo n nx) : lo.lt (hiB n.high) := h.1.lt

/-- The slots of the parent level list the attached pages of the child level with their borders. -/
def Kid (h : Heap K V) (U : List Ptr) (G : List Grp) : Prop :=
  U.flatMap (slotsOf h) = G.map (fun g => (g.1, highOf h (lastOf g)))

/-- The tree invariant. -/
structure WF (cfg : Cfg K) (s : St K V) (H : Nat) (gr : Nat → List Grp) : Prop where
  top : ∃ run, gr H = [(s.root, run)]
  chain : ∀ i ≤ H, Chain (PageAt cfg i) s.heap .bot (flat (gr i)) .top none
  kid : ∀ i < H, Kid s.heap (flat (gr (i + 1))) (gr i)
  disj : ∀ i ≤ H, ∀ j ≤ H, ∀ p, p ∈ flat (gr i) → p ∈ flat (gr j) → i = j
  alloc : ∀ p, s.heap p ≠ none ↔ ∃ i ≤ H, p ∈ flat (gr i)
  fresh : ∀ p, s.heap p ≠ none → p < s.fresh

/-- All live pairs, in key order. -/
def contents (s : St K V) (gr : Nat → List Grp) : List (K × V) := (flat (gr 0)).flatMap (pairsOf s.heap)

section wf
variable {cfg : Cfg K} {L : Nat} {s : St K V} {H : Nat} {gr : Nat → List Grp}

theorem WF.nodup (w : WF cfg s H gr) {i : Nat} (hi : i ≤ H) : (flat (gr i)).Nodup :=
  (w.chain i hi).nodup (fun _ _ _ h => h.lt)

theorem WF.get (w : WF cfg s H gr) {i : Nat} (hi : i ≤ H) {p : Ptr} (hp : p ∈ flat (gr i)) :
    ∃ n lo nx, s.heap p = some n ∧ PageAt cfg i lo n nx := (w.chain i hi).mem hp

theorem fst_mem_flat {G : List Grp} {g : Grp} (h : g ∈ G) : g.1 ∈ flat G := by
  simp only [flat, List.mem_flatMap]
  exact ⟨g, h, by simp⟩
theorem last_mem_flat {G : List Grp} {g : Grp} (h : g ∈ G) : lastOf g ∈ flat G := by
  simp only [flat, List.mem_flatMap]
  exact ⟨g, h, lastOf_mem g⟩

/-- Change one level in place: the pages `X` of level `i` become `X'`. -/
theorem WF.modify (w : WF cfg s H gr) {i : Nat} (hi : i ≤ H) {G' : List Grp} {A X X' B : List Ptr}
    {h' : Heap K V} {fresh' : Ptr}
    (hflat : flat (gr i) = A ++ X ++ B) (hflat' : flat G' = A ++ X' ++ B)
    (hhd : X'.head? = X.head?) (hne : X ≠ [])
    (hchain : ∀ m m', Chain (PageAt cfg i) s.heap .bot A m ((X ++ B).head?.or none) →
      Chain (PageAt cfg i) s.heap m X m' (B.head?.or none) → Chain (PageAt cfg i) h' m X' m' (B.head?.or none))
    (hX' : ∀ p ∈ X', p ∈ X ∨ s.heap p = none)
    (hX : ∀ p ∈ X, p ∉ X' → h' p = none)
    (hoff : ∀ p, p ∉ X → p ∉ X' → h' p = s.heap p)
    (hfresh : ∀ p, h' p ≠ none → p < fresh')
    (hpar : G'.map (fun g => (g.1, highOf h' (lastOf g))) = (gr i).map (fun g => (g.1, highOf s.heap (lastOf g))))
    (hkids : 0 < i → X'.flatMap (slotsOf h') = X.flatMap (slotsOf s.heap))
    (htop : i = H → ∃ run, G' = [(s.root, run)]) :
    WF cfg { heap := h', fresh := fresh', root := s.root } H (Function.update gr i G') := by
  have hnd := w.nodup hi
  rw [hflat] at hnd
  have hXin : ∀ p ∈ X, p ∈ flat (gr i) := by intro p hp; rw [hflat]; simp [hp]
  -- pages of other levels, or of `A`, `B`, are untouched
  have hsome : ∀ j ≤ H, ∀ p ∈ flat (gr j), s.heap p ≠ none := fun j hj p hp => (w.alloc p).2 ⟨j, hj, hp⟩
  have hother : ∀ j ≤ H, j ≠ i → ∀ p ∈ flat (gr j), h' p = s.heap p := by
    intro j hj hji p hp
    have h1 : p ∉ X := fun hx => hji (w.disj j hj i hi p hp (hXin p hx))
    refine hoff p h1 ?_
    intro hx'
    rcases hX' p hx' with hx | hx
    · exact h1 hx
    · exact hsome j hj p hp hx
  have hAX : ∀ p ∈ A, p ∉ X := by
    intro p hp hx
    rw [List.append_assoc] at hnd
    exact (List.disjoint_of_nodup_append hnd) hp (by simp [hx])
  have hBX : ∀ p ∈ B, p ∉ X := by
    intro p hp hx
    exact (List.disjoint_of_nodup_append hnd) (by simp [hx] : p ∈ A ++ X) hp
  have hAB : ∀ p, p ∈ A ∨ p ∈ B → h' p = s.heap p := by
    intro p hp
    have h1 : p ∉ X := by rcases hp with hp | hp; exact hAX p hp; exact hBX p hp
    have h2 : p ∈ flat (gr i) := by rw [hflat]; simp only [List.mem_append]; tauto
    refine hoff p h1 ?_
    intro hx'
    rcases hX' p hx' with hx | hx
    · exact h1 hx
    · exact hsome i hi p h2 hx
  have hnewchain : Chain (PageAt cfg i) h' .bot (flat G') .top none := by
    rw [hflat']
    have hc := w.chain i hi
    rw [hflat] at hc
    exact hc.replace hhd hne hchain (fun p hp => hAB p (Or.inl hp)) (fun p hp => hAB p (Or.inr hp))
  have hupd : ∀ j, j ≠ i → Function.update gr i G' j = gr j := fun j hj => Function.update_of_ne hj _ _
  have hupdi : Function.update gr i G' i = G' := Function.update_self _ _ _
  refine ⟨?_, ?_, ?_, ?_, ?_, hfresh⟩
  · by_cases h : i = H
    · obtain ⟨run, hrun⟩ := htop h
      subst h
      exact ⟨run, by rw [hupdi, hrun]⟩
    · rw [hupd H (fun h' => h h'.symm)]
      exact w.top
  · intro j hj
    by_cases h : j = i
    · subst h
      rw [hupdi]
      exact hnewchain
    · rw [hupd j h]
      exact (w.chain j hj).congr (hother j hj h)
  · intro j hj
    have hk := w.kid j hj
    unfold Kid at hk ⊢
    by_cases h : j = i
    · subst h
      rw [hupdi, hupd (j + 1) (by omega), hpar, ← hk]
      have : ∀ p ∈ flat (gr (j + 1)), slotsOf h' p = slotsOf s.heap p := by
        intro p hp
        simp only [slotsOf, hother (j + 1) (by omega) (by omega) p hp]
      exact List.flatMap_congr this
    · rw [hupd j h]
      have hhigh : (gr j).map (fun g => (g.1, highOf h' (lastOf g)))
          = (gr j).map (fun g => (g.1, highOf s.heap (lastOf g))) := by
        apply List.map_congr_left
        intro g hg
        simp only [highOf, hother j (by omega) h _ (last_mem_flat hg)]
      by_cases h2 : j + 1 = i
      · subst h2
        rw [hupdi, hflat']
        rw [hflat] at hk
        dsimp only
        rw [hhigh, ← hk]
        simp only [List.flatMap_append]
        rw [hkids (by omega)]
        congr 1
        · congr 1
          apply List.flatMap_congr
          intro p hp
          simp only [slotsOf, hAB p (Or.inl hp)]
        · apply List.flatMap_congr
          intro p hp
          simp only [slotsOf, hAB p (Or.inr hp)]
      · rw [hupd (j + 1) h2]
        dsimp only
        rw [hhigh, ← hk]
        apply List.flatMap_congr
        intro p hp
        simp only [slotsOf, hother (j + 1) (by omega) h2 p hp]
  · -- levels stay disjoint
    have hnew : ∀ j ≤ H, ∀ p, p ∈ flat (Function.update gr i G' j) →
        (p ∈ flat (gr j)) ∨ (j = i ∧ s.heap p = none) := by
      intro j hj p hp
      by_cases h : j = i
      · subst h
        rw [hupdi, hflat'] at hp
        rw [hflat]
        simp only [List.mem_append] at hp ⊢
        rcases hp with (hp | hp) | hp
        · tauto
        · rcases hX' p hp with h | h <;> tauto
        · tauto
      · rw [hupd j h] at hp
        exact Or.inl hp
    intro j hj k hk p hpj hpk
    rcases hnew j hj p hpj with h1 | ⟨h1, h1'⟩ <;> rcases hnew k hk p hpk with h2 | ⟨h2, h2'⟩
    · exact w.disj j hj k hk p h1 h2
    · exact absurd h2' (hsome j hj p h1)
    · exact absurd h1' (hsome k hk p h2)
    · rw [h1, h2]
  · intro p
    constructor
    · intro hp
      by_cases hx' : p ∈ X'
      · exact ⟨i, hi, by rw [hupdi, hflat']; simp [hx']⟩
      · by_cases hx : p ∈ X
        · exact absurd (hX p hx hx') hp
        · dsimp only at hp
          rw [hoff p hx hx'] at hp
          obtain ⟨j, hj, hpj⟩ := (w.alloc p).1 hp
          refine ⟨j, hj, ?_⟩
          by_cases h : j = i
          · subst h
            rw [hupdi, hflat']
            rw [hflat] at hpj
            simp only [List.mem_append] at hpj ⊢
            tauto
          · rw [hupd j h]
            exact hpj
    · rintro ⟨j, hj, hp⟩
      by_cases h : j = i
      · subst h
        rw [hupdi] at hp
        obtain ⟨n, _, _, hn, _⟩ := hnewchain.mem hp
        simp [hn]
      · rw [hupd j h] at hp
        dsimp only
        rw [hother j hj h p hp]
        exact hsome j hj p hp

/-- Effect of `WF.modify` on the contents. -/
theorem WF.modify_contents (w : WF cfg s H gr) {i : Nat} (hi : i ≤ H) {G' : List Grp} {A X X' B : List Ptr}
    {h' : Heap K V} {fresh' : Ptr}
    (hflat : flat (gr i) = A ++ X ++ B) (hflat' : flat G' = A ++ X' ++ B)
    (hX' : ∀ p ∈ X', p ∈ X ∨ s.heap p = none)
    (hoff : ∀ p, p ∉ X → p ∉ X' → h' p = s.heap p)
    (hpairs : i = 0 → X'.flatMap (pairsOf h') = X.flatMap (pairsOf s.heap)) :
    contents { heap := h', fresh := fresh', root := s.root } (Function.update gr i G') = contents s gr := by
  have hnd := w.nodup hi
  rw [hflat] at hnd
  have hsome : ∀ j ≤ H, ∀ p ∈ flat (gr j), s.heap p ≠ none := fun j hj p hp => (w.alloc p).2 ⟨j, hj, hp⟩
  have hoff' : ∀ j ≤ H, ∀ p ∈ flat (gr j), p ∉ X → h' p = s.heap p := by
    intro j hj p hp hx
    refine hoff p hx ?_
    intro hx'
    rcases hX' p hx' with h | h
    · exact hx h
    · exact hsome j hj p hp h
  unfold contents
  by_cases h : i = 0
  · subst h
    rw [Function.update_self, hflat', hflat]
    simp only [List.flatMap_append]
    rw [hpairs rfl]
    congr 1
    · congr 1
      apply List.flatMap_congr
      intro p hp
      have : p ∉ X := fun hx => by
        rw [List.append_assoc] at hnd
        exact (List.disjoint_of_nodup_append hnd) hp (by simp [hx])
      simp only [pairsOf, hoff' 0 hi p (by rw [hflat]; simp [hp]) this]
    · apply List.flatMap_congr
      intro p hp
      have : p ∉ X := fun hx =>
        (List.disjoint_of_nodup_append hnd) (by simp [hx] : p ∈ A ++ X) hp
      simp only [pairsOf, hoff' 0 hi p (by rw [hflat]; simp [hp]) this]
  · rw [Function.update_of_ne (fun h' => h h'.symm)]
    apply List.flatMap_congr
    intro p hp
    have : p ∉ X := fun hx => h (w.disj i hi 0 (by omega) p (by rw [hflat]; simp [hx]) hp)
    simp only [pairsOf, hoff' 0 (by omega) p hp this]

end wf

end BT
