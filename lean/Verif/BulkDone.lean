import Verif.BulkTree
import Verif.SpecBulk
import Verif.Shape

/-!
# Bulkloading, complete: joining the partial trees, the upper levels, the tree invariant
-/

set_option linter.unusedSectionVars false

namespace BT
variable {K V : Type} [LinearOrder K]

section
variable {cfg : Cfg K} {bc : BulkCfg}

theorem NodesOf.getLast {A : Lvl K V} {x : List (Rec K V) × Ptr} {a : List (K × Ptr)} (h : NodesOf (A ++ [x]) a) :
    ∃ y, a.getLast? = some y ∧ y.2 = x.2 := by
  unfold NodesOf at h
  have := congrArg List.getLast? h
  simp only [List.map_append, List.map_cons, List.map_nil, List.getLast?_append, List.getLast?_singleton, Option.some_or,
    List.getLast?_map] at this
  cases hg : a.getLast? with
  | none => rw [hg] at this; cases this
  | some y =>
    rw [hg] at this
    simp only [Option.map_some, Option.some.injEq, Prod.mk.injEq] at this
    exact ⟨y, rfl, this.2.symm⟩

theorem NodesOf.head {A : Lvl K V} {x : List (Rec K V) × Ptr} {a : List (K × Ptr)} (h : NodesOf (x :: A) a) :
    ∃ k as, a = (k, x.2) :: as := by
  unfold NodesOf at h
  cases a with
  | nil => simp at h
  | cons y as =>
    simp only [List.map_cons, List.cons.injEq, Prod.mk.injEq] at h
    exact ⟨y.1, as, by rw [h.1.2]⟩

theorem Grew.change {s0 s s' : St K V} {ps : List Ptr} (h : Grew s0 s ps) (hf : s'.fresh = s.fresh) (hr : s'.root = s.root)
    (hh : ∀ q, q ∉ ps → s'.heap q = s.heap q) : Grew s0 s' ps := by
  refine ⟨?_, by rw [hf]; exact h.le, by rw [hf]; exact h.pages, ?_, hr.trans h.root⟩
  · intro q hq
    by_cases hm : q ∈ ps
    · rw [hf]; exact (h.mem.1 hm).2
    · rw [hh q hm] at hq
      rw [hf]; exact h.below q hq
  · intro q hq
    rw [hh q (fun hm => absurd (h.mem.1 hm).1 (Nat.not_le.2 hq))]
    exact h.old q hq

theorem join_loop (hb : BulkRoomy cfg bc) {s0 : St K V} {fuel height : Nat} (hfu : height ≤ fuel) : ∀ (ess : List (List (K × V)))
    (ps : List (Nat × List (K × Ptr))) (Lss : List (List (Lvl K V))) (s : St K V) (ea : List (K × V)) (A : Lvl K V)
    (c : List (Rec K V)) (l : Ptr) (As : List (Lvl K V)), Parts cfg bc s ess ps Lss → (∀ x ∈ ps, x.1 ≤ height) →
    (∀ d ∈ ess, d.length < fuel) →
    Tower cfg bc s.heap ea ((A ++ [(c, l)]) :: As) → As.length + 1 = height →
    Grew s0 s (towerPages ((A ++ [(c, l)]) :: As) ++ partsPages Lss) →
    ∃ nodes s' LN Bs, bulkJoin cfg bc fuel height ps (some l) s = .ok (nodes, s') ∧
      Tower cfg bc s'.heap (ea ++ ess.flatten) ((A ++ [(c, l)] ++ LN) :: Bs) ∧ NodesOf LN nodes ∧
      nodes.length ≤ ess.flatten.length ∧ Grew s0 s' (towerPages ((A ++ [(c, l)] ++ LN) :: Bs)) ∧
      ess.length ≤ nodes.length := by
  intro ess
  induction ess with
  | nil =>
    intro ps Lss s ea A c l As hp _ _ t _ hg
    cases hp
    refine ⟨[], s, [], As, rfl, by simpa using t, rfl, by simp, by simpa using hg, by simp⟩
  | cons es ess ih =>
    intro ps Lss s ea A c l As hp hh hle t hlen hg
    cases hp with
    | @cons _ nodes Ls _ ps Lss h1 h2 h3 h4 =>
    have hLs1 : 1 ≤ Ls.length := by
      obtain ⟨L, rest, rfl, -⟩ := h1.nodes
      simp
    have hhL : Ls.length ≤ height := hh (Ls.length, nodes) (by simp)
    have hesf := hle es (by simp)
    obtain ⟨new, nodes1, s1, a1, a2, a3, a4, a5⟩ :=
      bulkAlign_ok hb fuel (height - Ls.length) s nodes Ls (by omega) hg.below h1
    obtain ⟨L, rest, hL, hn⟩ := a2.nodes
    rw [hL] at a2
    have hLne := Tower.ne h2 a2.tower
    obtain ⟨x, T, rfl⟩ := List.exists_cons_of_ne_nil hLne
    obtain ⟨d, r⟩ := x
    have hrl : rest.length = As.length := by
      have := congrArg List.length hL
      simp at this
      omega
    have hold : ∀ q, q ∈ towerPages ((A ++ [(c, l)]) :: As) ++ partsPages (Ls :: Lss) → s1.heap q = s.heap q :=
      fun q hq => a3.old q (hg.mem.1 hq).2
    have tA1 := t.congr (h' := s1.heap) (fun q hq => hold q (List.mem_append_left _ hq))
    have hg1 : Grew s0 s1 (towerPages ((A ++ [(c, l)]) :: As) ++ towerPages (((d, r) :: T) :: rest) ++ partsPages Lss) := by
      refine (hg.trans a3).perm ?_
      rw [← hL, towerPages_append, partsPages_cons]
      simp only [List.append_assoc]
      refine List.Perm.append_left _ ?_
      rw [← List.append_assoc (towerPages Ls)]
      exact List.perm_append_comm
    have hnd1 : (towerPages ((A ++ [(c, l)]) :: As) ++ towerPages (((d, r) :: T) :: rest)).Nodup :=
      hg1.nodup.sublist (List.sublist_append_left _ _)
    obtain ⟨s2, b1, b2, b3, b4, b5⟩ := linkVertical_ok hb (ea := ea) (et := es) As rest fuel s1 A T c d l r hrl.symm (by omega)
      tA1 a2.tower hnd1
    have hg2 : Grew s0 s2 (towerPages ((A ++ [(c, l)]) :: As) ++ towerPages (((d, r) :: T) :: rest) ++ partsPages Lss) := by
      refine hg1.change b3 b4 (fun q hq => b5 q (fun hm => hq ?_))
      exact List.mem_append_left _ (List.mem_append_left _ hm)
    have hg3 : Grew s0 s2 (towerPages (List.zipWith (· ++ ·) ((A ++ [(c, l)]) :: As) (((d, r) :: T) :: rest)) ++ partsPages Lss) := by
      refine hg2.perm (List.Perm.append_right _ (zip_pages ?_))
      simp [hrl]
    obtain ⟨T0, y, hT0⟩ := exists_last (l := (d, r) :: T) (by simp)
    obtain ⟨c', l'⟩ := y
    have hn' := hn
    rw [hT0] at hn'
    obtain ⟨z, hz1, hz2⟩ := hn'.getLast
    have hparts2 : Parts cfg bc s2 ess ps Lss := by
      refine h4.congr (fun q hq => ?_)
      have hqA : q ∉ towerPages ((A ++ [(c, l)]) :: As) := by
        intro hm
        have := hg1.nodup
        exact (List.disjoint_of_nodup_append this) (List.mem_append_left _ hm) hq
      rw [b5 q hqA]
      exact hold q (by rw [partsPages_cons]; simp only [List.mem_append]; tauto)
    simp only [List.zipWith_cons_cons] at b2 hg3
    have hzip : (A ++ [(c, l)]) ++ (d, r) :: T = (A ++ [(c, l)] ++ T0) ++ [(c', l')] := by
      rw [hT0]; simp
    rw [hzip] at b2 hg3
    obtain ⟨nodes2, s', LN, Bs, c1, c2, c3, c4, c5, c6⟩ := ih ps Lss s2 (ea ++ es) (A ++ [(c, l)] ++ T0) c' l'
      (List.zipWith (· ++ ·) As rest) hparts2 (fun x hx => hh x (by simp [hx])) (fun x hx => hle x (by simp [hx])) b2
      (by simp [hrl]; omega) hg3
    have hn1 := a2.nodes_ne h2
    refine ⟨nodes1 ++ nodes2, s', (d, r) :: T ++ LN, Bs, ?_, ?_, hn.append c3, ?_, ?_, by
      rw [List.length_cons, List.length_append]; omega⟩
    · unfold bulkJoin
      rw [M.bind_ok a1]
      have hlk : linkParts cfg fuel (some l) nodes1 s1 = .ok ((), s2) := by
        obtain ⟨k, as, hk⟩ := hn.head
        rw [hk]
        exact b1
      rw [M.bind_ok hlk, hz1]
      have hz2' : z.2 = l' := hz2
      simp only [hz2']
      rw [M.bind_ok c1]
      rfl
    · have e : A ++ [(c, l)] ++ ((d, r) :: T ++ LN) = A ++ [(c, l)] ++ T0 ++ [(c', l')] ++ LN := by
        rw [hT0]; simp
      rw [e]
      simpa using c2
    · rw [List.flatten_cons, List.length_append, List.length_append]
      omega
    · have e : A ++ [(c, l)] ++ ((d, r) :: T ++ LN) = A ++ [(c, l)] ++ T0 ++ [(c', l')] ++ LN := by
        rw [hT0]; simp
      rw [e]
      exact c5

theorem bulkJoin_ok (hb : BulkRoomy cfg bc) {s0 s : St K V} {fuel height : Nat} (hfu : height ≤ fuel) {ess : List (List (K × V))}
    {ps : List (Nat × List (K × Ptr))} {Lss : List (List (Lvl K V))} (hp : Parts cfg bc s ess ps Lss) (hne : ess ≠ [])
    (hh : ∀ x ∈ ps, x.1 ≤ height) (hle : ∀ d ∈ ess, d.length < fuel) (hg : Grew s0 s (partsPages Lss)) :
    ∃ nodes s' B, bulkJoin cfg bc fuel height ps none s = .ok (nodes, s') ∧ Part cfg bc s' ess.flatten nodes B ∧
      nodes.length ≤ ess.flatten.length ∧ Grew s0 s' (towerPages B) ∧ ess.length ≤ nodes.length := by
  cases hp with
  | nil => exact absurd rfl hne
  | @cons es nodes Ls ess ps Lss h1 h2 h3 h4 =>
    have hLs1 : 1 ≤ Ls.length := by
      obtain ⟨L, rest, rfl, -⟩ := h1.nodes
      simp
    have hhL : Ls.length ≤ height := hh (Ls.length, nodes) (by simp)
    have hesf := hle es (by simp)
    obtain ⟨new, nodes1, s1, a1, a2, a3, a4, a5⟩ :=
      bulkAlign_ok hb fuel (height - Ls.length) s nodes Ls (by omega) hg.below h1
    obtain ⟨L, rest, hL, hn⟩ := a2.nodes
    rw [hL] at a2
    have hLne := Tower.ne h2 a2.tower
    obtain ⟨T0, y, rfl⟩ := exists_last hLne
    obtain ⟨c', l'⟩ := y
    obtain ⟨z, hz1, hz2⟩ := hn.getLast
    have hg1 : Grew s0 s1 (towerPages ((T0 ++ [(c', l')]) :: rest) ++ partsPages Lss) := by
      refine (hg.trans a3).perm ?_
      rw [← hL, towerPages_append, partsPages_cons]
      rw [List.append_assoc]
      exact List.perm_append_comm
    have hparts1 : Parts cfg bc s1 ess ps Lss := by
      refine h4.congr (fun q hq => a3.old q (hg.mem.1 ?_).2)
      rw [partsPages_cons]
      exact List.mem_append_right _ hq
    have hrl : rest.length + 1 = height := by
      have := congrArg List.length hL
      simp at this
      omega
    obtain ⟨nodes2, s', LN, Bs, c1, c2, c3, c4, c5, c6⟩ := join_loop hb hfu ess ps Lss s1 es T0 c' l' rest hparts1
      (fun x hx => hh x (by simp [hx])) (fun x hx => hle x (by simp [hx])) a2.tower hrl hg1
    have hn1 := a2.nodes_ne h2
    refine ⟨nodes1 ++ nodes2, s', _, ?_, ⟨c2, _, _, rfl, hn.append c3⟩, ?_, c5, by
      rw [List.length_cons, List.length_append]; omega⟩
    · unfold bulkJoin
      rw [M.bind_ok a1]
      have hlk : linkParts cfg fuel none nodes1 s1 = .ok ((), s1) := rfl
      rw [M.bind_ok hlk, hz1]
      have hz2' : z.2 = l' := hz2
      simp only [hz2']
      rw [M.bind_ok c1]
      rfl
    · rw [List.flatten_cons, List.length_append, List.length_append]
      omega

theorem bulkTop_ok (hb : BulkRoomy cfg bc) {es : List (K × V)} (hes : es ≠ []) : ∀ (fuel : Nat) (s : St K V)
    (nodes : List (K × Ptr)) (Ls : List (Lvl K V)), nodes.length < fuel → Below s → Part cfg bc s es nodes Ls →
    ∃ new root s' c rest, bulkTop cfg bc fuel nodes s = .ok (root, s') ∧ Tower cfg bc s'.heap es (new ++ Ls) ∧
      new ++ Ls = [(c, root)] :: rest ∧ Grew s s' (towerPages new) ∧ (2 ≤ nodes.length → rest ≠ []) := by
  intro fuel
  induction fuel with
  | zero => intro s nodes Ls h; omega
  | succ f ih =>
    intro s nodes Ls hlen hbel h
    match nodes, hlen, h with
    | [], _, h => have := h.nodes_ne hes; simp at this
    | [x], _, h =>
      obtain ⟨L, rest, rfl, hn⟩ := h.nodes
      have hl := hn.length
      simp only [List.length_cons, List.length_nil] at hl
      obtain ⟨y, rfl⟩ := List.length_eq_one_iff.1 hl.symm
      refine ⟨[], x.2, s, y.1, rest, rfl, h.tower, ?_, Grew.refl hbel, by simp⟩
      unfold NodesOf at hn
      simp only [List.map_cons, List.map_nil, List.cons.injEq, Prod.mk.injEq, and_true] at hn
      rw [← hn.2]
      rfl
    | x :: y :: nodes, hlen, h =>
      unfold bulkTop
      obtain ⟨Lv, nodes1, s1, a1, a2, a3, a4⟩ := h.raise hb hbel hlen
      simp only [List.length_cons] at a4 hlen
      obtain ⟨new, root, s', c, rest, b1, b2, b3, b4, -⟩ := ih s1 nodes1 (Lv :: Ls) (by omega) a3.below a2
      refine ⟨new ++ [Lv], root, s', c, rest, ?_, by simpa using b2, by simpa using b3, ?_, ?_⟩
      · rw [M.bind_ok a1]
        exact b1
      · refine (a3.trans b4).perm ?_
        simp only [towerPages_append, towerPages_cons, towerPages_nil, List.append_nil]
        exact List.perm_append_comm
      · rintro - rfl
        obtain ⟨L, rest', rfl, -⟩ := h.nodes
        have := congrArg List.length b3
        simp at this
        omega

/-! ## From a tower to the tree invariant -/

/-- level `i`, counted from the leaves -/
def lev (Ls : List (Lvl K V)) (i : Nat) : Lvl K V := (Ls.reverse[i]?).getD []

theorem lev_lt {L : Lvl K V} {Ls : List (Lvl K V)} {i : Nat} (h : i < Ls.length) : lev (L :: Ls) i = lev Ls i := by
  unfold lev
  rw [List.reverse_cons, List.getElem?_append_left (by simpa using h)]

theorem lev_last {L : Lvl K V} {Ls : List (Lvl K V)} : lev (L :: Ls) Ls.length = L := by
  unfold lev
  rw [List.reverse_cons, List.getElem?_append_right (by simp)]
  simp

theorem lev_pages {Ls : List (Lvl K V)} {p : Ptr} : p ∈ towerPages Ls ↔ ∃ i < Ls.length, p ∈ lvlPages (lev Ls i) := by
  induction Ls with
  | nil => simp
  | cons L Ls ih =>
    rw [towerPages_cons, List.mem_append, ih]
    constructor
    · rintro (h | ⟨i, hi, h⟩)
      · exact ⟨Ls.length, by simp, by rw [lev_last]; exact h⟩
      · exact ⟨i, by simp; omega, by rw [lev_lt hi]; exact h⟩
    · rintro ⟨i, hi, h⟩
      rcases Nat.lt_or_ge i Ls.length with hl | hl
      · rw [lev_lt hl] at h
        exact Or.inr ⟨i, hl, h⟩
      · have : i = Ls.length := by simp at hi; omega
        subst this
        rw [lev_last] at h
        exact Or.inl h

theorem lev_disj {Ls : List (Lvl K V)} (hnd : (towerPages Ls).Nodup) : ∀ i < Ls.length, ∀ j < Ls.length, ∀ p,
    p ∈ lvlPages (lev Ls i) → p ∈ lvlPages (lev Ls j) → i = j := by
  induction Ls with
  | nil => intro i hi; simp at hi
  | cons L Ls ih =>
    rw [towerPages_cons] at hnd
    have hd := List.disjoint_of_nodup_append hnd
    intro i hi j hj p hpi hpj
    rcases Nat.lt_or_ge i Ls.length with h1 | h1 <;> rcases Nat.lt_or_ge j Ls.length with h2 | h2
    · rw [lev_lt h1] at hpi
      rw [lev_lt h2] at hpj
      exact ih (hnd.sublist (List.sublist_append_right _ _)) i h1 j h2 p hpi hpj
    · exfalso
      have : j = Ls.length := by simp at hj; omega
      subst this
      rw [lev_lt h1] at hpi
      rw [lev_last] at hpj
      exact hd hpj (lev_pages.2 ⟨i, h1, hpi⟩)
    · exfalso
      have : i = Ls.length := by simp at hi; omega
      subst this
      rw [lev_last] at hpi
      rw [lev_lt h2] at hpj
      exact hd hpi (lev_pages.2 ⟨j, h2, hpj⟩)
    · simp at hi hj; omega

/-- What holds on every level. -/
structure LevelOk (cfg : Cfg K) (bc : BulkCfg) (h : Heap K V) (inner : Bool) (L : Lvl K V) : Prop where
  fit : ∀ x ∈ L, Fit cfg bc inner x.1
  layer : LayerAt cfg inner h L
  sorted : KSorted (L.flatMap Prod.fst)
  ne : L ≠ []
  pays : ∀ x ∈ L, ∀ r ∈ x.1, if inner then ∃ p, r.pay = .ptr p else ∃ v, r.pay = .val v

theorem upRecs_sorted {b : Bool} {L : Lvl K V} (hf : ∀ x ∈ L, Fit cfg bc b x.1) (hs : KSorted (L.flatMap Prod.fst)) :
    KSorted (upRecs L) := by
  induction L with
  | nil => exact List.Pairwise.nil
  | cons x L ih =>
    have hs' := hs
    rw [List.flatMap_cons, KSorted, List.pairwise_append] at hs'
    refine List.Pairwise.cons ?_ (ih (fun y hy => hf y (by simp [hy])) hs'.2.1)
    intro u hu a ha b hb
    obtain ⟨y, hy, rfl⟩ := List.mem_map.1 hu
    dsimp only at ha hb
    obtain ⟨r, rs, hr⟩ := List.exists_cons_of_ne_nil (hf x (by simp)).ne
    obtain ⟨q, qs, hq⟩ := List.exists_cons_of_ne_nil (hf y (by simp [hy])).ne
    rw [hr] at ha
    rw [hq] at hb
    exact hs'.2.2 r (by rw [hr]; simp) q (List.mem_flatMap.2 ⟨y, hy, by rw [hq]; simp⟩) a ha b hb

theorem Tower.levels {h : Heap K V} {es : List (K × V)} (hes : es ≠ []) (hs : Spec.Ascending es) : ∀ {Ls : List (Lvl K V)},
    Tower cfg bc h es Ls → (∀ i < Ls.length, LevelOk cfg bc h (decide (i ≠ 0)) (lev Ls i)) ∧
      (lev Ls 0).flatMap Prod.fst = es.map (fun e => erec (e.1, .val e.2)) ∧
      ∀ i, i + 1 < Ls.length → (lev Ls (i + 1)).flatMap Prod.fst = upRecs (lev Ls i)
  | [], t => t.elim
  | [L], t => by
    have h0 : lev [L] 0 = L := rfl
    refine ⟨?_, by rw [h0]; exact t.1, by intro i hi; simp at hi⟩
    intro i hi
    have : i = 0 := by simpa using hi
    subst this
    rw [h0]
    refine ⟨t.2.1, t.2.2, ?_, Tower.ne hes t, ?_⟩
    · rw [t.1]
      unfold KSorted
      rw [List.pairwise_map]
      refine hs.imp ?_
      intro x y hxy a ha b hb
      simp only [erec, Option.some.injEq] at ha hb
      subst ha; subst hb; exact hxy
    · intro x hx r hr
      have hm : r ∈ L.flatMap Prod.fst := List.mem_flatMap.2 ⟨x, hx, hr⟩
      rw [t.1] at hm
      obtain ⟨e, -, rfl⟩ := List.mem_map.1 hm
      exact ⟨e.2, rfl⟩
  | L :: L' :: Ls, t => by
    obtain ⟨i1, i2, i3⟩ := Tower.levels hes hs t.2.2.2
    have hlast : lev (L :: L' :: Ls) (Ls.length + 1) = L := lev_last (Ls := L' :: Ls)
    have hbelow : lev (L :: L' :: Ls) Ls.length = L' := by
      rw [lev_lt (by simp)]; exact lev_last
    have hbl : lev (L' :: Ls) Ls.length = L' := lev_last
    refine ⟨?_, ?_, ?_⟩
    · intro i hi
      rcases Nat.lt_or_ge i (L' :: Ls).length with h1 | h1
      · rw [lev_lt h1]; exact i1 i h1
      · have : i = Ls.length + 1 := by simp at hi h1; omega
        subst this
        rw [hlast]
        have hlow := i1 Ls.length (by simp)
        rw [hbl] at hlow
        refine ⟨by simpa using t.2.1, by simpa using t.2.2.1, ?_, Tower.ne hes t, ?_⟩
        · rw [t.1]; exact upRecs_sorted hlow.fit hlow.sorted
        · intro x hx r hr
          have hm : r ∈ L.flatMap Prod.fst := List.mem_flatMap.2 ⟨x, hx, hr⟩
          rw [t.1] at hm
          obtain ⟨e, -, rfl⟩ := List.mem_map.1 hm
          simp
    · rw [lev_lt (by simp)]; exact i2
    · intro i hi
      rcases Nat.lt_or_ge (i + 1) (L' :: Ls).length with h1 | h1
      · rw [lev_lt (Ls := L' :: Ls) h1, lev_lt (Ls := L' :: Ls) (Nat.lt_of_succ_lt h1)]; exact i3 i h1
      · have : i = Ls.length := by simp at hi h1; omega
        subst this
        rw [hlast, hbelow]
        exact t.1

theorem flatMap_hdKey {b : Bool} {L : Lvl K V} (hf : ∀ x ∈ L, Fit cfg bc b x.1) :
    hdKey (L.flatMap Prod.fst) none = lvlKey L := by
  cases L with
  | nil => rfl
  | cons x L =>
    obtain ⟨r, rs, hr⟩ := List.exists_cons_of_ne_nil (hf x (by simp)).ne
    simp [List.flatMap_cons, hr, hdKey, lvlKey]

theorem layer_slots {h : Heap K V} {b : Bool} {L : Lvl K V} (hf : ∀ x ∈ L, Fit cfg bc b x.1) (hl : LayerAt cfg b h L) :
    (lvlPages L).flatMap (slotsOf h) = slots (L.flatMap Prod.fst) none := by
  induction L with
  | nil => rfl
  | cons x L ih =>
    have hf' : ∀ y ∈ L, Fit cfg bc b y.1 := fun y hy => hf y (by simp [hy])
    rw [lvlPages_cons, List.flatMap_cons, List.flatMap_cons, ih hf' hl.2, slots_append, slotsOf_eq hl.1, flatMap_hdKey hf']
    rfl

theorem layer_pairs {h : Heap K V} {b : Bool} {L : Lvl K V} (hl : LayerAt cfg b h L) :
    (lvlPages L).flatMap (pairsOf h) = pairs (L.flatMap Prod.fst) := by
  induction L with
  | nil => rfl
  | cons x L ih =>
    rw [lvlPages_cons, List.flatMap_cons, List.flatMap_cons, ih hl.2, pairs_append, pairsOf_eq hl.1]
    rfl

theorem upRecs_slots {h : Heap K V} {b : Bool} {L : Lvl K V} (hl : LayerAt cfg b h L) :
    slots (upRecs L) none = L.map (fun x => (x.2, highOf h x.2)) := by
  induction L with
  | nil => rfl
  | cons x L ih =>
    have : upRecs (x :: L) = ⟨hdKey x.1 none, .ptr x.2, false⟩ :: upRecs L := rfl
    rw [this, slots_cons, ih hl.2, List.map_cons, highOf_eq hl.1]
    congr 1
    show (x.2, hdKey (upRecs L) none) = (x.2, lvlKey L)
    cases L <;> rfl

theorem layer_chain (hb : BulkRoomy cfg bc) {h : Heap K V} {i : Nat} {L : Lvl K V} (hf : ∀ x ∈ L, Fit cfg bc (decide (i ≠ 0)) x.1)
    (hl : LayerAt cfg (decide (i ≠ 0)) h L) (hs : KSorted (L.flatMap Prod.fst))
    (hp : ∀ x ∈ L, ∀ r ∈ x.1, if decide (i ≠ 0) = true then ∃ p, r.pay = .ptr p else ∃ v, r.pay = .val v) :
    ∀ lo, L ≠ [] → (lo = .bot ∨ lo = hiB (lvlKey L)) → Chain (PageAt cfg i) h lo (lvlPages L) .top none := by
  induction L with
  | nil => intro lo h; exact absurd rfl h
  | cons x L ih =>
    intro lo _ hlo
    have hfx := hf x (by simp)
    have hf' : ∀ y ∈ L, Fit cfg bc (decide (i ≠ 0)) y.1 := fun y hy => hf y (by simp [hy])
    rw [List.flatMap_cons, KSorted, List.pairwise_append] at hs
    obtain ⟨hs1, hs2, hs3⟩ := hs
    obtain ⟨r0, rs, hr0⟩ := List.exists_cons_of_ne_nil hfx.ne
    obtain ⟨k0, hk0⟩ := hfx.keyed r0 (by rw [hr0]; simp)
    have hhd : hdKey x.1 none = some k0 := by rw [hr0]; exact hk0
    have hlo' : lo = .bot ∨ lo = .key k0 := by
      rcases hlo with h | h
      · exact Or.inl h
      · right; rw [h]; show hiB (hdKey x.1 none) = _; rw [hhd]; rfl
    -- keys of this page lie below the first key of the next one
    have hgt : ∀ r ∈ x.1, ∀ a, r.key = some a → (hiB (lvlKey L)).gtKey a := by
      intro r hr a ha
      cases L with
      | nil => trivial
      | cons y L =>
        obtain ⟨q, qs, hq⟩ := List.exists_cons_of_ne_nil (hf' y (by simp)).ne
        obtain ⟨b, hb'⟩ := (hf' y (by simp)).keyed q (by rw [hq]; simp)
        have : lvlKey (y :: L) = some b := by show hdKey y.1 none = _; rw [hq]; exact hb'
        rw [this]
        exact hs3 r hr q (List.mem_flatMap.2 ⟨y, by simp, by rw [hq]; simp⟩) a ha b hb'
    have hgt0 : ∀ r ∈ rs, ∀ a, r.key = some a → k0 < a := by
      intro r hr a ha
      rw [hr0] at hs1
      exact (List.pairwise_cons.1 hs1).1 r hr k0 hk0 a ha
    have hle : ∀ r ∈ x.1, ∀ a, r.key = some a → lo.leKey a := by
      intro r hr a ha
      rcases hlo' with rfl | rfl
      · trivial
      · rw [hr0] at hr
        rcases List.mem_cons.1 hr with rfl | hr
        · rw [hk0] at ha; cases ha; exact le_refl _
        · exact le_of_lt (hgt0 r hr a ha)
    have hlt : lo.lt (hiB (lvlKey L)) := by
      have hm : r0 ∈ x.1 := by rw [hr0]; simp
      exact Bd.lt_of_leKey_gtKey (hle r0 hm k0 hk0) (hgt r0 hm k0 hk0)
    refine ⟨bulkPage cfg (decide (i ≠ 0)) x.1 (lvlKey L) (lvlPtr L), hl.1, ⟨⟨rfl, rfl, hlt, ?_, (bulkPage_size hb hfx _ _).1⟩, ?_⟩, ?_⟩
    · have hpx := hp x (by simp)
      cases hi : decide (i ≠ 0)
      · rw [hi] at hpx
        simp only [Bool.false_eq_true, if_false] at hpx ⊢
        exact ⟨hs1, fun r hr => by obtain ⟨a, ha⟩ := hfx.keyed r hr; exact ⟨a, ha, hle r hr a ha, hgt r hr a ha⟩, hpx⟩
      · rw [hi] at hpx
        simp only [if_true] at hpx ⊢
        refine ⟨hfx.ne, ?_, ?_, ?_, hpx, hfx.live⟩
        · show KSorted x.1.tail
          rw [hr0] at hs1 ⊢
          exact (List.pairwise_cons.1 hs1).2
        · intro r hr
          have hr' : r ∈ rs := by
            have : r ∈ x.1.tail := hr
            rw [hr0] at this
            exact this
          have hrx : r ∈ x.1 := by rw [hr0]; simp [hr']
          obtain ⟨a, ha⟩ := hfx.keyed r hrx
          refine ⟨a, ha, ?_, hgt r hrx a ha⟩
          rcases hlo' with rfl | rfl
          · trivial
          · exact hgt0 r hr' a ha
        · intro k hk
          rcases hlo' with rfl | rfl
          · cases hk
          · cases hk
            exact ⟨r0, rs, hr0, hk0⟩
    · intro hn
      have hn' : (cfg.blink || !decide (i ≠ 0)) = true := hn
      show (if cfg.blink || !decide (i ≠ 0) then lvlPtr L else none) = _
      rw [if_pos hn']
      cases L <;> rfl
    · show Chain (PageAt cfg i) h (hiB (lvlKey L)) (lvlPages L) .top none
      cases L with
      | nil => rfl
      | cons y L =>
        exact ih hf' hl.2 hs2 (fun z hz => hp z (by simp [hz])) _ (by simp) (Or.inr rfl)

/-- the groups of level `i` -/
def grOf (Ls : List (Lvl K V)) (i : Nat) : List Grp := (lvlPages (lev Ls i)).map (fun p => (p, []))

theorem flat_grOf (Ls : List (Lvl K V)) (i : Nat) : flat (grOf Ls i) = lvlPages (lev Ls i) := by
  unfold grOf
  generalize lvlPages (lev Ls i) = l
  induction l with
  | nil => rfl
  | cons p l ih => simp [ih]

theorem tower_good (hb : BulkRoomy cfg bc) {s : St K V} {es : List (K × V)} (hes : es ≠ []) (hs : Spec.Ascending es)
    {c : List (Rec K V)} {rest : List (Lvl K V)} (t : Tower cfg bc s.heap es ([(c, s.root)] :: rest))
    (hnd : (towerPages ([(c, s.root)] :: rest)).Nodup)
    (halloc : ∀ p, s.heap p ≠ none ↔ p ∈ towerPages ([(c, s.root)] :: rest)) (hbel : Below s) :
    Good cfg s rest.length (grOf ([(c, s.root)] :: rest)) ∧ contents s (grOf ([(c, s.root)] :: rest)) = es := by
  obtain ⟨l1, l2, l3⟩ := t.levels hes hs
  refine ⟨⟨⟨?_, ?_, ?_, ?_, ?_, hbel⟩, ?_⟩, ?_⟩
  · refine ⟨[], ?_⟩
    unfold grOf
    rw [lev_last]
    rfl
  · intro i hi
    rw [flat_grOf]
    have h := l1 i (by simp; omega)
    exact layer_chain hb h.fit h.layer h.sorted h.pays _ h.ne (Or.inl rfl)
  · intro i hi
    unfold Kid
    have h := l1 i (by simp; omega)
    have h' := l1 (i + 1) (by simp; omega)
    rw [flat_grOf, layer_slots h'.fit h'.layer, l3 i (by simp; omega), upRecs_slots h.layer]
    unfold grOf lvlPages
    rw [List.map_map, List.map_map]
    rfl
  · intro i hi j hj p hpi hpj
    rw [flat_grOf] at hpi hpj
    exact lev_disj hnd i (by simp; omega) j (by simp; omega) p hpi hpj
  · intro p
    rw [halloc, lev_pages]
    constructor
    · rintro ⟨i, hi, h⟩
      exact ⟨i, by simp at hi; omega, by rw [flat_grOf]; exact h⟩
    · rintro ⟨i, hi, h⟩
      rw [flat_grOf] at h
      exact ⟨i, by simp; omega, h⟩
  · intro i _ g hg
    obtain ⟨p, -, rfl⟩ := List.mem_map.1 hg
    rfl
  · unfold contents
    have h := l1 0 (by simp)
    rw [flat_grOf, layer_pairs h.layer, l2]
    clear * -
    induction es with
    | nil => rfl
    | cons e es ih =>
      rw [List.map_cons, pairs_cons, ih]
      rfl

/-- Dropping the lowest key of a page is harmless. -/
theorem NodeOk.dropLow {b : Bool} {lo : Bd K} {n : Node K V} (h : NodeOk cfg b lo n) : NodeOk cfg b lo { n with low := none } := by
  refine ⟨h.kind, h.notRemoved, h.lt, h.slots, ?_⟩
  have hs := h.size
  cases hl : cfg.layout with
  | var =>
    rw [sizeOk_var hl] at hs ⊢
    dsimp only
    rw [oklen_none]
    refine ⟨by omega, hs.2.1, hs.2.2.1, hs.2.2.2⟩
  | fix =>
    rw [sizeOk_fix hl] at hs ⊢
    dsimp only
    refine ⟨hs.1, hs.2.1, ?_, hs.2.2.2⟩
    have h1 : ({ n with low := none } : Node K V).borders ≤ n.borders := by
      unfold Node.borders
      simp
    have h2 := Nat.mul_le_mul_left cfg.maxKeyLen (Nat.add_le_add_left h1 n.recs.length)
    have := hs.2.2.1
    omega

/-! ## The worker ranges -/

theorem sum_shift (n t : Nat) : ∀ j i, ((List.range' i j).map (chunkSize (n + 1) t)).sum + chunkSize n t i =
    ((List.range' i j).map (chunkSize n t)).sum + chunkSize n t (i + j)
  | 0, i => by simp
  | j + 1, i => by
    have ih := sum_shift n t j (i + 1)
    have e1 : chunkSize (n + 1) t i = chunkSize n t (i + 1) := by unfold chunkSize; congr 1; omega
    have e2 : i + 1 + j = i + (j + 1) := by omega
    rw [e2] at ih
    simp only [List.range'_succ, List.map_cons, List.sum_cons]
    omega

theorem chunk_sum {t : Nat} (ht : 1 ≤ t) : ∀ n, ((List.range' 0 t).map (chunkSize n t)).sum = n
  | 0 => by
    have : ∀ l : List Nat, (∀ i ∈ l, i < t) → (l.map (chunkSize 0 t)).sum = 0 := by
      intro l
      induction l with
      | nil => intro _; rfl
      | cons i l ih =>
        intro h
        rw [List.map_cons, List.sum_cons, ih (fun j hj => h j (by simp [hj]))]
        unfold chunkSize
        rw [Nat.zero_add, Nat.div_eq_of_lt (h i (by simp))]
    exact this _ (fun i hi => by simpa using List.mem_range'_1.1 hi |>.2)
  | n + 1 => by
    have h := sum_shift n t t 0
    rw [chunk_sum ht n] at h
    have : chunkSize n t (0 + t) = chunkSize n t 0 + 1 := by
      unfold chunkSize
      rw [Nat.zero_add, Nat.add_zero]
      exact Nat.add_div_right _ ht
    omega

theorem chunksFrom_spec {α : Type} (n t : Nat) : ∀ (j i : Nat) (es : List α),
    ((List.range' i j).map (chunkSize n t)).sum = es.length →
    (chunksFrom n t j i es).flatten = es ∧ (chunksFrom n t j i es).map List.length = (List.range' i j).map (chunkSize n t)
  | 0, i, es, h => by
    have : es = [] := List.length_eq_zero_iff.1 (by simpa using h.symm)
    subst this
    exact ⟨rfl, rfl⟩
  | j + 1, i, es, h => by
    simp only [List.range'_succ, List.map_cons, List.sum_cons] at h ⊢
    have ih := chunksFrom_spec n t j (i + 1) (es.drop (chunkSize n t i)) (by rw [List.length_drop]; omega)
    unfold chunksFrom
    refine ⟨?_, ?_⟩
    · rw [List.flatten_cons, ih.1, List.take_append_drop]
    · rw [List.map_cons, ih.2, List.length_take]
      congr 1
      omega

theorem chunks_spec {α : Type} {t : Nat} (ht : 1 ≤ t) (es : List α) :
    (chunks t es).flatten = es ∧ (chunks t es).map List.length = (List.range' 0 t).map (chunkSize es.length t) :=
  chunksFrom_spec _ _ _ _ _ (chunk_sum ht _)

theorem chunks_length {α : Type} {t : Nat} (ht : 1 ≤ t) (es : List α) : (chunks t es).length = t := by
  have := congrArg List.length (chunks_spec ht es).2
  simpa using this

theorem chunks_bounds {α : Type} {t : Nat} (ht : 1 ≤ t) (es : List α) (c : List α) (hc : c ∈ chunks t es) :
    es.length / t ≤ c.length ∧ c.length ≤ es.length / t + 1 := by
  have : c.length ∈ (chunks t es).map List.length := List.mem_map.2 ⟨c, hc, rfl⟩
  rw [(chunks_spec ht es).2] at this
  obtain ⟨i, hi, hl⟩ := List.mem_map.1 this
  rw [← hl]
  have hi' : i < t := by simpa using (List.mem_range'_1.1 hi).2
  unfold chunkSize
  refine ⟨Nat.div_le_div_right (Nat.le_add_right _ _), ?_⟩
  calc (es.length + i) / t ≤ (es.length + t) / t := Nat.div_le_div_right (by omega)
    _ = es.length / t + 1 := Nat.add_div_right _ ht

theorem chunks_ne {α : Type} {t : Nat} (ht : 1 ≤ t) {es : List α} (hle : t ≤ es.length) {c : List α} (hc : c ∈ chunks t es) :
    c ≠ [] := by
  have h1 := (chunks_bounds ht es c hc).1
  have h2 : 1 ≤ es.length / t := (Nat.le_div_iff_mul_le ht).2 (by omega)
  intro h
  rw [h] at h1
  simp at h1
  omega

theorem mem_chunks_le {α : Type} {t : Nat} (ht : 1 ≤ t) {es : List α} {c : List α} (hc : c ∈ chunks t es) :
    c.length ≤ es.length := by
  have h := (chunks_spec ht es).1
  have h2 : c.length ≤ (chunks t es).flatten.length := (List.sublist_flatten_of_mem hc).length_le
  rwa [h] at h2

theorem maxHeight_aux : ∀ (ps : List (Nat × List (K × Ptr))) (h : Nat),
    h ≤ ps.foldl (fun h x => if h < x.1 then x.1 else h) h ∧
    (∀ x ∈ ps, x.1 ≤ ps.foldl (fun h x => if h < x.1 then x.1 else h) h) ∧
    ∀ N, h ≤ N → (∀ x ∈ ps, x.1 ≤ N) → ps.foldl (fun h x => if h < x.1 then x.1 else h) h ≤ N := by
  intro ps
  induction ps with
  | nil => intro h; simp
  | cons y ps ih =>
    intro h
    rw [List.foldl_cons]
    obtain ⟨h1, h2, h3⟩ := ih (if h < y.1 then y.1 else h)
    generalize List.foldl _ _ ps = z at h1 h2 h3
    refine ⟨by split at h1 <;> omega, ?_, ?_⟩
    · intro x hx
      rcases List.mem_cons.1 hx with rfl | hx
      · split at h1 <;> omega
      · exact h2 x hx
    · intro N hN hx
      refine h3 N ?_ (fun x h => hx x (by simp [h]))
      have := hx y (by simp)
      split <;> omega

theorem Parts.heights {s : St K V} {ess ps Lss} (h : Parts cfg bc s ess ps Lss) {N : Nat} (hN : ∀ d ∈ ess, d.length ≤ N) :
    ∀ x ∈ ps, x.1 ≤ N := by
  induction h with
  | nil => intro x hx; cases hx
  | cons h1 h2 h3 h4 ih =>
    intro x hx
    rcases List.mem_cons.1 hx with rfl | hx
    · have := h1.nodes_ne h2
      have := hN _ (List.mem_cons_self)
      dsimp only
      omega
    · exact ih (fun d hd => hN d (by simp [hd])) x hx

/-! ## `Bulkload` as a whole -/

/-- Bytes all entries take in one leaf, as bulkloading counts them. -/
def onePage (cfg : Cfg K) (es : List (K × V)) : Nat :=
  cfg.headerLen + 2 * cfg.maxKeyLen + (es.map (fun e => bulkRec cfg false e.1)).sum

/-- The input is spread over at least two leaves. -/
def Spread (cfg : Cfg K) (bc : BulkCfg) (es : List (K × V)) (threads : Nat) : Prop :=
  (2 ≤ threads ∧ threads ≤ es.length) ∨ bc.cap < onePage cfg es

theorem bulkSize_erec (cfg : Cfg K) (es : List (K × V)) :
    bulkSize cfg false (es.map (fun e => erec (e.1, Pay.val e.2))) = (es.map (fun e => bulkRec cfg false e.1)).sum := by
  unfold bulkSize
  rw [List.map_map]
  rfl

/-- one leaf over everything means everything fits -/
theorem tower_one {h : Heap K V} {es : List (K × V)} {c : List (Rec K V)} {p : Ptr} (t : Tower cfg bc h es [[(c, p)]]) :
    onePage cfg es ≤ bc.cap ∧ c = es.map (fun e => erec (e.1, Pay.val e.2)) := by
  have hc : c = es.map (fun e => erec (e.1, Pay.val e.2)) := by simpa using t.1
  refine ⟨?_, hc⟩
  have := (t.2.1 (c, p) (by simp)).size
  rw [show ((c, p) : List (Rec K V) × Ptr).1 = c from rfl, hc, bulkSize_erec] at this
  exact this

/-- The layers of any bulkload. -/
theorem bulkNodes_ok (hb : BulkRoomy cfg bc) {s : St K V} (hbel : Below s) {es : List (K × V)} (hes : es ≠ []) {threads fuel : Nat}
    (hf : es.length < fuel) : ∃ nodes s' B,
      bulkNodes cfg bc fuel es threads s = .ok (nodes, s') ∧
      Part cfg bc s' es nodes B ∧ nodes.length ≤ es.length ∧ Grew s s' (towerPages B) ∧
      (2 ≤ threads ∧ threads ≤ es.length → 2 ≤ nodes.length) := by
  unfold bulkNodes
  by_cases hc : threads ≤ 1 ∨ es.length < threads
  · rw [if_pos hc]
    obtain ⟨Ls, nodes, s', a1, a2, a3, a4⟩ := bulkSingle_ok hb hbel hf
    have : 1 ≤ Ls.length := by
      obtain ⟨L, rest, rfl, -⟩ := a2.nodes
      simp
    refine ⟨nodes, s', Ls, ?_, a2, by omega, a3, by omega⟩
    rw [M.bind_ok a1]
    rfl
  · rw [if_neg hc]
    have ht : 1 ≤ threads := by omega
    have hle : threads ≤ es.length := by omega
    have hch : ∀ c ∈ chunks threads es, c ≠ [] ∧ c.length < fuel :=
      fun c h => ⟨chunks_ne ht hle h, Nat.lt_of_le_of_lt (mem_chunks_le ht h) hf⟩
    obtain ⟨ps, Lss, s1, a1, a2, a3⟩ := bulkWorkers_ok hb fuel (chunks threads es) s hch hbel
    have hm := maxHeight_aux ps 1
    have hes1 := List.length_pos_iff.2 hes
    have hN : ∀ x ∈ ps, x.1 ≤ es.length := a2.heights (fun d hd => mem_chunks_le ht hd)
    obtain ⟨nodes, s', B, b1, b2, b3, b4, b5⟩ := bulkJoin_ok hb (s0 := s) (height := maxHeight ps) (fuel := fuel)
      (Nat.le_of_lt (Nat.lt_of_le_of_lt (hm.2.2 es.length (by omega) hN) hf)) a2
      (by intro h; have := chunks_length ht es; rw [h] at this; simp at this; omega) hm.2.1 (fun d hd => (hch d hd).2) a3
    rw [(chunks_spec ht es).1] at b2 b3
    rw [chunks_length ht] at b5
    refine ⟨nodes, s', B, ?_, b2, b3, b4, fun h => by omega⟩
    rw [M.bind_ok a1]
    exact b1

/-- Bulkloading a well-spread input returns, leaves the old pages as they were, and what it built is a tree over exactly the input. -/
theorem bulkload_ok (hb : BulkRoomy cfg bc) {s : St K V} (hbel : Below s) {es : List (K × V)} (hes : es ≠ []) (hs : Spec.Ascending es)
    {threads fuel : Nat} (hsp : Spread cfg bc es threads) (hf : es.length < fuel) :
    ∃ s0 H gr, bulkload cfg bc fuel es threads s = .ok (.success, s0.plus s.heap) ∧ Apart s.heap s0 ∧ Good cfg s0 H gr ∧
      contents s0 gr = es := by
  obtain ⟨nodes, s1, B, a1, a2, a3, a4, a5⟩ := bulkNodes_ok hb hbel hes (threads := threads) hf
  obtain ⟨new, root, s2, c, rest, b1, b2, b3, b4, b5⟩ := bulkTop_ok hb hes fuel s1 nodes B (by omega) a4.below a2
  have hg : Grew s s2 (towerPages ([(c, root)] :: rest)) := by
    rw [← b3, towerPages_append]
    exact (a4.trans b4).perm List.perm_append_comm
  rw [b3] at b2
  have hrest : rest ≠ [] := by
    rcases hsp with h | h
    · exact b5 (a5 h)
    · rintro rfl
      have := (tower_one b2).1
      omega
  -- the new tree alone
  let s3 : St K V := ⟨fun p => if p < s.fresh then none else s2.heap p, s2.fresh, root⟩
  have hin : ∀ p ∈ towerPages ([(c, root)] :: rest), s3.heap p = s2.heap p := by
    intro p hp
    exact if_neg (Nat.not_lt.2 (hg.mem.1 hp).1)
  have t3 : Tower cfg bc s3.heap es ([(c, s3.root)] :: rest) := b2.congr hin
  have hal : ∀ p, s3.heap p ≠ none ↔ p ∈ towerPages ([(c, s3.root)] :: rest) := by
    intro p
    constructor
    · intro h
      by_cases hp : p < s.fresh
      · exact absurd (if_pos hp) h
      · have h' : s2.heap p ≠ none := by
          intro hn
          exact h ((if_neg hp).trans hn)
        exact hg.mem.2 ⟨Nat.not_lt.1 hp, hg.below p h'⟩
    · intro h; exact t3.alloc h
  have hbel3 : Below s3 := by
    intro p hp
    by_cases h : p < s.fresh
    · exact absurd (if_pos h) hp
    · exact hg.below p (fun hn => hp ((if_neg h).trans hn))
  obtain ⟨g3, hc3⟩ := tower_good hb hes hs t3 hg.nodup hal hbel3
  obtain ⟨n, hat, -⟩ := g3.wf.root_at g3.np
  have hroot : root ∈ towerPages ([(c, root)] :: rest) := by simp [lvlPages]
  have hroots : ¬ root < s.fresh := Nat.not_lt.2 (hg.mem.1 hroot).1
  have hn2 : s2.heap root = some n := (hin root hroot).symm.trans hat.heap
  have hinner : n.isInner = true := by
    have := hat.ok.kind
    rw [this]
    have := List.length_pos_iff.2 hrest
    simp
    exact hrest
  refine ⟨{ s3 with heap := upd s3.heap root { n with low := none } }, rest.length, grOf ([(c, root)] :: rest), ?_, ?_,
    ⟨g3.wf.replacePage (le_refl _) hat hat.ok.dropLow rfl rfl (fun _ => rfl), g3.np⟩, ?_⟩
  · unfold bulkload
    rw [if_neg hes, M.bind_ok a1, M.bind_ok b1]
    refine (M.bind_ok (s' := ⟨s2.heap, s2.fresh, root⟩) (a := ()) rfl).trans ?_
    have hfu : ∃ f, fuel = f + 1 := ⟨fuel - 1, by omega⟩
    obtain ⟨f, rfl⟩ := hfu
    have h1 : removeLeftmostKeys (f + 1) root (⟨s2.heap, s2.fresh, root⟩ : St K V)
        = .ok ((), ⟨upd s2.heap root { n with low := none }, s2.fresh, root⟩) := by
      unfold removeLeftmostKeys
      refine (M.bind_ok (M.load_ok (s := ⟨s2.heap, s2.fresh, root⟩) hn2)).trans ?_
      rw [if_pos hinner]
      exact M.store_ok (s := ⟨s2.heap, s2.fresh, root⟩) hn2
    rw [M.bind_ok h1]
    show Res.ok (RC.success, _) = Res.ok (RC.success, _)
    congr 2
    unfold St.plus
    congr 1
    funext p
    dsimp only
    by_cases hp : p = root
    · subst hp; simp
    · rw [upd_other _ hp, upd_other _ hp]
      by_cases hlt : p < s.fresh
      · show s2.heap p = (if p < s.fresh then none else s2.heap p).or (s.heap p)
        rw [if_pos hlt, hg.old p hlt]
        rfl
      · show s2.heap p = (if p < s.fresh then none else s2.heap p).or (s.heap p)
        rw [if_neg hlt]
        have : s.heap p = none := by
          by_contra h
          exact hlt (hbel p h)
        rw [this]
        simp
  · intro p hp
    have hlt := hbel p hp
    refine ⟨?_, Nat.lt_of_lt_of_le hlt hg.le⟩
    have hne : p ≠ root := by rintro rfl; exact hroots hlt
    show upd s3.heap root _ p = none
    rw [upd_other _ hne]
    exact if_pos hlt
  · exact (g3.wf.replacePage_contents (n' := { n with low := none }) (le_refl _) hat (fun _ => rfl)).trans hc3

theorem bulkFill_all {es : List (K × V)} (hfit : onePage cfg es ≤ bc.cap) :
    (bulkFill cfg bc false (bulkBase cfg) (es.map (fun e => (e.1, Pay.val e.2)))).2 = [] := by
  obtain ⟨h1, -, h3⟩ := bulkFill_spec cfg bc false (es.map (fun e => (e.1, Pay.val e.2))) (bulkBase cfg)
  cases hr : (bulkFill cfg bc false (bulkBase cfg) (es.map (fun e => (e.1, Pay.val e.2)))).2 with
  | nil => rfl
  | cons e es' =>
    exfalso
    have h4 := h3 e es' hr
    have h5 := congrArg (bulkSize cfg false) h1
    rw [hr, bulkSize_append, List.map_cons, bulkSize_cons, List.map_map] at h5
    have h6 : bulkSize cfg false (es.map (erec ∘ fun e => (e.1, Pay.val e.2))) = (es.map (fun e => bulkRec cfg false e.1)).sum :=
      bulkSize_erec cfg es
    rw [h6] at h5
    have h7 : (erec e).len cfg false + cfg.mlen = bulkRec cfg false e.1 := rfl
    rw [h7] at h5
    have h8 := base_reserve cfg
    unfold onePage at hfit
    omega

theorem layer_one {f : Nat} {es : List (K × Pay V)} {s s' : St K V} {nodes : List (K × Ptr)} (hes : es ≠ [])
    (hfill : (bulkFill cfg bc false (bulkBase cfg) es).2 = [])
    (h : constructLayer cfg bc false (f + 1) es none s = .ok (nodes, s')) : nodes.length = 1 := by
  obtain ⟨⟨k, pay⟩, es, rfl⟩ := List.exists_cons_of_ne_nil hes
  unfold constructLayer at h
  rcases hb : bulkFill cfg bc false (bulkBase cfg) ((k, pay) :: es) with ⟨recs, rest⟩
  rw [hb] at h hfill
  dsimp only at h hfill
  subst hfill
  rw [M.bind_run] at h
  cases hc : (M.lift (if cfg.layout = .fix ∧ recs = [] then .ub else
      Node.checked cfg (bulkNode cfg false k recs)) : M K V _) s with
  | ub => rw [hc] at h; cases h
  | fuel => rw [hc] at h; cases h
  | ok x =>
    rw [hc] at h
    dsimp only at h
    rw [M.bind_ok (rfl : M.alloc x.1 x.2 = .ok (x.2.fresh, _))] at h
    rw [M.bind_ok (rfl : linkPrev cfg none _ _ = .ok ((), _))] at h
    rw [M.bind_run] at h
    cases f with
    | zero => cases h
    | succ f =>
      simp only [constructLayer] at h
      cases h
      rfl

/-- Bulkloading an input that fits into one leaf meets undefined behaviour. -/
theorem bulkload_ub (hb : BulkRoomy cfg bc) {s : St K V} (hbel : Below s) {es : List (K × V)} (hes : es ≠ [])
    {threads fuel : Nat} (ht : threads ≤ 1 ∨ es.length < threads) (hfit : onePage cfg es ≤ bc.cap) (hf : es.length < fuel) :
    bulkload cfg bc fuel es threads s = .ub := by
  obtain ⟨f, rfl⟩ : ∃ f, fuel = f + 1 := ⟨fuel - 1, by omega⟩
  obtain ⟨L, nodes, s1, a1, a2, a3, a4⟩ := leafLayer_ok hb hbel hf
  have hlen := layer_one (by simpa using hes) (bulkFill_all hfit) a1
  obtain ⟨x, rfl⟩ := List.length_eq_one_iff.1 hlen
  obtain ⟨L', rest, hL, hn⟩ := a2.nodes
  cases hL
  have hl := hn.length
  simp only [List.length_cons, List.length_nil] at hl
  obtain ⟨y, rfl⟩ := List.length_eq_one_iff.1 hl.symm
  have hxy : y.2 = x.2 := by
    unfold NodesOf at hn
    simp only [List.map_cons, List.map_nil, List.cons.injEq, Prod.mk.injEq, and_true] at hn
    exact hn.2
  obtain ⟨c, p⟩ := y
  have hxp : x.2 = p := hxy.symm
  have hc := (tower_one a2.tower).2
  have hheap : s1.heap p = some (bulkPage cfg false c none none) := a2.tower.2.2.1
  have hbn : bulkNodes cfg bc (f + 1) es threads s = .ok ([x], s1) := by
    unfold bulkNodes
    rw [if_pos ht]
    have : bulkSingle cfg bc (f + 1) es s = .ok ((1, [x]), s1) := by
      unfold bulkSingle
      rw [M.bind_ok a1]
      unfold bulkRaise
      rw [if_neg (by have := hb.innerCap; simp; omega)]
      rfl
    rw [M.bind_ok this]
    rfl
  unfold bulkload
  rw [if_neg hes, M.bind_ok hbn, M.bind_ok (rfl : bulkTop cfg bc (f + 1) [x] s1 = .ok (x.2, s1))]
  refine (M.bind_ok (s' := ⟨s1.heap, s1.fresh, x.2⟩) (a := ()) rfl).trans ?_
  rw [hxp]
  obtain ⟨e, es, rfl⟩ := List.exists_cons_of_ne_nil hes
  have hr : removeLeftmostKeys (f + 1) p (⟨s1.heap, s1.fresh, p⟩ : St K V) = .ub := by
    unfold removeLeftmostKeys
    refine (M.bind_ok (M.load_ok (s := ⟨s1.heap, s1.fresh, p⟩) hheap)).trans ?_
    have h1 : (bulkPage cfg false c none none).isInner = false := rfl
    have h2 : (bulkPage cfg false c none none).recs = erec (e.1, Pay.val e.2) :: es.map (fun e => erec (e.1, Pay.val e.2)) := hc
    rw [h1, if_neg (by simp), h2]
    refine (M.bind_ok (M.store_ok (s := ⟨s1.heap, s1.fresh, p⟩) hheap)).trans ?_
    have h3 : (bulkPage cfg false c none none).getChild 0 = .ub := by
      unfold Node.getChild
      rw [h2]
      rfl
    rw [h3]
    rfl
  rw [M.bind_run, hr]

end
end BT
