import Verif.PmlStore

/-!
# The instants at which a split, a merge, a new root or the removal of the root takes effect in PML
-/

set_option linter.unusedSectionVars false

namespace BT.PL
open Spec
variable {K V : Type} [LinearOrder K] {cfg : Cfg K} {t : Tid} {w w1 w2 w' : World K V} {α : Type}
  {S I X O S' I' X' O' : List Ptr} {p : Ptr} {Q : α → World K V → Prop}

section at'
variable {s s' : St K V} {H H' : Nat} {gr gr' : Nat → List Grp} {j : Nat} {q c r : Ptr} {n : Node K V} {lo : Bd K}

theorem at_of_endB (w : WF cfg s H gr) (w' : WF cfg s' H' gr') (hj : j ≤ H) (hj' : j ≤ H') (hat : At cfg s gr j q n lo)
    {A B A' B' : List Ptr} (hfl : flat (gr j) = A ++ q :: B) (hfl' : flat (gr' j) = A' ++ q :: B')
    (he : endB s'.heap A' = endB s.heap A) (hq : s'.heap q = some n) : At cfg s' gr' j q n lo := by
  rw [hat.lo_endB w hj hfl, ← he]
  exact w'.at_mk hj' hfl' hq

theorem endB_last {h h' : Heap K V} {U U' : List Ptr} {c c' : Ptr} (hc : highOf h' c' = highOf h c) :
    ∀ {A : List Ptr}, (∀ x ∈ A, highOf h' x = highOf h x) → endB h' (U' ++ c' :: A) = endB h (U ++ c :: A) := by
  intro A hA
  rcases List.eq_nil_or_concat' A with rfl | ⟨A', a, rfl⟩
  · rw [endB_concat, endB_concat, hc]
  · rw [show U' ++ c' :: (A' ++ [a]) = (U' ++ c' :: A') ++ [a] by simp, show U ++ c :: (A' ++ [a]) = (U ++ c :: A') ++ [a] by simp,
      endB_concat, endB_concat, hA a (by simp)]

theorem at_insert (w : WF cfg s H gr) (w' : WF cfg s' H' gr') (hj : j ≤ H) (hj' : j ≤ H') {U Y : List Ptr}
    (hfl : flat (gr j) = U ++ c :: Y) (hfl' : flat (gr' j) = U ++ c :: r :: Y)
    (hh : ∀ x ∈ U ++ Y, highOf s'.heap x = highOf s.heap x) (hr : highOf s'.heap r = highOf s.heap c) (hqc : q ≠ c)
    (hat : At cfg s gr j q n lo) (hq : s'.heap q = some n) : At cfg s' gr' j q n lo := by
  have hm := hat.mem
  rw [hfl, List.mem_append, List.mem_cons] at hm
  rcases hm with hm | hm | hm
  · obtain ⟨A, B, rfl⟩ := List.append_of_mem hm
    exact at_of_endB w w' hj hj' hat (A := A) (A' := A) (B := B ++ c :: Y) (B' := B ++ c :: r :: Y) (by rw [hfl]; simp) (by rw [hfl']; simp)
      (endB_congr (fun x hx => hh x (by simp [hx]))) hq
  · exact absurd hm hqc
  · obtain ⟨A, B, rfl⟩ := List.append_of_mem hm
    exact at_of_endB w w' hj hj' hat (A := U ++ c :: A) (A' := (U ++ [c]) ++ r :: A) (B := B) (B' := B) (by rw [hfl]; simp)
      (by rw [hfl']; simp) (endB_last hr (fun x hx => hh x (by simp [hx]))) hq

theorem at_remove (w : WF cfg s H gr) (w' : WF cfg s' H' gr') (hj : j ≤ H) (hj' : j ≤ H') {U Y : List Ptr}
    (hfl : flat (gr j) = U ++ c :: r :: Y) (hfl' : flat (gr' j) = U ++ c :: Y)
    (hh : ∀ x ∈ U ++ Y, highOf s'.heap x = highOf s.heap x) (hr : highOf s'.heap c = highOf s.heap r) (hqc : q ≠ c) (hqr : q ≠ r)
    (hat : At cfg s gr j q n lo) (hq : s'.heap q = some n) : At cfg s' gr' j q n lo := by
  have hm := hat.mem
  rw [hfl, List.mem_append, List.mem_cons, List.mem_cons] at hm
  rcases hm with hm | hm | hm | hm
  · obtain ⟨A, B, rfl⟩ := List.append_of_mem hm
    exact at_of_endB w w' hj hj' hat (A := A) (A' := A) (B := B ++ c :: r :: Y) (B' := B ++ c :: Y) (by rw [hfl]; simp) (by rw [hfl']; simp)
      (endB_congr (fun x hx => hh x (by simp [hx]))) hq
  · exact absurd hm hqc
  · exact absurd hm hqr
  · obtain ⟨A, B, rfl⟩ := List.append_of_mem hm
    exact at_of_endB w w' hj hj' hat (A := (U ++ [c]) ++ r :: A) (A' := U ++ c :: A) (B := B) (B' := B) (by rw [hfl]; simp)
      (by rw [hfl']; simp) (endB_last hr (fun x hx => hh x (by simp [hx]))) hq

end at'

theorem PInv.grp (hi : PInv cfg w) {i : Nat} {c : Ptr} {n : Node K V} {lo : Bd K} (h : Pg cfg w i c n lo) :
    ∃ G1 G2, w.gr i = G1 ++ (c, []) :: G2 := by
  have := h.at'.mem
  simp only [flat, List.mem_flatMap] at this
  obtain ⟨g, hg, hc⟩ := this
  have e := hi.good.np i h.le g hg
  rw [e] at hc
  obtain ⟨G1, G2, hG⟩ := List.append_of_mem hg
  refine ⟨G1, G2, ?_⟩
  rw [hG]
  simp only [List.mem_singleton] at hc
  rw [show g = (c, []) from Prod.ext hc.symm e]

theorem vh_of_cells (h0 : p ≠ 0) {o : Option (Node K V)} (h : w.cells p = o) : w.vh p = o := by
  unfold World.cells at h
  rw [if_neg h0] at h
  exact h

theorem PInv.ne_of_lvl (hi : PInv cfg w) {i j : Nat} {a b : Ptr} {n m : Node K V} {lo lo' : Bd K} (h1 : Pg cfg w i a n lo)
    (h2 : Pg cfg w j b m lo') (hij : i ≠ j) : a ≠ b := by
  rintro rfl
  exact hij (hi.lvl_unique (h1.lvl hi) (h2.lvl hi))

/-- A step by which the tree changes: thread `t` has written the pages `O`, writes page `P` and is done with the pages `R`. -/
structure Cmt (cfg : Cfg K) (t : Tid) (w w2 : World K V) (X O R : List Ptr) (P : Ptr) (n : Node K V) : Prop where
  mem : w2.mem = w.mem.setHeap P n
  pO : P ∈ O
  own : w2.own = fun x => if x ∈ R then none else w.own x
  ps : w2.ps = w.ps
  good : Good cfg w2.st w2.H w2.gr
  contents : contents w2.st w2.gr = contents w.st w.gr
  zero : w2.vh 0 = none
  cells : ∀ x, x ∉ O → w2.cells x = w.cells x
  sub : ∀ x ∈ R, x ∈ O ∧ x ∉ X ∧ w2.mem.heap x = w2.cells x
  guard : ∀ x ∈ O, x ∉ R → x ∈ X ∨ w2.cells x = none
  at' : ∀ x i m lo, x ∉ O → i ≤ w.H → At cfg w.st w.gr i x m lo → i ≤ w2.H ∧ At cfg w2.st w2.gr i x m lo
  top : 0 ∉ O → w2.H = w.H

theorem Cmt.heap {R : List Ptr} {P : Ptr} {n : Node K V} (c : Cmt cfg t w w2 X O R P n) {x : Ptr} (h : x ≠ P) :
    w2.mem.heap x = w.mem.heap x := by
  rw [c.mem, setHeap_heap, if_neg h]

theorem Cmt.cm {R : List Ptr} {P : Ptr} {n : Node K V} (hi : PInv cfg w) (hts : TS w t S I X O) (c : Cmt cfg t w w2 X O R P n) :
    Cm cfg t w w2 := by
  have hnO : ∀ x, w.own x ≠ some t → x ∉ O := fun x hx h => hx ((hts.own x (hts.live x (by simp [h]))).2 h)
  have hgO : ∀ x, x ∈ w.mem.gc → x ∉ O := fun x hx h => hts.live x (by simp [h]) hx
  have hR : ∀ x, x ∉ O → x ∉ R := fun x hx h => hx (c.sub x h).1
  exact {
    good := c.good
    zero := c.zero
    map := by rw [c.contents, c.ps]; exact hi.map
    raced := by rw [c.mem]; exact hi.raced
    lk := by rw [c.mem]; rfl
    fresh := by rw [c.mem]; rfl
    heap := fun x hx => c.heap (by rintro rfl; exact hnO _ hx c.pO)
    heap' := fun x hx => by
      by_cases e : x = P
      · rw [c.mem, setHeap_heap, if_pos e] at hx; cases hx
      · rw [c.heap e] at hx; exact hx
    own := fun x hx => by
      refine ⟨?_, c.cells x (hnO x hx)⟩
      rw [c.own]
      exact if_neg (hR x (hnO x hx))
    own' := fun x hx => by
      rw [c.own]
      dsimp only
      split
      · exact Or.inl rfl
      · exact Or.inr hx
    clean := fun x h1 h2 => by
      rw [c.own] at h2
      dsimp only at h2
      split at h2
      · next e => exact (c.sub x e).2.2
      · rw [h1] at h2; cases h2
    guard := fun x h1 h2 h3 => by
      by_cases e : x ∈ w.mem.gc
      · rw [c.cells x (hgO x e)] at h3
        exact absurd (hi.gc x e).1 h3
      · rw [c.own] at h2
        dsimp only at h2
        split at h2
        · cases h2
        · next hx =>
          rcases c.guard x ((hts.own x e).1 h1) hx with h | h
          · exact Or.inl ((hts.x x e).2 h)
          · exact absurd h h3
    xown := fun x hx => by
      rw [c.own]
      dsimp only
      rw [if_neg]
      · exact hi.xown x t hx
      · intro h
        obtain ⟨h1, h2, -⟩ := c.sub x h
        exact h2 ((hts.x x (hts.live x (by simp [h1]))).1 hx)
    gc := fun x hx => by rw [c.mem]; exact hx
    gc' := fun x hx => by
      rw [c.mem] at hx
      have hx : x ∈ w.mem.gc := hx
      refine ⟨fun h => ⟨?_, ?_⟩, fun _ => hx⟩
      · rw [c.own]
        dsimp only
        rw [if_neg (hR x (hgO x hx))]
        exact h
      · rw [c.cells x (hgO x hx)]
        exact (hi.gc x hx).1
    at' := fun x j m lo h0 h1 h2 => c.at' x j m lo (hnO x h0) h1 h2
    top := fun h => c.top (hnO 0 h)
    ph := fun _ _ => by rw [c.ps]
    now := by rw [c.ps]
    maps := fun _ _ => by rw [c.ps] }

theorem Cmt.ts {R : List Ptr} {P : Ptr} {n : Node K V} (hts : TS w t S I X O) (c : Cmt cfg t w w2 X O R P n)
    (hO' : ∀ x, x ∈ O' ↔ x ∈ O ∧ x ∉ R) : TS w2 t S I X O' where
  s := fun q hq => by rw [World.lk, c.mem]; rw [c.mem] at hq; exact hts.s q hq
  six := fun q hq => by rw [World.lk, c.mem]; rw [c.mem] at hq; exact hts.six q hq
  x := fun q hq => by rw [World.lk, c.mem]; rw [c.mem] at hq; exact hts.x q hq
  own := fun q hq => by
    rw [c.mem] at hq
    rw [c.own, hO', ← hts.own q hq]
    dsimp only
    split
    · next h => simp [h]
    · next h => simp [h]
  live := fun q hq => by
    rw [c.mem]
    refine hts.live q ?_
    simp only [List.mem_append, hO'] at hq ⊢
    tauto

theorem Cmt.kp {R : List Ptr} {P : Ptr} {n : Node K V} (hr : Rely cfg t w w1) (hts : TS w t S I X O)
    (c : Cmt cfg t w1 w2 X O R P n) : KpO cfg t w w2 := by
  refine ⟨?_, by rw [c.ps]; exact hr.ph, by rw [c.ps]; exact hr.now⟩
  intro x hm hx
  have hO : x ∉ O := fun h => hx ((hts.own x (hts.live x (by simp [h]))).2 h)
  refine (hr.kp0.keep hm).trans ⟨c.heap (by rintro rfl; exact hO c.pO), c.cells x hO, by rw [c.mem]; exact id,
    fun e => c.top (by rw [← e]; exact hO), fun j m lo h1 h2 => c.at' x j m lo hO h1 h2⟩

/-- The page a parent becomes. -/
theorem split_place {L : Nat} {P c q : Ptr} {i : Nat} {un cn l rn : Node K V} {lo lo' : Bd K} {T D : List (Rec K V)} {rr : Rec K V} {sep : K}
    (hR : Roomy cfg L) (hi : PInv cfg w) (hpgP : Pg cfg w (i + 1) P un lo) (hpgc : Pg cfg w i c cn lo') (hrecs : un.recs = T ++ rr :: D)
    (hc : rr.toPtr = c) (hch : cn.high = hdKey D un.high) (hlo' : lo' = (if T = [] then lo else hiB rr.key))
    (hq : w.cells q = none) (hq0 : q ≠ 0) (hqf : q < w.mem.fresh) (hroom : Room cfg L un)
    (hs : SplitPost cfg L (decide (i ≠ 0)) lo' cn q l rn sep) : ∃ un', un.placeChild cfg (some sep) q T.length = .ok un' := by
  obtain ⟨G1, G2, hg⟩ := hi.grp hpgc
  obtain ⟨un', -, h, -⟩ := hi.good.wf.splitChild hR hi.good.np (by have := hpgP.le; omega) hpgP.at' hrecs hc hg hpgc.at' hch hlo'
    (vh_of_cells hq0 hq) (Nat.le_refl _) hqf hroom hs
  exact ⟨un', h⟩

theorem placeChild_par {q : Ptr} {un un' : Node K V} {T D : List (Rec K V)} {rr : Rec K V} {sep : K} (hrecs : un.recs = T ++ rr :: D)
    (hp : un.placeChild cfg (some sep) q T.length = .ok un') :
    rr ∈ un'.recs ∧ (⟨some sep, .ptr q, false⟩ : Rec K V) ∈ un'.recs := by
  simp only [Node.placeChild, Node.insertRecord] at hp
  have e : un'.recs = insAt un.recs (T.length + 1) ⟨some sep, .ptr q, false⟩ := by
    split at hp <;> split at hp <;> first | (rw [← Res.ok.inj hp]) | (cases hp)
  rw [e, hrecs, insAt, List.take_append, List.drop_append]
  simp

/-- Writing the left page: a split takes effect. -/
theorem wp_store_split {L : Nat} {kc : Unit → Prog K V α} {P c q : Ptr} {i : Nat} {un un' cn l rn : Node K V} {lo lo' : Bd K}
    {T D : List (Rec K V)} {rr : Rec K V} {sep : K}
    (hR : Roomy cfg L) (hts : TS w t S I X O) (hP : P ∈ X) (hO : ∀ x, x ∈ O ↔ x = P ∨ x = c ∨ x = q)
    (hcX : c ∈ X) (hqX : q ∉ X) (hqI : q ∉ I) (hpgP : Pg cfg w (i + 1) P un lo) (hpgc : Pg cfg w i c cn lo') (hrecs : un.recs = T ++ rr :: D)
    (hc : rr.toPtr = c) (hch : cn.high = hdKey D un.high) (hlo' : lo' = (if T = [] then lo else hiB rr.key))
    (hq : w.cells q = none) (hq0 : q ≠ 0) (hroom : Room cfg L un)
    (hs : SplitPost cfg L (decide (i ≠ 0)) lo' cn q l rn sep) (hpl : un.placeChild cfg (some sep) q T.length = .ok un')
    (hhq : w.mem.heap q = some rn)
    (hk : ∀ w2, PInv cfg w2 → KpO cfg t w w2 → TS w2 t S I X [P, c] → w2.mem.heap P = w.mem.heap P →
      Pg cfg w2 (i + 1) P un' lo → Pg cfg w2 i c l lo' →
      Pg cfg w2 i q rn (.key sep) → w2.mem.heap c = some l → w2.Par P q → w2.Rsv t q → WP cfg t (kc ()) Q w2) :
    WP cfg t (Prog.store c l >>= kc) Q w := by
  refine wp_store hts hcX ?_
  intro w1 hi hr hts1
  have mP : P ∈ S ++ I ++ X ++ O := by simp [hP]
  have mc : c ∈ S ++ I ++ X ++ O := by simp [hO]
  have mq : q ∈ S ++ I ++ X ++ O := by simp [hO]
  have hpgP1 := hr.kp0.pg hts mP hpgP
  have hpgc1 := hr.kp0.pg hts mc hpgc
  have hq1 : w1.cells q = none := (hr.kp0.cells hts mq).trans hq
  have hhq1 : w1.mem.heap q = some rn := (hr.kp0.heap hts mq).trans hhq
  have oP : w1.own P = some t := (hts1.own P (hts1.live P mP)).2 ((hO P).2 (Or.inl rfl))
  have oc : w1.own c = some t := (hts1.own c (hts1.live c mc)).2 ((hO c).2 (Or.inr (Or.inl rfl)))
  have oq : w1.own q = some t := (hts1.own q (hts1.live q mq)).2 ((hO q).2 (Or.inr (Or.inr rfl)))
  have hqf : q < w1.mem.fresh := hi.mine_lt (hts1.mine mq)
  obtain ⟨G1, G2, hg⟩ := hi.grp hpgc1
  obtain ⟨un2, gr', e1, ⟨wf', np', ct', atc, atq⟩, egr, fr, -⟩ := hi.good.wf.splitChild hR hi.good.np
    (by have := hpgP1.le; omega) hpgP1.at' hrecs hc hg hpgc1.at' hch hlo'
    (vh_of_cells hq0 hq1) (Nat.le_refl _) hqf hroom hs
  obtain rfl : un2 = un' := by rw [hpl] at e1; exact (Res.ok.inj e1).symm
  have hP0 := hi.at_ne hpgP1.at'
  have hc0 := hi.at_ne hpgc1.at'
  have hPc : P ≠ c := hi.ne_of_lvl hpgP1 hpgc1 (by omega)
  have hPq : P ≠ q := by
    rintro rfl
    rw [hi.at_cells hpgP1.at'] at hq1; cases hq1
  have hcq : c ≠ q := by
    rintro rfl
    rw [hi.at_cells hpgc1.at'] at hq1; cases hq1
  have hvq : ∀ x j, j ≤ w1.H → x ∈ flat (w1.gr j) → x ≠ q := by
    rintro x j hj hx rfl
    obtain ⟨n, lo, hat⟩ := hi.good.wf.at_of_mem hj hx
    rw [hi.at_cells hat] at hq1; cases hq1
  let vh2 := upd (upd (upd w1.vh c l) q rn) P un2
  let own2 : Ptr → Option Tid := fun x => if x ∈ [q] then none else w1.own x
  let W2 : World K V := { w1 with mem := w1.mem.setHeap c l, vh := vh2, gr := gr', own := own2 }
  have hvo : ∀ x, x ≠ P → x ≠ c → x ≠ q → vh2 x = w1.vh x := by
    intro x h1 h2 h3
    show upd (upd (upd w1.vh c l) q rn) P un2 x = _
    rw [upd_other _ h1, upd_other _ h3, upd_other _ h2]
  have hcell : ∀ x, x ≠ P → x ≠ c → x ≠ q → W2.cells x = w1.cells x := by
    intro x h1 h2 h3
    show (if x = 0 then _ else vh2 x) = (if x = 0 then _ else w1.vh x)
    rw [hvo x h1 h2 h3]
  have hhigh : ∀ x, x ≠ c → x ≠ q → highOf vh2 x = highOf w1.vh x := by
    intro x h2 h3
    by_cases h1 : x = P
    · subst h1
      have e : w1.vh x = some un := hpgP1.at'.heap
      simp only [highOf, vh2, upd_same, e]
      simp [fr.high]
    · simp only [highOf, hvo x h1 h2 h3]
  have hheap : ∀ x, x ≠ c → W2.mem.heap x = w1.mem.heap x := by
    intro x h
    show (w1.mem.setHeap c l).heap x = _
    rw [setHeap_heap, if_neg h]
  have hat : ∀ x j m lo, x ≠ P → x ≠ c → x ≠ q → j ≤ w1.H → At cfg w1.st w1.gr j x m lo → At cfg W2.st W2.gr j x m lo := by
    intro x j m lo h1 h2 h3 hj h
    have hx : W2.st.heap x = some m := (hvo x h1 h2 h3).trans h.heap
    by_cases hji : j = i
    · subst hji
      refine at_insert (c := c) (r := q) (U := flat G1) (Y := flat G2) hi.good.wf wf' hj hj (by rw [hg]; simp)
        (by show flat (gr' j) = _; rw [egr, Function.update_self]; simp) ?_ ?_ h2 h hx
      · intro y hy
        have hn := hi.good.wf.nodup hj
        rw [hg] at hn
        simp only [flat_append, flat_cons, List.nil_append] at hn
        have hyc : y ≠ c := by
          rintro rfl
          rw [List.nodup_append, List.nodup_cons] at hn
          rcases List.mem_append.1 hy with hy | hy
          · exact hn.2.2 y hy y (by simp) rfl
          · exact hn.2.1.1 hy
        refine hhigh y hyc (hvq y j hj ?_)
        rw [hg]
        simp only [flat_append, flat_cons, List.nil_append, List.mem_append, List.mem_cons] at hy ⊢
        tauto
      · show highOf vh2 q = highOf w1.vh c
        have a1 : vh2 q = some rn := by
          show upd (upd (upd w1.vh c l) q rn) P un2 q = _
          rw [upd_other _ hPq.symm, upd_same]
        have e : w1.vh c = some cn := hpgc1.at'.heap
        simp only [highOf, a1, e]
        simp [hs.rhigh]
    · refine h.transfer wf' hj (by show flat (gr' j) = _; rw [egr, Function.update_of_ne hji]) ?_ hx
      intro y hy
      refine hhigh y ?_ (hvq y j hj hy)
      rintro rfl
      exact hji (hi.good.wf.disj j hj i (by have := hpgP1.le; omega) y hy hpgc1.at'.mem)
  have cP : W2.cells P = some un2 := by
    show (if P = 0 then _ else vh2 P) = _
    rw [if_neg hP0]
    exact upd_same _ _ _
  have cc : W2.cells c = some l := by
    show (if c = 0 then _ else vh2 c) = _
    rw [if_neg hc0]
    show upd (upd (upd w1.vh c l) q rn) P un2 c = _
    rw [upd_other _ hPc.symm, upd_other _ hcq, upd_same]
  have cq : W2.cells q = some rn := by
    show (if q = 0 then _ else vh2 q) = _
    rw [if_neg hq0]
    show upd (upd (upd w1.vh c l) q rn) P un2 q = _
    rw [upd_other _ hPq.symm, upd_same]
  have hcm : Cmt cfg t w1 W2 X O [q] c l := {
    mem := rfl
    pO := (hO c).2 (Or.inr (Or.inl rfl))
    own := rfl
    ps := rfl
    good := ⟨wf', np'⟩
    contents := ct'
    zero := by
      show vh2 0 = none
      rw [hvo 0 hP0.symm hc0.symm hq0.symm]; exact hi.zero.1
    cells := fun x hx => by
      rw [hO, not_or, not_or] at hx
      exact hcell x hx.1 hx.2.1 hx.2.2
    sub := fun x hx => by
      simp only [List.mem_cons, List.not_mem_nil, or_false] at hx
      subst hx
      exact ⟨(hO _).2 (by tauto), hqX, by rw [hheap _ hcq.symm, hhq1, cq]⟩
    guard := fun x h1 h2 => by
      rcases (hO x).1 h1 with rfl | rfl | rfl
      · exact Or.inl hP
      · exact Or.inl hcX
      · simp at h2
    at' := fun x j m lo hx h1 h2 => by
      rw [hO, not_or, not_or] at hx
      exact ⟨h1, hat x j m lo hx.1 hx.2.1 hx.2.2 h1 h2⟩
    top := fun _ => rfl }
  refine ⟨W2, rfl, hcm.cm hi hts1, fun _ h => h, ?_⟩
  intro hi2
  have hpar2 : W2.Par P q := by
    obtain ⟨-, hm⟩ := placeChild_par hrecs hpl
    refine ⟨un2, cP, ?_, _, hm, rfl⟩
    obtain ⟨n2, lo2, hat2⟩ := hi2.good.wf.at_of_mem (i := i + 1) hpgP1.le (p := P) (by
      show P ∈ flat (gr' (i + 1))
      rw [egr, Function.update_of_ne (by omega)]
      exact hpgP1.at'.mem)
    have e : n2 = un2 := by
      have := hi2.at_cells hat2
      rw [cP, Option.some.injEq] at this
      exact this.symm
    rw [← e]
    exact hat2.okS.kind
  refine hk _ hi2 (hcm.kp hr hts) (hcm.ts hts1 ?_) ?_ ⟨hpgP1.le, ?_⟩ ⟨hpgc1.le, atc⟩ ⟨hpgc1.le, atq⟩ ?_ hpar2 ?_
  · intro x
    simp only [hO, List.mem_cons, List.not_mem_nil, or_false]
    constructor
    · rintro (rfl | rfl)
      · exact ⟨Or.inl rfl, hPq⟩
      · exact ⟨Or.inr (Or.inl rfl), hcq⟩
    · rintro ⟨h1 | h1 | h1, h2⟩
      · exact Or.inl h1
      · exact Or.inr h1
      · exact absurd h1 h2
  · rw [hheap _ hPc]
    exact hr.kp0.heap hts mP
  · refine hpgP1.at'.transfer wf' hpgP1.le (by show flat (gr' (i + 1)) = _; rw [egr, Function.update_of_ne (by omega)]) ?_ ?_
    · intro y hy
      refine hhigh y ?_ (hvq y _ hpgP1.le hy)
      rintro rfl
      have := hi.good.wf.disj (i + 1) hpgP1.le i (Nat.le_of_succ_le hpgP1.le) y hy hpgc1.at'.mem
      omega
    · exact vh_of_cells hP0 cP
  · show (w1.mem.setHeap c l).heap c = _
    rw [setHeap_heap, if_pos rfl]
  · have hgq := hts1.live q mq
    obtain ⟨-, -, o3, o4⟩ := hi.owned q t oq
    refine ⟨P, hP0, hpar2, (hts1.x P (hts1.live P mP)).2 hP, ?_, ?_⟩
    · rcases o3 with o3 | o3
      · exact o3
      · exact absurd ((hts1.six q hgq).1 o3) hqI
    · rcases o4 with o4 | o4
      · exact o4
      · exact absurd ((hts1.x q hgq).1 o4) hqX

/-- Writing the left page: a merge takes effect. -/
theorem wp_store_merge {L : Nat} {kc : Unit → Prog K V α} {P c q : Ptr} {i : Nat} {un un' cn qn mn : Node K V} {lo lo' : Bd K}
    {T D : List (Rec K V)} {rr d : Rec K V}
    (hR : Roomy cfg L) (hts : TS w t S I X O) (hP : P ∈ X) (hqX : q ∈ X) (hO : ∀ x, x ∈ O ↔ x = P ∨ x = c ∨ x = q)
    (hcX : c ∈ X) (hpgP : Pg cfg w (i + 1) P un lo) (hpgc : Pg cfg w i c cn lo') (hrecs : un.recs = T ++ rr :: d :: D)
    (hc : rr.toPtr = c) (hq : d.toPtr = q) (hch : cn.high = d.key) (hcq1 : w.cells q = some qn) (hq0 : q ≠ 0)
    (hcan : cn.canMerge cfg qn = true) (hm : cn.merge cfg qn = .ok mn) (hd : un.dropChild cfg (T.length + 1) = .ok un')
    (hk : ∀ w2, PInv cfg w2 → KpO cfg t w w2 → TS w2 t S I X O → w2.mem.heap P = w.mem.heap P →
      w2.cells P = some un' → Pg cfg w2 i c mn lo' → w2.cells q = none → w2.mem.heap c = some mn → WP cfg t (kc ()) Q w2) :
    WP cfg t (Prog.store c mn >>= kc) Q w := by
  refine wp_store hts hcX ?_
  intro w1 hi hr hts1
  have mP : P ∈ S ++ I ++ X ++ O := by simp [hP]
  have mc : c ∈ S ++ I ++ X ++ O := by simp [hO]
  have mq : q ∈ S ++ I ++ X ++ O := by simp [hO]
  have hpgP1 := hr.kp0.pg hts mP hpgP
  have hpgc1 := hr.kp0.pg hts mc hpgc
  have hcq2 : w1.cells q = some qn := (hr.kp0.cells hts mq).trans hcq1
  obtain ⟨G1, G2, hg⟩ := hi.grp hpgc1
  obtain ⟨mn2, un2, gr', e1, e2, hcq, hPc, hPq, fr, mpost, ⟨wf', np', ct', atc⟩, egr, ⟨G3, hG, egr'⟩, -⟩ :=
    hi.good.wf.mergeChild (L := L) hR hi.good.np (by have := hpgP1.le; omega) hpgP1.at' hrecs hc hq hg hpgc1.at' hch
    (vh_of_cells hq0 hcq2) hcan
  obtain rfl : mn2 = mn := by rw [hm] at e1; exact (Res.ok.inj e1).symm
  obtain rfl : un2 = un' := by rw [hd] at e2; exact (Res.ok.inj e2).symm
  have hP0 := hi.at_ne hpgP1.at'
  have hc0 := hi.at_ne hpgc1.at'
  let vh2 := del (upd (upd w1.vh c mn2) P un2) q
  let own2 : Ptr → Option Tid := fun x => if x ∈ ([] : List Ptr) then none else w1.own x
  let W2 : World K V := { w1 with mem := w1.mem.setHeap c mn2, vh := vh2, gr := gr', own := own2 }
  have hvo : ∀ x, x ≠ P → x ≠ c → x ≠ q → vh2 x = w1.vh x := by
    intro x h1 h2 h3
    show del (upd (upd w1.vh c mn2) P un2) q x = _
    rw [del_other _ h3, upd_other _ h1, upd_other _ h2]
  have hcell : ∀ x, x ≠ P → x ≠ c → x ≠ q → W2.cells x = w1.cells x := by
    intro x h1 h2 h3
    show (if x = 0 then _ else vh2 x) = (if x = 0 then _ else w1.vh x)
    rw [hvo x h1 h2 h3]
  have hhigh : ∀ x, x ≠ c → x ≠ q → highOf vh2 x = highOf w1.vh x := by
    intro x h2 h3
    by_cases h1 : x = P
    · subst h1
      have e : w1.vh x = some un := hpgP1.at'.heap
      have e' : vh2 x = some un2 := by
        show del (upd (upd w1.vh c mn2) x un2) q x = _
        rw [del_other _ h3, upd_same]
      simp only [highOf, e, e']
      simp [fr.high]
    · simp only [highOf, hvo x h1 h2 h3]
  have hheap : ∀ x, x ≠ c → W2.mem.heap x = w1.mem.heap x := by
    intro x h
    show (w1.mem.setHeap c mn2).heap x = _
    rw [setHeap_heap, if_neg h]
  have hfl : flat (w1.gr i) = flat G1 ++ c :: q :: flat G3 := by rw [hg, hG]; simp
  have hle : i ≤ w1.H := hpgc1.le
  have hqm : q ∈ flat (w1.gr i) := by rw [hfl]; simp
  have cP : W2.cells P = some un2 := by
    show (if P = 0 then _ else vh2 P) = _
    rw [if_neg hP0]
    show del (upd (upd w1.vh c mn2) P un2) q P = _
    rw [del_other _ hPq, upd_same]
  have vc : vh2 c = some mn2 := by
    show del (upd (upd w1.vh c mn2) P un2) q c = _
    rw [del_other _ hcq, upd_other _ hPc.symm, upd_same]
  have cc : W2.cells c = some mn2 := by
    show (if c = 0 then _ else vh2 c) = _
    rw [if_neg hc0, vc]
  have cq : W2.cells q = none := by
    show (if q = 0 then _ else vh2 q) = _
    rw [if_neg hq0]
    show del (upd (upd w1.vh c mn2) P un2) q q = _
    simp [del]
  have hat : ∀ x j m lo, x ≠ P → x ≠ c → x ≠ q → j ≤ w1.H → At cfg w1.st w1.gr j x m lo → At cfg W2.st W2.gr j x m lo := by
    intro x j m lo h1 h2 h3 hj h
    have hx : W2.st.heap x = some m := (hvo x h1 h2 h3).trans h.heap
    by_cases hji : j = i
    · subst hji
      refine at_remove (c := c) (r := q) (U := flat G1) (Y := flat G3) hi.good.wf wf' hj hj hfl
        (by show flat (gr' j) = _; rw [egr']; simp) ?_ ?_ h2 h3 h hx
      · intro y hy
        have hn := hi.good.wf.nodup hj
        rw [hfl, List.nodup_append, List.nodup_cons, List.nodup_cons] at hn
        obtain ⟨-, ⟨n1, n2, -⟩, n3⟩ := hn
        rcases List.mem_append.1 hy with hy | hy
        · exact hhigh y (n3 y hy c (by simp)) (n3 y hy q (by simp))
        · refine hhigh y ?_ ?_
          · rintro rfl; exact n1 (List.mem_cons_of_mem _ hy)
          · rintro rfl; exact n2 hy
      · show highOf vh2 c = highOf w1.vh q
        have e : w1.vh q = some qn := vh_of_cells hq0 hcq2
        simp only [highOf, vc, e]
        simp [mpost.high]
    · refine h.transfer wf' hj (by show flat (gr' j) = _; rw [egr j hji]) ?_ hx
      intro y hy
      refine hhigh y ?_ ?_
      · rintro rfl
        exact hji (hi.good.wf.disj j hj i hle y hy hpgc1.at'.mem)
      · rintro rfl
        exact hji (hi.good.wf.disj j hj i hle y hy hqm)
  have hcm : Cmt cfg t w1 W2 X O [] c mn2 := {
    mem := rfl
    pO := (hO c).2 (Or.inr (Or.inl rfl))
    own := rfl
    ps := rfl
    good := ⟨wf', np'⟩
    contents := ct'
    zero := by
      show vh2 0 = none
      rw [hvo 0 hP0.symm hc0.symm hq0.symm]; exact hi.zero.1
    cells := fun x hx => by
      rw [hO, not_or, not_or] at hx
      exact hcell x hx.1 hx.2.1 hx.2.2
    sub := fun x hx => by cases hx
    guard := fun x h1 h2 => by
      rcases (hO x).1 h1 with rfl | rfl | rfl
      · exact Or.inl hP
      · exact Or.inl hcX
      · exact Or.inr cq
    at' := fun x j m lo hx h1 h2 => by
      rw [hO, not_or, not_or] at hx
      exact ⟨h1, hat x j m lo hx.1 hx.2.1 hx.2.2 h1 h2⟩
    top := fun _ => rfl }
  refine ⟨W2, rfl, hcm.cm hi hts1, fun _ h => h, ?_⟩
  intro hi2
  refine hk _ hi2 (hcm.kp hr hts) (hcm.ts hts1 (by simp)) ?_ cP ⟨hpgc1.le, atc⟩ cq ?_
  · rw [hheap _ hPc]
    exact hr.kp0.heap hts mP
  · show (w1.mem.setHeap c mn2).heap c = _
    rw [setHeap_heap, if_pos rfl]

/-- Writing the tree object: a new root takes effect. -/
theorem wp_store_root {L : Nat} {kc : Unit → Prog K V α} {c q r : Ptr} {n l rn rt : Node K V} {sep : K}
    (hR : Roomy cfg L) (hts : TS w t S I X O) (h0 : 0 ∈ X) (hO : ∀ x, x ∈ O ↔ x = 0 ∨ x = c ∨ x = q ∨ x = r)
    (hcX : c ∉ X) (hqX : q ∉ X) (hrX : r ∉ X) (hroot : w.root = c) (hpgc : Pg cfg w w.H c n .bot)
    (hq : w.cells q = none) (hq0 : q ≠ 0) (hrc : w.cells r = none) (hr0 : r ≠ 0) (hrq : r ≠ q)
    (hs : SplitPost cfg L (decide (w.H ≠ 0)) .bot n q l rn sep) (hrt : Node.newRoot cfg (some sep) c q = .ok rt)
    (hhc : w.mem.heap c = some l) (hhq : w.mem.heap q = some rn) (hhr : w.mem.heap r = some rt)
    (hk : ∀ w2, PInv cfg w2 → KpO cfg t w w2 → TS w2 t S I X [0] → w2.mem.heap 0 = w2.cells 0 → Pg cfg w2 w.H c l .bot →
      Pg cfg w2 w.H q rn (.key sep) → w2.mem.heap c = some l → w2.mem.heap q = some rn → WP cfg t (kc ()) Q w2) :
    WP cfg t (Prog.store 0 (treePage r) >>= kc) Q w := by
  refine wp_store hts h0 ?_
  intro w1 hi hr hts1
  have m0 : 0 ∈ S ++ I ++ X ++ O := by simp [h0]
  have mc : c ∈ S ++ I ++ X ++ O := by simp [hO]
  have mq : q ∈ S ++ I ++ X ++ O := by simp [hO]
  have mr : r ∈ S ++ I ++ X ++ O := by simp [hO]
  obtain ⟨eR, eH⟩ := hr.kp0.root hts m0
  rw [hroot] at eR
  have hpgc1 := hr.kp0.pg hts mc hpgc
  have hq1 : w1.cells q = none := (hr.kp0.cells hts mq).trans hq
  have hrc1 : w1.cells r = none := (hr.kp0.cells hts mr).trans hrc
  have hhc1 : w1.mem.heap c = some l := (hr.kp0.heap hts mc).trans hhc
  have hhq1 : w1.mem.heap q = some rn := (hr.kp0.heap hts mq).trans hhq
  have hhr1 : w1.mem.heap r = some rt := (hr.kp0.heap hts mr).trans hhr
  have hqf : q < w1.mem.fresh := hi.mine_lt (hts1.mine mq)
  have hrf : r < w1.mem.fresh := hi.mine_lt (hts1.mine mr)
  rw [← eH] at hpgc1 hs
  have hc0 := hi.at_ne hpgc1.at'
  have hcq : c ≠ q := by
    rintro rfl
    rw [hi.at_cells hpgc1.at'] at hq1; cases hq1
  have hcr : c ≠ r := by
    rintro rfl
    rw [hi.at_cells hpgc1.at'] at hrc1; cases hrc1
  obtain ⟨rt2, gr', e1, ⟨wf', np', ct', -, atc, atq⟩, g1, g2, g3⟩ := hi.good.wf.splitRoot hR hi.good.np (by rw [show w1.st.root = c from eR]; exact hpgc1.at')
    (vh_of_cells hq0 hq1) (vh_of_cells hr0 hrc1) hrq (Nat.le_refl _) hqf hrf hs
  rw [show w1.st.root = c from eR] at e1 wf' ct' atc atq
  obtain rfl : rt2 = rt := by rw [hrt] at e1; exact (Res.ok.inj e1).symm
  have hvn : ∀ x j, j ≤ w1.H → x ∈ flat (w1.gr j) → x ≠ q ∧ x ≠ r := by
    intro x j hj hx
    obtain ⟨n, lo, hat⟩ := hi.good.wf.at_of_mem hj hx
    constructor
    · rintro rfl
      rw [hi.at_cells hat] at hq1; cases hq1
    · rintro rfl
      rw [hi.at_cells hat] at hrc1; cases hrc1
  let vh2 := upd (upd (upd w1.vh c l) q rn) r rt2
  let own2 : Ptr → Option Tid := fun x => if x ∈ [c, q, r] then none else w1.own x
  let W2 : World K V := { w1 with mem := w1.mem.setHeap 0 (treePage r), vh := vh2, gr := gr', own := own2, root := r, H := w1.H + 1 }
  have hvo : ∀ x, x ≠ c → x ≠ q → x ≠ r → vh2 x = w1.vh x := by
    intro x h2 h3 h4
    show upd (upd (upd w1.vh c l) q rn) r rt2 x = _
    rw [upd_other _ h4, upd_other _ h3, upd_other _ h2]
  have hcell : ∀ x, x ≠ 0 → x ≠ c → x ≠ q → x ≠ r → W2.cells x = w1.cells x := by
    intro x h1 h2 h3 h4
    show (if x = 0 then _ else vh2 x) = (if x = 0 then _ else w1.vh x)
    rw [hvo x h2 h3 h4, if_neg h1, if_neg h1]
  have hhigh : ∀ x, x ≠ c → x ≠ q → x ≠ r → highOf vh2 x = highOf w1.vh x := by
    intro x h2 h3 h4
    simp only [highOf, hvo x h2 h3 h4]
  have hheap : ∀ x, x ≠ 0 → W2.mem.heap x = w1.mem.heap x := by
    intro x h
    show (w1.mem.setHeap 0 (treePage r)).heap x = _
    rw [setHeap_heap, if_neg h]
  have cc : W2.cells c = some l := by
    show (if c = 0 then _ else vh2 c) = _
    rw [if_neg hc0]
    show upd (upd (upd w1.vh c l) q rn) r rt2 c = _
    rw [upd_other _ hcr, upd_other _ hcq, upd_same]
  have cq : W2.cells q = some rn := by
    show (if q = 0 then _ else vh2 q) = _
    rw [if_neg hq0]
    show upd (upd (upd w1.vh c l) q rn) r rt2 q = _
    rw [upd_other _ hrq.symm, upd_same]
  have cr : W2.cells r = some rt2 := by
    show (if r = 0 then _ else vh2 r) = _
    rw [if_neg hr0]
    exact upd_same _ _ _
  have hat : ∀ x j m lo, x ≠ c → x ≠ q → x ≠ r → j ≤ w1.H → At cfg w1.st w1.gr j x m lo → j ≤ W2.H ∧ At cfg W2.st W2.gr j x m lo := by
    intro x j m lo h1 h2 h3 hj h
    have hx : W2.st.heap x = some m := (hvo x h1 h2 h3).trans h.heap
    have hj' : j ≤ w1.H + 1 := Nat.le_succ_of_le hj
    refine ⟨hj', ?_⟩
    have hjH : j ≠ w1.H := by
      rintro rfl
      have := h.mem
      rw [hi.root_mem] at this
      simp only [flat_cons, flat_nil, List.append_nil, List.mem_singleton] at this
      exact h1 (this.trans eR)
    refine h.transfer wf' hj' (by show flat (gr' j) = _; rw [g3 j (by omega)]) ?_ hx
    intro y hy
    obtain ⟨y1, y2⟩ := hvn y j hj hy
    refine hhigh y ?_ y1 y2
    rintro rfl
    exact hjH (hi.good.wf.disj j hj w1.H (Nat.le_refl _) y hy hpgc1.at'.mem)
  have hcm : Cmt cfg t w1 W2 X O [c, q, r] 0 (treePage r) := {
    mem := rfl
    pO := (hO 0).2 (Or.inl rfl)
    own := rfl
    ps := rfl
    good := ⟨wf', np'⟩
    contents := ct'
    zero := by
      show vh2 0 = none
      rw [hvo 0 hc0.symm hq0.symm hr0.symm]; exact hi.zero.1
    cells := fun x hx => by
      rw [hO, not_or, not_or, not_or] at hx
      exact hcell x hx.1 hx.2.1 hx.2.2.1 hx.2.2.2
    sub := fun x hx => by
      simp only [List.mem_cons, List.not_mem_nil, or_false] at hx
      rcases hx with rfl | rfl | rfl
      · exact ⟨(hO _).2 (by tauto), hcX, by rw [hheap _ hc0, hhc1, cc]⟩
      · exact ⟨(hO _).2 (by tauto), hqX, by rw [hheap _ hq0, hhq1, cq]⟩
      · exact ⟨(hO _).2 (by tauto), hrX, by rw [hheap _ hr0, hhr1, cr]⟩
    guard := fun x h1 h2 => by
      rcases (hO x).1 h1 with rfl | rfl | rfl | rfl
      · exact Or.inl h0
      · simp at h2
      · simp at h2
      · simp at h2
    at' := fun x j m lo hx h1 h2 => by
      rw [hO, not_or, not_or, not_or] at hx
      exact hat x j m lo hx.2.1 hx.2.2.1 hx.2.2.2 h1 h2
    top := fun h => absurd ((hO 0).2 (Or.inl rfl)) h }
  refine ⟨W2, rfl, hcm.cm hi hts1, fun _ h => h, ?_⟩
  intro hi2
  refine hk _ hi2 (hcm.kp hr hts) (hcm.ts hts1 ?_) ?_ ?_ ?_ ?_ ?_
  · intro x
    simp only [hO, List.mem_cons, List.not_mem_nil, or_false]
    constructor
    · rintro rfl
      exact ⟨Or.inl rfl, by rintro (e | e | e); exacts [hc0 e.symm, hq0 e.symm, hr0 e.symm]⟩
    · rintro ⟨h1 | h1, h2⟩
      · exact h1
      · exact absurd h1 h2
  · rfl
  · rw [← eH]
    exact ⟨Nat.le_succ _, atc⟩
  · rw [← eH]
    exact ⟨Nat.le_succ _, atq⟩
  · rw [hheap _ hc0, hhc1]
  · rw [hheap _ hq0, hhq1]

/-! ## Releasing pages -/

theorem not_busy {l : Lk} (hs : l.s = []) (h6 : l.six = none ∨ l.six = some t) (hx : l.x = none ∨ l.x = some t) : l.busy t = false := by
  simp only [Lk.busy, hs, List.any_nil, Bool.false_or, Bool.or_eq_false_iff, decide_eq_false_iff_not]
  tauto

/-- Releasing a page nobody else knows. -/
theorem wp_free_own {k : Unit → Prog K V α} (hts : TS w t S I X O) (hp : p ∈ O) (hcl : w.cells p = none) (hS : p ∉ S) (hI : p ∉ I)
    (hX' : ∀ q, q ∈ X' ↔ q ∈ X ∧ q ≠ p) (hO' : ∀ q, q ∈ O' ↔ q ∈ O ∧ q ≠ p)
    (hk : ∀ w2, PInv cfg w2 → Kp cfg t (· = p) w w2 → TS w2 t S I X' O' → WP cfg t (k ()) Q w2) :
    WP cfg t (Prog.free p >>= k) Q w := by
  intro (w1 : World K V) (hr : Rely cfg t w w1) (hi : PInv cfg w1)
  have hts1 := hts.rely hr
  have mp : p ∈ S ++ I ++ X ++ O := by simp [hp]
  have hg := hts1.live p mp
  have hown : w1.own p = some t := (hts1.own p hg).2 hp
  have hcl1 : w1.cells p = none := (hr.kp0.cells hts mp).trans hcl
  obtain ⟨o1, o2, o3, o4⟩ := hi.owned p t hown
  obtain ⟨n, hn⟩ := Option.ne_none_iff_exists'.1 o1
  have hb : (w1.mem.lk p).busy t = false := not_busy o2 o3 o4
  let W2 : World K V := { w1 with mem := { w1.mem with gc := p :: w1.mem.gc } }
  have hcm : Cm cfg t w1 W2 := {
    good := hi.good
    zero := hi.zero.1
    map := hi.map
    raced := hi.raced
    lk := rfl
    fresh := rfl
    heap := fun _ _ => rfl
    heap' := fun _ h => h
    own := fun _ _ => ⟨rfl, rfl⟩
    own' := fun _ h => Or.inr h
    clean := fun q h1 h2 => by
      have : w1.own q = none := h2
      rw [h1] at this; cases this
    guard := fun q h1 _ h3 => hi.guard q t h1 h3
    xown := fun q hq => hi.xown q t hq
    gc := fun q hq => List.mem_cons_of_mem _ hq
    gc' := fun q hq => by
      have hq : q ∈ p :: w1.mem.gc := hq
      refine ⟨fun h => ⟨h, ?_⟩, fun h => ?_⟩
      · rcases List.mem_cons.1 hq with rfl | hq
        · exact hcl1
        · exact (hi.gc q hq).1
      · rcases List.mem_cons.1 hq with rfl | hq
        · exact absurd hown h
        · exact hq
    at' := fun _ _ _ _ _ h1 h2 => ⟨h1, h2⟩
    top := fun _ => rfl
    ph := fun _ _ => rfl
    now := Nat.le_refl _
    maps := fun _ _ => rfl }
  have hok := hcm.ok hi
  refine step_page (w2 := W2) (b := ()) ?_ ?_ hok (fun _ h => h) ?_
  · simp only [Act.run, hn, hb, Bool.or_false]
    rfl
  · intro q e; cases e; exact hg
  · have hgc : ∀ q, q ∉ W2.mem.gc → q ≠ p ∧ q ∉ w1.mem.gc := by
      intro q hq
      have : q ∉ p :: w1.mem.gc := hq
      simpa using this
    refine hk _ hok.1 (hr.kp_trans ⟨?_, rfl, Nat.le_refl _⟩) ⟨?_, ?_, ?_, ?_, ?_⟩
    · intro q _ hne
      refine ⟨rfl, rfl, ?_, fun _ => rfl, fun _ _ _ h1 h2 => ⟨h1, h2⟩⟩
      intro h
      have h : q ∈ p :: w1.mem.gc := h
      rcases List.mem_cons.1 h with h | h
      · exact absurd h hne
      · exact h
    · intro q hq
      exact hts1.s q (hgc q hq).2
    · intro q hq
      exact hts1.six q (hgc q hq).2
    · intro q hq
      rw [hX']
      have := hts1.x q (hgc q hq).2
      exact this.trans ⟨fun h => ⟨h, (hgc q hq).1⟩, fun h => h.1⟩
    · intro q hq
      rw [hO']
      have := hts1.own q (hgc q hq).2
      exact this.trans ⟨fun h => ⟨h, (hgc q hq).1⟩, fun h => h.1⟩
    · intro q hq
      show q ∉ p :: w1.mem.gc
      rw [List.mem_cons]
      simp only [List.mem_append, hX', hO'] at hq
      rintro (h | h)
      · subst h
        tauto
      · refine hts1.live q ?_ h
        simp only [List.mem_append]
        tauto

/-- Releasing the root when it has a single child: the child becomes the root. -/
theorem wp_free_root {k : Unit → Prog K V α} {h : Nat} {root child : Ptr} {n : Node K V} {r : Rec K V} (hts : TS w t S I X O)
    (hO : ∀ x, x ∈ O ↔ x = 0) (h0 : 0 ∈ X) (hS : root ∉ S) (hI : root ∈ I)
    (hroot : w.root = root) (hH : w.H = h + 1) (hpg : Pg cfg w (h + 1) root n .bot) (hrecs : n.recs = [r]) (hch : r.toPtr = child)
    (hI' : ∀ q, q ∈ I' ↔ q ∈ I ∧ q ≠ root)
    (hk : ∀ w2, PInv cfg w2 → Kp cfg t (fun q => q = 0 ∨ q = root) w w2 → TS w2 t S I' X O → w2.root = child → w2.H = h → WP cfg t (k ()) Q w2) :
    WP cfg t (Prog.free root >>= k) Q w := by
  intro (w1 : World K V) (hr : Rely cfg t w w1) (hi : PInv cfg w1)
  have hts1 := hts.rely hr
  have m0 : 0 ∈ S ++ I ++ X ++ O := by simp [h0]
  have mr : root ∈ S ++ I ++ X ++ O := by simp [hI]
  obtain ⟨eR, eH⟩ := hr.kp0.root hts m0
  rw [hroot] at eR
  rw [hH] at eH
  have hpg1 := hr.kp0.pg hts mr hpg
  have hr0 := hi.at_ne hpg1.at'
  have hg := hts1.live root mr
  have h6 : (w1.lk root).six = some t := (hts1.six root hg).2 hI
  have hx0 : (w1.lk 0).x = some t := (hts1.x 0 (hts1.live 0 m0)).2 h0
  have hxr : (w1.lk root).x = none := by
    cases e : (w1.lk root).x with
    | none => rfl
    | some u => rw [(hi.lkx root u e).1] at h6; cases h6
  have hrO : root ∉ O := fun e => hr0 ((hO root).1 e)
  have hown : w1.own root = none := by
    cases e : w1.own root with
    | none => rfl
    | some u =>
      have := (hi.owned root u e).2.2.1
      rw [h6] at this
      rcases this with e' | e' <;> cases e'
      exact absurd ((hts1.own root hg).1 e) hrO
  have hnt : t ∉ (w1.lk root).s := fun e => hS ((hts1.s root hg).1 e)
  have hheap : w1.mem.heap root = some n := by rw [hi.clean root hown (by rw [hi.at_cells hpg1.at']; simp), hi.at_cells hpg1.at']
  by_cases hs : (w1.lk root).s = []
  · have hb : (w1.mem.lk root).busy t = false := not_busy hs (Or.inr h6) (Or.inl hxr)
    have hpar : w1.Par 0 root := by rw [par0_iff]; exact eR.symm
    have hoka := relock_ok (t := t) (p := root) (l := w1.lk root) (o := some t) hi (fun _ _ => Iff.rfl) (fun _ _ => Iff.rfl) (Or.inl hown)
      (Or.inr rfl) (fun u e => hi.lkx root u e) (hi.nodup root) (by simp)
      (fun _ => ⟨by rw [hheap]; simp, hs, Or.inr h6, Or.inl hxr⟩)
      (fun _ _ => Or.inr ⟨0, ⟨rfl, hpar⟩, hr0.symm, hx0⟩)
      (fun p' hne h1 h2 => by
        rcases hi.guard p' t h1 h2 with h | ⟨q, h3, h4⟩
        · exact Or.inl h
        · refine Or.inr ⟨q, h3, ?_⟩
          split
          · next e => rw [e] at h4; exact h4
          · exact h4)
      (fun u e => by rw [hxr] at e; cases e) hg (hi.mine_lt (Or.inr (Or.inl h6))) (fun _ _ _ _ _ _ a b => ⟨a, b⟩)
    have e1 : w1.st.root = root := eR
    have hgr := hi.root_mem
    rw [eH, eR] at hgr
    have wf1 := hi.good.wf
    rw [eH] at wf1
    have hnp : NoPend (h + 1) w1.gr := by have := hi.good.np; rw [eH] at this; exact this
    obtain ⟨wf', ct'⟩ := wf1.shrinkRoot (by rw [e1]; exact hgr) (by rw [e1]; exact hpg1.at'.heap) hrecs
    rw [hch, e1] at wf' ct'
    let W1 := w1.relock root (w1.lk root) (some t)
    have hlkW : W1.mem.lk = w1.mem.lk := by
      funext q
      show (if q = root then w1.mem.lk root else w1.mem.lk q) = _
      split
      · next e => rw [e]
      · rfl
    have hi1 : PInv cfg W1 := hoka.1
    let W2 : World K V := { W1 with mem := { w1.mem with gc := root :: w1.mem.gc }, vh := del w1.vh root, root := child, H := h }
    have hown1 : ∀ q, W1.own q = if q = root then some t else w1.own q := fun q => rfl
    have own_of : ∀ q, q ∉ w1.mem.gc → W1.own q = some t → q = root ∨ q = 0 := by
      intro q hq
      rw [hown1]
      split
      · next e => exact fun _ => Or.inl e
      · intro e
        exact Or.inr ((hO q).1 ((hts1.own q hq).1 e))
    have o0 : W1.own 0 = some t := by
      rw [hown1, if_neg hr0.symm]
      exact hi.xown 0 t hx0
    have orr : W1.own root = some t := by rw [hown1, if_pos rfl]
    have hcell : ∀ q, q ≠ 0 → q ≠ root → W2.cells q = W1.cells q := by
      intro q h1 h2
      show (if q = 0 then _ else del w1.vh root q) = (if q = 0 then _ else w1.vh q)
      rw [if_neg h1, if_neg h1, del_other _ h2]
    have hcr : W2.cells root = none := by
      show (if root = 0 then _ else del w1.vh root root) = _
      rw [if_neg hr0]
      simp [del]
    have hat : ∀ q j m lo, q ≠ root → j ≤ w1.H → At cfg w1.st w1.gr j q m lo → j ≤ h ∧ At cfg W2.st W2.gr j q m lo := by
      intro q j m lo hq hj hat
      have hjh : j ≤ h := by
        rw [eH] at hj
        by_contra hc
        have e : j = h + 1 := by omega
        subst e
        have := hat.mem
        rw [hgr] at this
        simp only [flat_cons, flat_nil, List.append_nil, List.mem_singleton] at this
        exact hq this
      refine ⟨hjh, ?_⟩
      refine hat.transfer wf' hjh rfl ?_ ?_
      · intro y hy
        have : y ≠ root := by
          rintro rfl
          have := hi.lvl_unique (Or.inr ⟨hr0, hj, hy⟩) (hpg1.lvl hi)
          omega
        show highOf (del w1.vh root) y = highOf w1.vh y
        simp only [highOf, del_other _ this]
      · show del w1.vh root q = _
        rw [del_other _ hq]
        exact hat.heap
    have hcm : Cm cfg t W1 W2 := {
      good := ⟨wf', fun j hj => hnp j (Nat.le_succ_of_le hj)⟩
      zero := by
        show del w1.vh root 0 = none
        rw [del_other _ hr0.symm]; exact hi.zero.1
      map := by
        exact (congrArg mapOf ct').trans hi.map
      raced := hi.raced
      lk := hlkW.symm
      fresh := rfl
      heap := fun _ _ => rfl
      heap' := fun _ h => h
      own := fun q hq => ⟨rfl, hcell q (by rintro rfl; exact hq o0) (by rintro rfl; exact hq orr)⟩
      own' := fun _ h => Or.inr h
      clean := fun q h1 h2 => by
        have : W1.own q = none := h2
        rw [h1] at this; cases this
      guard := fun q h1 _ h3 => by
        by_cases e : q ∈ w1.mem.gc
        · exfalso
          have hq0 : q ≠ 0 := by rintro rfl; exact hts1.live 0 m0 e
          have hqr : q ≠ root := by rintro rfl; exact hg e
          rw [hcell q hq0 hqr] at h3
          exact h3 (hi.gc q e).1
        · rcases own_of q e h1 with rfl | rfl
          · exact absurd hcr h3
          · left
            rw [World.lk, hlkW]
            exact hx0
      xown := fun q hq => by
        show W1.own q = some t
        exact hi1.xown q t hq
      gc := fun q hq => List.mem_cons_of_mem _ hq
      gc' := fun q hq => by
        have hq : q ∈ root :: w1.mem.gc := hq
        refine ⟨fun h => ⟨h, ?_⟩, fun h => ?_⟩
        · rcases List.mem_cons.1 hq with rfl | hq'
          · exact hcr
          · have hq0 : q ≠ 0 := by rintro rfl; exact hts1.live 0 m0 hq'
            have hqr : q ≠ root := by rintro rfl; exact hg hq'
            rw [hcell q hq0 hqr]
            exact (hi.gc q hq').1
        · rcases List.mem_cons.1 hq with rfl | hq'
          · exact absurd orr h
          · exact hq'
      at' := fun q j m lo ho h1 h2 => hat q j m lo (by rintro rfl; exact ho orr) h1 h2
      top := fun h => absurd o0 h
      ph := fun _ _ => rfl
      now := Nat.le_refl _
      maps := fun _ _ => rfl }
    have hok := hcm.ok hi1
    refine step_page (w2 := W2) (b := ()) ?_ ?_ ⟨hok.1, fun u hu => (hoka.2 u hu).trans (hok.2 u hu)⟩ (fun _ h => h) ?_
    · simp only [Act.run, hheap, hb, Bool.or_false]
      rfl
    · intro q e; cases e; exact hg
    · have hgc : ∀ q, q ∉ W2.mem.gc → q ≠ root ∧ q ∉ w1.mem.gc := by
        intro q hq
        have : q ∉ root :: w1.mem.gc := hq
        simpa using this
      refine hk _ hok.1 (hr.kp_trans ⟨?_, rfl, Nat.le_refl _⟩) ⟨?_, ?_, ?_, ?_, ?_⟩ rfl rfl
      · intro q _ hne
        rw [not_or] at hne
        refine ⟨rfl, hcell q hne.1 hne.2, ?_, fun e => absurd e hne.1, fun j m lo h1 h2 => hat q j m lo hne.2 h1 h2⟩
        intro h
        have h : q ∈ root :: w1.mem.gc := h
        rcases List.mem_cons.1 h with h | h
        · exact absurd h hne.2
        · exact h
      · intro q hq
        exact hts1.s q (hgc q hq).2
      · intro q hq
        rw [hI']
        have := hts1.six q (hgc q hq).2
        exact this.trans ⟨fun h => ⟨h, (hgc q hq).1⟩, fun h => h.1⟩
      · intro q hq
        exact hts1.x q (hgc q hq).2
      · intro q hq
        show (if q = root then some t else w1.own q) = some t ↔ _
        rw [if_neg (hgc q hq).1]
        exact hts1.own q (hgc q hq).2
      · intro q hq
        show q ∉ root :: w1.mem.gc
        rw [List.mem_cons]
        simp only [List.mem_append, hI'] at hq
        rintro (h | h)
        · subst h
          rcases hq with ((hq | hq) | hq) | hq
          · exact hS hq
          · exact hq.2 rfl
          · have := (hts1.x q hg).2 hq
            rw [hxr] at this; cases this
          · exact hrO hq
        · refine hts1.live q ?_ h
          simp only [List.mem_append]
          tauto
  · obtain ⟨u, us, hus⟩ := List.exists_cons_of_ne_nil hs
    have hu : u ∈ (w1.lk root).s := by rw [hus]; simp
    have hut : u ≠ t := by rintro rfl; exact hnt hu
    have hb : (w1.mem.lk root).busy t = true := by
      simp only [Lk.busy, Bool.or_eq_true]
      refine Or.inl (Or.inl ?_)
      rw [List.any_eq_true]
      exact ⟨u, hu, by simp [hut]⟩
    have hrun : (Act.free root : Act K V Unit).run t w1.mem = .run ((), { w1.mem with gc := root :: w1.mem.gc, raced := true }) := by
      simp only [Act.run, hheap, hb, Bool.or_true]
    change (Act.free root : Act K V Unit).run t w1.mem ≠ .ub ∧ _ ∧ ((Act.free root : Act K V Unit).run t w1.mem = .wait → _) ∧
      ∀ b m, (Act.free root : Act K V Unit).run t w1.mem = .run (b, m) → _
    rw [hrun]
    refine ⟨by simp, ?_, by simp, ?_⟩
    · intro q e; cases e; exact hg
    · intro b m e
      cases e
      exact Or.inl ⟨rfl, root, u, rfl, hut, hu⟩

end BT.PL
