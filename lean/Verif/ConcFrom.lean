import Verif.ConcTail
import Verif.ScanOk
import Verif.Shape
import Verif.Frame

/-!
# The world of a tree that is there already

`ConcTail` starts the concurrent executions with an empty tree.  Here they start with any tree in good order, for instance one that
has been bulkloaded; pages outside of the tree (those `Bulkload` leaks) may be there too.
-/

set_option linter.unusedSectionVars false

namespace BT
open Spec
variable {K V : Type} [LinearOrder K] {cfg : Cfg K} {s0 s : St K V} {H : Nat} {gr : Nat → List Grp}

/-! ## Level and lower border of a page -/

open Classical in
/-- The level of a page. -/
noncomputable def lvlIn (H : Nat) (gr : Nat → List Grp) (p : Ptr) : Nat :=
  if h : ∃ i, i ≤ H ∧ p ∈ flat (gr i) then h.choose else 0

open Classical in
/-- The lower border of a page. -/
noncomputable def loIn (s : St K V) (H : Nat) (gr : Nat → List Grp) (p : Ptr) : Bd K :=
  if h : ∃ A B, flat (gr (lvlIn H gr p)) = A ++ p :: B then endB s.heap h.choose else .bot

theorem WF.lvlIn_eq (w : WF cfg s0 H gr) {i : Nat} (hi : i ≤ H) {p : Ptr} (hp : p ∈ flat (gr i)) : lvlIn H gr p = i := by
  have h : ∃ i, i ≤ H ∧ p ∈ flat (gr i) := ⟨i, hi, hp⟩
  rw [lvlIn, dif_pos h]
  exact w.disj _ h.choose_spec.1 _ hi p h.choose_spec.2 hp

theorem WF.loIn_eq (w : WF cfg s0 H gr) {i : Nat} (hi : i ≤ H) {p : Ptr} {n : Node K V} {lo : Bd K} (h : At cfg s0 gr i p n lo) :
    loIn s0 H gr p = lo := by
  have h1 := w.lvlIn_eq hi h.mem
  have h2 : ∃ A B, flat (gr (lvlIn H gr p)) = A ++ p :: B := by
    rw [h1]; obtain ⟨A, B, e, -⟩ := h; exact ⟨A, B, e⟩
  rw [loIn, dif_pos h2]
  obtain ⟨B, e⟩ := h2.choose_spec
  exact (At.lo_endB w hi h ((congrArg (fun j => flat (gr j)) h1.symm).trans e)).symm

/-- A page of the tree. -/
theorem WF.at_heap (w : WF cfg s0 H gr) {p : Ptr} {n : Node K V} (hp : s0.heap p = some n) :
    lvlIn H gr p ≤ H ∧ At cfg s0 gr (lvlIn H gr p) p n (loIn s0 H gr p) := by
  obtain ⟨i, hi, hm⟩ := (w.alloc p).1 (by rw [hp]; simp)
  obtain ⟨A, B, e⟩ := List.append_of_mem hm
  have h := w.at_mk hi e hp
  rw [w.loIn_eq hi h, w.lvlIn_eq hi hm]
  exact ⟨hi, h⟩

/-! ## Children -/

theorem kidsOf_slots {lo : Bd K} {recs : List (Rec K V)} {hi : Option K} {b : Bd K} {c : Ptr} (h : (b, c) ∈ kidsOf lo (slots recs hi)) :
    ∃ T r D, recs = T ++ r :: D ∧ c = r.toPtr ∧ b = if T = [] then lo else hiB r.key := by
  induction recs generalizing lo with
  | nil => simp [slots, kidsOf] at h
  | cons r D ih =>
    rw [slots_cons] at h
    simp only [kidsOf, List.mem_cons, Prod.mk.injEq] at h
    rcases h with ⟨rfl, rfl⟩ | h
    · exact ⟨[], r, D, rfl, rfl, by simp⟩
    · obtain ⟨T, r', D', e1, e2, e3⟩ := ih h
      refine ⟨r :: T, r', D', by simp [e1], e2, ?_⟩
      rw [if_neg (by simp), e3]
      split
      · next hT =>
        subst hT
        rw [e1]; rfl
      · rfl

theorem mem_kidsOf {lo : Bd K} {A : List (Ptr × Option K)} {c : Ptr} {h : Option K} (hm : (c, h) ∈ A) : ∃ b, (b, c) ∈ kidsOf lo A := by
  induction A generalizing lo with
  | nil => cases hm
  | cons x A ih =>
    obtain ⟨q, h'⟩ := x
    rcases List.mem_cons.1 hm with e | hm
    · cases e; exact ⟨lo, by simp [kidsOf]⟩
    · obtain ⟨b, hb⟩ := ih hm (lo := hiB h')
      exact ⟨b, by simp [kidsOf, hb]⟩

/-! ## The world -/

open Classical in
/-- The world of the tree `s0` in the memory `s`, with contents `m`. -/
noncomputable def World.load (s0 s : St K V) (H : Nat) (gr : Nat → List Grp) (m : Map K V) (strict : Bool) (solo : Bool := false) :
    World K V where
  mem := (Conf.start s).mem
  ps := ⟨0, fun _ => m, fun _ => .idle⟩
  lvl := lvlIn H gr
  lo := loIn s0 H gr
  born := fun _ => 0
  st := fun p => if s0.heap p ≠ none then .live else if s.heap p = none then .free else .priv 0
  rep := id
  pend := fun _ => none
  top := H
  shr := none
  strict := strict
  solo := solo
  wr := none

/-- The memory `s` holds the tree `s0`, and possibly pages outside of it. -/
structure Holding (s0 s : St K V) : Prop where
  heap : ∀ p n, s0.heap p = some n → s.heap p = some n
  root : s.root = s0.root
  fresh : ∀ p, s.heap p ≠ none → p < s.fresh

theorem Holding.plus {J : Heap K V} (g : Good cfg s0 H gr) (h : Apart J s0) : Holding s0 (s0.plus J) := by
  refine ⟨fun p n hp => by simp [St.plus, hp], rfl, fun p hp => ?_⟩
  by_cases h0 : s0.heap p = none
  · have : J p ≠ none := by
      intro hj
      exact hp (by simp [St.plus, h0, hj])
    exact (h p this).2
  · exact g.wf.fresh p h0

section load
variable {m : Map K V} {b so : Bool} (hh : Holding s0 s)

theorem World.load_live {p : Ptr} : (World.load s0 s H gr m b so).st p = .live ↔ s0.heap p ≠ none := by
  simp only [World.load]
  split
  · next h => simp [h]
  · next h =>
    simp only [h, iff_false]
    split <;> simp

theorem World.load_st (p : Ptr) : ((World.load s0 s H gr m b so).st p = .live ∧ s0.heap p ≠ none) ∨
    ((World.load s0 s H gr m b so).st p = .free ∧ s.heap p = none ∧ s0.heap p = none) ∨
    ((World.load s0 s H gr m b so).st p = .priv 0 ∧ s.heap p ≠ none ∧ s0.heap p = none) := by
  simp only [World.load]
  by_cases h : s0.heap p = none
  · by_cases h' : s.heap p = none <;> simp [h, h']
  · simp [h]

theorem World.load_get (hh : Holding s0 s) {p : Ptr} {n : Node K V} (hl : (World.load s0 s H gr m b so).st p = .live)
    (hp : (World.load s0 s H gr m b so).heap p = some n) : s0.heap p = some n := by
  have hp : s.heap p = some n := hp
  cases h : s0.heap p with
  | none => exact absurd h (World.load_live.1 hl)
  | some n' => rw [hh.heap p n' h] at hp; exact hp

/-- The page behind a page. -/
theorem WF.next_page (w : WF cfg s0 H gr) {i : Nat} (hi : i ≤ H) {p : Ptr} {n : Node K V} {lo : Bd K} (hat : At cfg s0 gr i p n lo) :
    (n.high = none ∧ (n.hasNext cfg = true → n.next = none)) ∨
      ∃ k q qn, n.high = some k ∧ (n.hasNext cfg = true → n.next = some q) ∧ At cfg s0 gr i q qn (.key k) := by
  have hat' := hat
  obtain ⟨A, B, h1, h2, h3, h4, h5⟩ := hat
  cases B with
  | nil =>
    left
    have : hiB n.high = .top := h5
    refine ⟨?_, h4.2⟩
    cases hn : n.high with
    | none => rfl
    | some k => rw [hn] at this; cases this
  | cons q B =>
    right
    obtain ⟨qn, g1, g2, g3⟩ := h5
    have h1' : flat (gr i) = (A ++ [p]) ++ q :: B := by rw [h1]; simp
    have hq := w.at_mk hi h1' g1
    rw [endB_concat, highOf_eq h2] at hq
    cases hn : n.high with
    | none =>
      rw [hn] at g2
      exact absurd g2.lt (by simp [hiB, Bd.lt])
    | some k =>
      rw [hn] at hq
      exact ⟨k, q, qn, rfl, h4.2, hq⟩

/-- The leaves hold the contents. -/
theorem WF.agrees (w : WF cfg s0 H gr) {p : Ptr} {n : Node K V} {lo : Bd K} (hat : At cfg s0 gr 0 p n lo) :
    Agrees (mapOf (contents s0 gr)) lo n := by
  intro k hlo hhi v
  rw [← Bd.leKey_iff'] at hlo
  rw [← Bd.gtKey_iff'] at hhi
  obtain ⟨A, B, h1, h2, h3, h4, h5⟩ := hat
  rw [mapOf_eq_some w.sorted, (w.leaf_contents h1 h2).1]
  simp only [List.mem_append]
  constructor
  · rintro ((h | h) | h)
    · exact absurd (Bd.leKey_of_gtKey_lt hlo (chain_pairs_lt h3 _ h)) (lt_irrefl _)
    · exact h
    · exact absurd (Bd.leKey_of_gtKey_lt (chain_pairs_ge h5 _ h) hhi) (lt_irrefl _)
  · exact fun h => Or.inl (Or.inr h)

/-- Pages of a level do not overlap. -/
theorem WF.no_overlap (w : WF cfg s0 H gr) {i : Nat} (hi : i ≤ H) {p q : Ptr} {n m : Node K V} {lo lo' : Bd K}
    (h : At cfg s0 gr i p n lo) (h' : At cfg s0 gr i q m lo') (h1 : lo.lt (hiB m.high)) (h2 : lo'.lt (hiB n.high)) : p = q := by
  by_contra hne
  have hlt : ∀ {p q : Ptr} {n m : Node K V} {lo lo' : Bd K} {A B : List Ptr}, At cfg s0 gr i p n lo → At cfg s0 gr i q m lo' →
      flat (gr i) = A ++ p :: B → q ∈ B → lo'.lt (hiB n.high) → False := by
    intro p q n m lo lo' A B h h' e hq hlt
    obtain ⟨B1, B2, rfl⟩ := List.append_of_mem hq
    have e' : flat (gr i) = (A ++ p :: B1) ++ q :: B2 := by rw [e]; simp
    have hlo := At.lo_endB w hi h' e'
    have hc := w.chain i hi
    rw [e, Chain.append] at hc
    obtain ⟨m1, -, n', g1, g2, g3⟩ := hc
    rw [h.heap] at g1
    cases g1
    rw [Chain.append] at g3
    obtain ⟨m2, g3, -⟩ := g3
    rcases g3.le_end (fun _ _ _ h => h.lt) with e2 | e2
    all_goals
      have hm2 : lo' = m2 := by
        rw [hlo, g3.end_eq]
        rcases List.eq_nil_or_concat' B1 with rfl | ⟨B1', x, rfl⟩
        · rw [endB_concat, highOf_eq h.heap]; rfl
        · rw [show A ++ p :: (B1' ++ [x]) = (A ++ p :: B1') ++ [x] by simp, endB_concat]; simp
      rw [hm2] at hlt
    · rw [e2] at hlt; exact Bd.lt_irrefl hlt
    · exact Bd.lt_irrefl (Bd.lt_trans e2 hlt)
  obtain ⟨A, B, e⟩ := List.append_of_mem h.mem
  have hq := h'.mem
  rw [e, List.mem_append, List.mem_cons] at hq
  rcases hq with hq | hq | hq
  · obtain ⟨A1, A2, rfl⟩ := List.append_of_mem hq
    exact hlt h' h (A := A1) (B := A2 ++ p :: B) (by rw [e]; simp) (by simp) h1
  · exact hne hq.symm
  · exact hlt h h' e hq h2

theorem CInv.load (g : Good cfg s0 H gr) (hh : Holding s0 s) (so : Bool) (hs : so = true → cfg.blink = true) :
    CInv cfg (World.load s0 s H gr (mapOf (contents s0 gr)) (!cfg.blink) so) := by
  generalize hw : World.load s0 s H gr (mapOf (contents s0 gr)) (!cfg.blink) so = w
  have hst := fun p => World.load_st (s0 := s0) (s := s) (H := H) (gr := gr) (m := mapOf (contents s0 gr)) (b := !cfg.blink) (so := so) p
  have hlive := fun p => World.load_live (s0 := s0) (s := s) (H := H) (gr := gr) (m := mapOf (contents s0 gr)) (b := !cfg.blink) (so := so) (p := p)
  have hget := fun p n => World.load_get (s0 := s0) (s := s) (H := H) (gr := gr) (m := mapOf (contents s0 gr)) (b := !cfg.blink) (so := so) hh (p := p) (n := n)
  rw [hw] at hst hlive hget
  have hlvl : w.lvl = lvlIn H gr := by rw [← hw]; rfl
  have hlo : w.lo = loIn s0 H gr := by rw [← hw]; rfl
  have hheap : w.heap = s.heap := by rw [← hw]; rfl
  have hlk : ∀ p, w.lk p = {} := by rw [← hw]; exact fun _ => rfl
  have hpend : ∀ p, w.pend p = none := by rw [← hw]; exact fun _ => rfl
  have hrep : ∀ p, w.rep p = p := by rw [← hw]; exact fun _ => rfl
  have htop : w.top = H := by rw [← hw]; rfl
  have hroot : w.mem.root = s.root := by rw [← hw]; rfl
  have hmap : w.maps w.now = mapOf (contents s0 gr) := by rw [← hw]; rfl
  have hat : ∀ {p n}, s0.heap p = some n → w.lvl p ≤ H ∧ At cfg s0 gr (w.lvl p) p n (w.lo p) := by
    rw [hlvl, hlo]; exact fun h => g.wf.at_heap h
  have hof : ∀ {i p n lo}, i ≤ H → At cfg s0 gr i p n lo → w.st p = .live ∧ w.lvl p = i ∧ w.lo p = lo := by
    intro i p n lo hi h
    refine ⟨(hlive p).2 (by rw [h.heap]; simp), ?_, ?_⟩
    · rw [hlvl]; exact g.wf.lvlIn_eq hi h.mem
    · rw [hlo]; exact g.wf.loIn_eq hi h
  have hbad : ∀ {p x}, w.st p = x → x ≠ .live → x ≠ .free → x ≠ .priv 0 → False := by
    intro p x h h1 h2 h3
    rcases hst p with ⟨e, -⟩ | ⟨e, -⟩ | ⟨e, -⟩ <;> rw [h] at e
    · exact h1 e
    · exact h2 e
    · exact h3 e
  have hpub : ∀ {p}, w.Pub p → w.st p = .live := by
    intro p h
    rcases hst p with ⟨e, -⟩ | ⟨e, -⟩ | ⟨e, -⟩
    · exact e
    · simp [World.Pub, e] at h
    · simp [World.Pub, e] at h
  have hsome : ∀ {p}, w.st p = .live → ∃ n, s0.heap p = some n := fun h => Option.ne_none_iff_exists'.1 ((hlive _).1 h)
  refine ⟨⟨by rw [← hw]; rfl, by rw [← hw]; rfl⟩, ?_, ?_, ?_, ?_, ?_, ?_, ?_, ?_, ?_, ?_, ?_, ?_, ?_, ?_, ?_, ?_, ?_, ?_, ?_, ?_⟩
  · intro p t h; rw [hlk] at h; cases h
  · rintro p u - ((h | h) | h) <;> rw [hlk] at h <;> cases h
  · intro p
    rw [hheap]
    rcases hst p with ⟨e, h⟩ | ⟨e, h, -⟩ | ⟨e, h, -⟩ <;> rw [e]
    · obtain ⟨n, hn⟩ := Option.ne_none_iff_exists'.1 h
      simp [hh.heap p n hn]
    · simp [h]
    · simp [h]
  · intro p hp
    rw [hheap]
    by_contra h
    have := hh.fresh p h
    have hf : w.mem.fresh = s.fresh := by rw [← hw]; rfl
    rw [hf] at hp
    exact absurd this (Nat.not_lt.2 hp)
  · intro p hp
    obtain ⟨n, hn⟩ := hsome hp
    obtain ⟨hi, ha⟩ := hat hn
    refine ⟨n, by rw [hheap]; exact hh.heap p n hn, ha.ok, ?_, ?_, ?_⟩
    · have hnx := fun (hl : Linked cfg (w.lvl p)) => hl.hasNext (n := n) ha.ok.kind
      rcases g.wf.next_page hi ha with ⟨h1, h2⟩ | ⟨k, q, qn, h1, h2, h3⟩
      · exact Or.inl ⟨h1, fun hl => h2 (hnx hl)⟩
      · obtain ⟨a, b, c⟩ := hof hi h3
        exact Or.inr ⟨k, q, h1, fun hl => h2 (hnx hl), a, b, c⟩
    · intro i hl b c hbc
      rw [hl] at ha hi
      obtain ⟨T, r, D, e1, rfl, e3⟩ := kidsOf_slots hbc
      obtain ⟨G1, run, G2, lo', f1, f2, f3, f4⟩ := g.wf.follow (by omega) ha e1
      have hfl : flat (gr i) = flat G1 ++ r.toPtr :: (run ++ flat G2) := by rw [f1]; simp
      obtain ⟨cn, lo'', hat', hc'⟩ := g.wf.at_of_append (by omega) hfl
      have : lo' = lo'' := At.lo_eq g.wf (by omega) hat' hfl f3
      subst this
      obtain ⟨x, y, z⟩ := hof (by omega) hat'
      exact ⟨x, y, by rw [z, e3, f4]⟩
    · intro hl
      rw [hl] at ha
      rw [hmap]
      exact g.wf.agrees ha
  · intro p hp
    obtain ⟨n, hn⟩ := hsome hp
    rw [htop]
    exact (hat hn).1
  · intro p τ q u h; exact (hbad h (by simp) (by simp) (by simp)).elim
  · intro p τ q h; exact (hbad h (by simp) (by simp) (by simp)).elim
  · intro p h; exact (hbad h (by simp) (by simp) (by simp)).elim
  · intro p q n m hp hq hl hn hm h1 h2
    have hn := hget p n hp hn
    have hm := hget q m hq hm
    obtain ⟨hi, ha⟩ := hat hn
    obtain ⟨-, ha'⟩ := hat hm
    rw [← hl] at ha'
    exact g.wf.no_overlap hi ha ha' (Bd.lt_iff.2 h1) (Bd.lt_iff.2 h2)
  · intro r t h; rw [hpend] at h; cases h
  · left
    obtain ⟨n, hn, -⟩ := g.wf.root_at g.np
    obtain ⟨a, b, c⟩ := hof (le_refl _) hn
    rw [hroot, hh.root, htop]
    exact ⟨by rw [← hw]; rfl, a, c, b⟩
  · intro p τ q u n r h; exact (hbad h (by simp) (by simp) (by simp)).elim
  · intro p _; rw [← hw]; exact le_refl _
  · intro p hp
    rw [hrep]
    exact ⟨Or.inl (hpub hp), rfl, le_refl _⟩
  · intro p _; exact hrep p
  · intro p τ q u h; exact (hbad h (by simp) (by simp) (by simp)).elim
  · intro p τ q h; exact (hbad h (by simp) (by simp) (by simp)).elim
  · intro r hr
    obtain ⟨n, hn⟩ := hsome hr
    obtain ⟨hi, ha⟩ := hat hn
    rcases Nat.eq_or_lt_of_le hi with e | hlt
    · left
      rw [e] at ha
      have hm := ha.mem
      rw [g.flat_root, List.mem_singleton] at hm
      subst hm
      obtain ⟨n', hn', -⟩ := g.wf.root_at g.np
      exact (hof (le_refl _) hn').2.2
    · right; right
      have hm := ha.mem
      rw [flat_nopend (g.np _ hi), List.mem_map] at hm
      obtain ⟨gg, hgg, hgr⟩ := hm
      have hk := g.wf.kid _ hlt
      have hmem : (r, highOf s0.heap (lastOf gg)) ∈ (flat (gr (w.lvl r + 1))).flatMap (slotsOf s0.heap) := by
        rw [hk, List.mem_map]
        exact ⟨gg, hgg, by rw [← hgr]⟩
      rw [List.mem_flatMap] at hmem
      obtain ⟨p, hp, hsl⟩ := hmem
      obtain ⟨pn, lo, nx, hpn, -⟩ := g.wf.get hlt hp
      rw [slotsOf_eq hpn] at hsl
      obtain ⟨b, hb⟩ := mem_kidsOf hsl (lo := w.lo p)
      obtain ⟨A, B, e⟩ := List.append_of_mem hp
      obtain ⟨x, y, -⟩ := hof hlt (g.wf.at_mk hlt e hpn)
      exact ⟨p, pn, b, x, by rw [hheap]; exact hh.heap p pn hpn, by rw [y]; omega, hb⟩
  · intro h
    have h : so = true := by rw [← hw] at h; exact h
    refine ⟨?_, fun q u e => ?_, fun q τ c u e => (hbad e (by simp) (by simp) (by simp)).elim⟩
    · rw [← hw]; show (!cfg.blink) = false; rw [hs h]; rfl
    · rw [hpend] at e; cases e

theorem sim_load (g : Good cfg s0 H gr) (hh : Holding s0 s) : (blg V cfg).Sim (mapOf (contents s0 gr)) (Conf.start s) := by
  refine Or.inr ⟨World.load s0 s H gr (mapOf (contents s0 gr)) (!cfg.blink), rfl, CInv.load g hh false (by simp), Past.init _ rfl,
    fun t => ⟨fun _ => ⟨rfl, ?_, rfl, fun _ => .of_lk fun _ => rfl, fun q h => by cases h⟩, fun p hp => by cases hp⟩⟩
  refine ⟨fun p τ q h => ?_, fun h => (by cases h)⟩
  rcases World.load_st (s0 := s0) (s := s) (H := H) (gr := gr) (m := mapOf (contents s0 gr)) (b := !cfg.blink) (so := false) p
    with ⟨e, -⟩ | ⟨e, -⟩ | ⟨e, -⟩ <;> rw [h] at e <;> cases e

end load
end BT
