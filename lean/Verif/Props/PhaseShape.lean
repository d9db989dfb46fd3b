import Verif.Props.PmlPhases
import Verif.Props.OmlPhases
import Verif.Props.Shape

/-!
# Shape, statistics and destruction of an index that was used in phases (C57)

`UsedPml`, `UsedPsl`, `UsedOsl` and `UsedOml` (C56) describe the memory of an index after phases of single-threaded and of concurrent use; `Serves`
(C16) is defined from the root pointer and the page memory only.
-/

set_option linter.unusedSectionVars false

namespace BT
open Spec
variable {K V : Type} [LinearOrder K] {cfg : Cfg K} {bc : BulkCfg} {s s0 : St K V} {m : Map K V} {o : List (Phased K V)} {key : Option K}
  {junk : Node K V → Node K V → K} {H : Nat} {gr : Nat → List Grp}

/-! ## Specification -/

/-- All leaves have the same depth, and on every level every key is served by exactly one page (the claim of C16). -/
def Balanced (s : St K V) : Prop :=
  ∃ H, (∀ d p lo hi, Serves s d p lo hi → d ≤ H ∧ ∃ n, s.heap p = some n ∧ (n.isInner = false ↔ d = H)) ∧
    ∀ d ≤ H, ∀ k, ∃ p lo hi, Serves s d p lo hi ∧ lo.leKey k ∧ hi.gtKey k ∧
      ∀ p' lo' hi', Serves s d p' lo' hi' → lo'.leKey k → hi'.gtKey k → p' = p ∧ lo' = lo ∧ hi' = hi

/-- A page that serves `[lo, hi)` is well-formed for that interval (`NodeOk`: slots sorted, keys inside the interval, sizes within the page), stores
`hi` as its upper border key, and its sibling link leads to the page that continues at `hi` (on the leaf level in all variants, on every level in
PSL and OSL) (the claim of C16 on pages). -/
def PagesOk (cfg : Cfg K) (s : St K V) : Prop :=
  ∀ d p lo hi, Serves s d p lo hi → ∃ n, s.heap p = some n ∧ NodeOk cfg n.isInner lo n ∧ hiB n.high = hi ∧
    (n.isInner = false ∨ cfg.blink = true → (hi = .top ∧ n.next = none) ∨ ∃ q hi', n.next = some q ∧ Serves s d q hi hi')

/-- Collecting the statistics ends, changes nothing, and counts every page of every level once (the claim of C20). -/
def Counted (cfg : Cfg K) (s : St K V) : Prop :=
  ∃ N st, (∀ fuel, N ≤ fuel → statistics cfg fuel s = .ok (st, s)) ∧
    (∀ d, d < st.length ↔ ∃ p lo hi, Serves s d p lo hi) ∧
    ∀ d < st.length, ∃ ps : List Ptr, ps.Nodup ∧ (∀ p, p ∈ ps ↔ ∃ lo hi, Serves s d p lo hi) ∧
      st[d]? = some (ps.length, (ps.map (fun p => ((s.heap p).map (Node.nodeUsage cfg)).getD 0)).sum, cfg.pageSize * ps.length)

/-- Destroying the index ends, touches no released page, releases every page of the tree and no other page. -/
def Destroyable (s : St K V) : Prop :=
  ∃ N s', (∀ fuel, N ≤ fuel → destroy fuel s = .ok ((), s')) ∧
    ∀ p, ((∃ d lo hi, Serves s d p lo hi) → s'.heap p = none) ∧ ((¬ ∃ d lo hi, Serves s d p lo hi) → s'.heap p = s.heap p)

/-! ## Proofs -/

theorem Good.balanced (g : Good cfg s H gr) : Balanced s := by
  refine ⟨H, ?_, ?_⟩
  · intro d p lo hi h
    obtain ⟨h1, n, hat, -⟩ := h.at g
    refine ⟨h1, n, hat.heap, ?_⟩
    rw [hat.ok.kind]
    simp
    omega
  · intro d hd k
    obtain ⟨p, n, lo, hat, h1, h2⟩ := g.wf.cover (i := H - d) (by omega) k
    refine ⟨p, lo, hiB n.high, hat.serves g hd, h1, h2, ?_⟩
    intro p' lo' hi' h' h3 h4
    obtain ⟨-, n', hat', rfl⟩ := h'.at g
    have := hat'.unique hat h3 h4 h1 h2
    subst this
    obtain ⟨rfl, rfl⟩ := At.congr g.wf (by omega) hat' hat
    exact ⟨rfl, rfl, rfl⟩

theorem Good.pagesOk (g : Good cfg s H gr) : PagesOk cfg s := by
  intro d p lo hi h
  obtain ⟨hd, n, hat, rfl⟩ := h.at g
  have hk := hat.ok.kind
  refine ⟨n, hat.heap, by rw [hk]; exact hat.ok, rfl, fun hn => ?_⟩
  obtain ⟨A, B, h1, h2, h3, h4, h5⟩ := hat
  have hnext := h4.2 (by
    rcases hn with hn | hn <;> simp [Node.hasNext, hn])
  cases B with
  | nil => exact Or.inl ⟨h5, hnext⟩
  | cons q B =>
    right
    obtain ⟨qn, lo', hq, hc⟩ := g.wf.at_of_append (p := q) (A := A ++ [p]) (B := B) (Nat.sub_le H d) (by rw [h1]; simp)
    rw [Chain.append] at hc
    obtain ⟨x, -, n', c1, -, c2⟩ := hc
    rw [h2] at c1
    cases c1
    have : hiB n.high = lo' := c2
    exact ⟨q, _, hnext, by rw [this]; exact hq.serves g hd⟩

theorem Good.counted (g : Good cfg s H gr) : Counted cfg s := by
  obtain ⟨st, h1, h2, h3⟩ := statistics_ok g (le_refl (H + 1))
  refine ⟨H + 1, st, fun fuel hf => ?_, fun d => ?_, fun d hd => ?_⟩
  · obtain ⟨st', q1, q2, q3⟩ := statistics_ok g hf
    rw [q1]
    congr 2
    apply List.ext_getElem?
    intro d
    by_cases hd : d ≤ H
    · rw [h3 d hd, q3 d hd]
    · rw [List.getElem?_eq_none (by omega), List.getElem?_eq_none (by omega)]
  · constructor
    · intro hd
      have hne : flat (gr (H - d)) ≠ [] := by
        intro h0
        have := g.wf.chain (H - d) (by omega)
        rw [h0] at this
        cases this
      obtain ⟨p, hp⟩ := List.exists_mem_of_ne_nil _ hne
      obtain ⟨n, lo, hat⟩ := g.wf.at_of_mem (by omega) hp
      exact ⟨p, lo, _, hat.serves g (by omega)⟩
    · rintro ⟨p, lo, hi, h⟩
      have := (h.at g).1
      omega
  · refine ⟨flat (gr (H - d)), g.wf.nodup (by omega), fun p => ?_, h3 d (by omega)⟩
    constructor
    · intro hp
      obtain ⟨n, lo, hat⟩ := g.wf.at_of_mem (by omega) hp
      exact ⟨lo, _, hat.serves g (by omega)⟩
    · rintro ⟨lo, hi, h⟩
      obtain ⟨-, n, hat, -⟩ := h.at g
      exact hat.mem

theorem Good.served (g : Good cfg s H gr) {p : Ptr} (h : s.heap p ≠ none) : ∃ d lo hi, Serves s d p lo hi := by
  obtain ⟨i, hi, hp⟩ := (g.wf.alloc p).1 h
  obtain ⟨n, lo, hat⟩ := g.wf.at_of_mem hi hp
  have e : H - (H - i) = i := by omega
  exact ⟨H - i, lo, _, At.serves g (by omega) (by rw [e]; exact hat)⟩

theorem Serves.in_heap (g : Good cfg s H gr) {d : Nat} {p : Ptr} {lo hi : Bd K} (h : Serves s d p lo hi) : ∃ n, s.heap p = some n := by
  obtain ⟨-, n, hat, -⟩ := h.at g
  exact ⟨n, hat.heap⟩

/-- Pages outside of the tree are not served. -/
theorem serves_plus {J : Heap K V} (g : Good cfg s0 H gr) {d : Nat} {p : Ptr} {lo hi : Bd K} :
    Serves (s0.plus J) d p lo hi ↔ Serves s0 d p lo hi := by
  constructor
  · intro h
    induction h with
    | root => exact .root
    | child _ hp hin hr hc ih =>
      obtain ⟨n, e⟩ := ih.in_heap g
      have := hp
      simp only [St.plus, e, Option.some_or] at this
      cases this
      exact .child ih e hin hr hc
  · intro h
    induction h with
    | root => exact Serves.root (s := s0.plus J)
    | child _ hp hin hr hc ih => exact .child ih (by simp [St.plus, hp]) hin hr hc

theorem collectStats_framed (f : Nat) (p : Ptr) (l : Nat) (st : List Stat) : Framed (collectStats cfg f p l st : M K V _) := by
  induction f generalizing p l st with
  | zero => exact Framed.outOfFuel
  | succ f ih =>
    have hf : ∀ (rs : List (Rec K V)) st, Framed (M.foldSlots (fun (r : Rec K V) st => match r.pay with
        | .ptr c => collectStats cfg f c (l + 1) st
        | .val _ => M.ub) rs st : M K V _) := by
      intro rs
      induction rs with
      | nil => intro st; exact Framed.pure _
      | cons r rs ihr =>
        intro st
        unfold M.foldSlots
        frame_prog [ih, ihr]
    unfold collectStats
    frame_prog []
    exact hf _ _

theorem statistics_framed (f : Nat) : Framed (statistics cfg f : M K V _) := by
  unfold statistics
  frame_prog [collectStats_framed]

theorem InvB.tidy (h : InvB cfg s m) : Balanced s ∧ PagesOk cfg s ∧ Counted cfg s ∧ Destroyable s := by
  obtain ⟨s0, J, rfl, ha, H, gr, g, -⟩ := h
  refine ⟨?_, ?_, ?_, ?_⟩
  · obtain ⟨D, h1, h2⟩ := g.balanced
    refine ⟨D, fun d p lo hi hs => ?_, fun d hd k => ?_⟩
    · obtain ⟨q1, n, q2, q3⟩ := h1 d p lo hi ((serves_plus g).1 hs)
      exact ⟨q1, n, by simp [St.plus, q2], q3⟩
    · obtain ⟨p, lo, hi, q1, q2, q3, q4⟩ := h2 d hd k
      exact ⟨p, lo, hi, (serves_plus g).2 q1, q2, q3, fun p' lo' hi' hs => q4 p' lo' hi' ((serves_plus g).1 hs)⟩
  · intro d p lo hi hs
    obtain ⟨n, q1, q2, q3, q4⟩ := g.pagesOk d p lo hi ((serves_plus g).1 hs)
    refine ⟨n, by simp [St.plus, q1], q2, q3, fun hn => ?_⟩
    rcases q4 hn with h | ⟨q, hi', e, hq⟩
    · exact Or.inl h
    · exact Or.inr ⟨q, hi', e, (serves_plus g).2 hq⟩
  · obtain ⟨N, st, h1, h2, h3⟩ := g.counted
    refine ⟨N, st, fun fuel hf => ((statistics_framed fuel).run J s0 _ _ ha (h1 fuel hf)).1, fun d => ?_, fun d hd => ?_⟩
    · rw [h2 d]
      simp only [serves_plus g]
    · obtain ⟨ps, q1, q2, q3⟩ := h3 d hd
      refine ⟨ps, q1, fun p => ?_, ?_⟩
      · rw [q2 p]
        simp only [serves_plus g]
      · rw [q3]
        have e : ps.map (fun p => (((s0.plus J).heap p).map (Node.nodeUsage cfg)).getD 0) =
            ps.map (fun p => ((s0.heap p).map (Node.nodeUsage cfg)).getD 0) := by
          apply List.map_congr_left
          intro p hp
          obtain ⟨lo, hi, hs⟩ := (q2 p).1 hp
          obtain ⟨n, e⟩ := hs.in_heap g
          simp [St.plus, e]
        rw [e]
  · refine ⟨H + 1, _, fun fuel hf => ((destroy_framed fuel).run J s0 _ _ ha (destroy_eq g hf)).1, fun p => ⟨?_, fun hp => ?_⟩⟩
    · rintro ⟨d, lo, hi, hs⟩
      obtain ⟨n, e⟩ := ((serves_plus g).1 hs).in_heap g
      have : J p = none := by
        by_contra hj
        rw [(ha p hj).1] at e
        cases e
      simp [St.plus, this]
    · have : s0.heap p = none := by
        by_contra hj
        obtain ⟨d, lo, hi, hs⟩ := g.served hj
        exact hp ⟨d, lo, hi, (serves_plus g).2 hs⟩
      simp [St.plus, this]

/-- C57 for PML.  Missing: phases in which a page was released that another thread had locked (`C30_pml_root_released_under_reader`). -/
theorem C57_pml_tidy_partial (ha : (Variant.pml : Variant K).Admissible cfg) (hbk : BulkRoomy cfg bc) (hu : UsedPml (V := V) cfg bc o s) :
    Balanced s ∧ PagesOk cfg s ∧ Counted cfg s ∧ Destroyable s := by
  obtain ⟨m, -, hi⟩ := hu.inv ha hbk
  exact hi.toB.tidy

/-- C57 for PSL.  Missing: phases with overlapping writers and one of the situations of `C34_psl_scans_partial`. -/
theorem C57_psl_tidy_partial (ha : (Variant.psl : Variant K).Admissible cfg) (hbk : BulkRoomy cfg bc) (hu : UsedPsl (V := V) cfg bc o s) :
    Balanced s ∧ PagesOk cfg s ∧ Counted cfg s ∧ Destroyable s := by
  obtain ⟨m, -, hi⟩ := hu.inv ha hbk
  exact hi.toB.tidy

/-- C57 for OSL.  Missing: phases with overlapping writers and one of the situations of `C34_osl_scans_partial`. -/
theorem C57_osl_tidy_partial (ha : (Variant.osl key).Admissible cfg) (hbk : BulkRoomy cfg bc) (hu : UsedOsl (V := V) cfg bc o s) :
    Balanced s ∧ PagesOk cfg s ∧ Counted cfg s ∧ Destroyable s := by
  obtain ⟨m, -, hi⟩ := hu.inv ha hbk
  exact hi.toB.tidy

/-- C57 for OML.  Missing: phases with one of the situations of `C34_oml_scans_partial`. -/
theorem C57_oml_tidy_partial (ha : (Variant.oml key).Admissible cfg) (hb : cfg.blink = false) (hbk : BulkRoomy cfg bc)
    (hu : UsedOml (V := V) cfg bc junk o s) : Balanced s ∧ PagesOk cfg s ∧ Counted cfg s ∧ Destroyable s := by
  obtain ⟨m, -, hi⟩ := hu.inv ha hb hbk
  exact hi.tidy

/-! ## The hypotheses are met

See also the examples in `PmlPhases.lean`, `BlinkPhases.lean` and `OmlPhases.lean`. -/

/-- One thread loads an OML index; then two threads write at the same time while a third scans, and a leaf is split. -/
example : ∃ (o : List (Phased Nat Nat)) (s : St Nat Nat) (h : List (Ev Nat Nat)) (outs : List (Out Nat Nat)),
    (Variant.oml none : Variant Nat).Admissible c120 ∧ c120.blink = false ∧ BulkRoomy c120 bulk8 ∧ UsedOml c120 bulk8 (fun _ _ => 0) o s ∧
    o = [.calls loadCmds outs, .threads h] ∧ .res 3 (.code .success) ∈ h := by
  have h : (loadTrace (.oml none) c120 (COml.execS c120 (fun _ _ => 0)) [.inv 1 (.scan (some (50, true)) none), .go 1 9, .inv 0 (.write 76 76),
      .go 0 34, .res 0, .inv 0 (.write 77 77), .go 0 34, .res 0, .inv 3 (.write 79 79), .go 3 4, .inv 0 (.write 78 78), .go 0 47, .res 0,
      .go 1 33, .res 1, .go 3 34, .res 3]).map
      (fun c => decide (c.mem.raced = false ∧ c.quiet = true ∧ .res 3 (.code .success) ∈ c.hist)) = some true := by decide +kernel
  rw [Option.map_eq_some_iff] at h
  obtain ⟨c, h1, h2⟩ := h
  obtain ⟨a1, a2, a3⟩ := of_decide_eq_true h2
  unfold loadTrace at h1
  split at h1
  · next outs s e =>
    have hc : Conf.Reach (COml.execS c120 (fun _ _ => 0)) (Conf.start s) c := Conf.cmds_reach .refl h1
    have u1 : UsedOml c120 bulk8 (fun _ _ => 0) ([] ++ [.calls loadCmds outs]) s := .calls .new loadCmds_ok e
    exact ⟨_, _, c.hist, outs, ⟨8, c120_roomy, c120_room⟩, rfl, c120_bulk, UsedOml.threads u1 hc a1 (Conf.quiet_thr hc a2), rfl, a3⟩
  · cases h1

end BT
