import Verif.BulkRun
import Verif.Config

/-!
# Bulkloading (C17, C18, C19, C41, C42)

`Cmd.Ok` is the assumption on bulkload calls: sorted entries which are either none, or spread over at least two leaves (two or more
worker threads, or more bytes than one page takes).  The remaining inputs are the subject of C19.
-/

namespace BT
variable {K V : Type} [LinearOrder K] {v : Variant K} {cfg : Cfg K} {bc : BulkCfg}

/-- C17. Every history of calls, with bulkloads anywhere in it, finishes without undefined behaviour and answers as a map does whose
contents a bulkload sets to exactly the given entries. -/
theorem C17_bulkload (ha : v.Admissible cfg) (hb : BulkRoomy cfg bc) (cs : List (Cmd K V)) (hok : ∀ c ∈ cs, c.Ok cfg bc) :
    ∃ (N : Nat) (outs : List (Out K V)) (s' : St K V) (m' : Map K V),
      (∀ fuel, N ≤ fuel → (v.impl cfg).runB cfg bc fuel cs initSt = .ok (outs, s')) ∧ Spec.RunB Spec.empty cs outs m' := by
  obtain ⟨N, outs, s', m', h1, h2, -⟩ := InvB.run ha hb cs initSt Spec.empty (.of (inv_init cfg)) hok
  exact ⟨N, outs, s', m', h1, h2⟩

/-- C18. For every entry list and every number of workers, the ranges handed to the workers are `threads` many, consecutive
(in order they make up the whole list, so every entry is in exactly one of them), of nearly equal size, and none of them is empty when
there are at least as many entries as workers. -/
theorem C18_partition {α : Type} (threads : Nat) (ht : 1 ≤ threads) (es : List α) :
    (chunks threads es).length = threads ∧ (chunks threads es).flatten = es ∧
      (∀ c ∈ chunks threads es, es.length / threads ≤ c.length ∧ c.length ≤ es.length / threads + 1) ∧
      (threads ≤ es.length → ∀ c ∈ chunks threads es, c ≠ []) :=
  ⟨chunks_length ht es, (chunks_spec ht es).1, chunks_bounds ht es, fun hle _ hc => chunks_ne ht hle hc⟩

example : chunks 3 [1, 2, 3, 4, 5, 6, 7, 8] = [[1, 2], [3, 4, 5], [6, 7, 8]] := by decide

/-- C18, contents: whatever the two worker counts are, the calls after the bulkload return the same. -/
theorem C18_same_contents (ha : v.Admissible cfg) (hb : BulkRoomy cfg bc) (es : List (K × V)) (t t' : Nat)
    (h : Cmd.Ok cfg bc (.bulkload es t)) (h' : Cmd.Ok cfg bc (.bulkload es t')) (before after : List (Cmd K V))
    (hbef : ∀ c ∈ before, c.Ok cfg bc) (haft : ∀ c ∈ after, c.Ok cfg bc) :
    ∃ N outs s1 s2, ∀ fuel, N ≤ fuel →
      (v.impl cfg).runB cfg bc fuel (before ++ .bulkload es t :: after) initSt = .ok (outs, s1) ∧
      (v.impl cfg).runB cfg bc fuel (before ++ .bulkload es t' :: after) initSt = .ok (outs, s2) := by
  obtain ⟨N1, o1, s1, m1, a1, a2⟩ := C17_bulkload (v := v) ha hb (before ++ .bulkload es t :: after) (by
    intro c hc
    simp only [List.mem_append, List.mem_cons] at hc
    rcases hc with hc | rfl | hc
    exacts [hbef c hc, h, haft c hc])
  obtain ⟨N2, o2, s2, m2, b1, b2⟩ := C17_bulkload (v := v) ha hb (before ++ .bulkload es t' :: after) (by
    intro c hc
    simp only [List.mem_append, List.mem_cons] at hc
    rcases hc with hc | rfl | hc
    exacts [hbef c hc, h', haft c hc])
  have swap : ∀ (before : List (Cmd K V)) (m : Map K V) (o : List (Out K V)) (m' : Map K V),
      Spec.RunB m (before ++ .bulkload es t :: after) o m' → Spec.RunB m (before ++ .bulkload es t' :: after) o m' := by
    intro before
    induction before with
    | nil =>
      intro m o m' hr
      cases hr with
      | cons a b =>
        refine .cons ?_ b
        cases a with
        | bulkloadNone => exact .bulkloadNone _
        | bulkload x y => exact .bulkload x y
    | cons c before ih =>
      intro m o m' hr
      cases hr with
      | cons a b => exact .cons a (ih _ _ _ b)
  obtain ⟨rfl, -⟩ := (swap before _ _ _ a2).unique b2
  exact ⟨max N1 N2, o1, s1, s2, fun fuel hf => ⟨a1 fuel (by omega), b1 fuel (by omega)⟩⟩

/-- C19 is false: in every state, bulkloading any non-empty entry list that fits into one leaf (with one worker, or more workers than
entries) runs into undefined behaviour, in every variant and both layouts. -/
theorem C19_small_bulkload_undefined (ha : v.Admissible cfg) (hb : BulkRoomy cfg bc) {s : St K V}
    (hs : ReachableB (v.impl cfg) cfg bc s) (es : List (K × V)) (hes : es ≠ []) (threads : Nat)
    (ht : threads ≤ 1 ∨ es.length < threads) (hfit : onePage cfg es ≤ bc.cap) :
    ∃ N, ∀ fuel, N ≤ fuel → bulkload cfg bc fuel es threads s = .ub := by
  obtain ⟨m, hm⟩ := hs.inv ha hb
  exact ⟨es.length + 1, fun fuel hf => bulkload_ub hb hm.below hes ht hfit hf⟩

/-- C19, what is true: from every reachable state, a bulkload of sorted entries that do not fit into one leaf, or that are loaded by two
or more workers, returns `kSuccess`.  Missing: the inputs of `C19_small_bulkload_undefined`. -/
theorem C19_bulkload_partial (ha : v.Admissible cfg) (hb : BulkRoomy cfg bc) {s : St K V}
    (hs : ReachableB (v.impl cfg) cfg bc s) (es : List (K × V)) (hasc : Spec.Ascending es) (threads : Nat)
    (hsp : (2 ≤ threads ∧ threads ≤ es.length) ∨ bc.cap < onePage cfg es) :
    ∃ N s', ∀ fuel, N ≤ fuel → bulkload cfg bc fuel es threads s = .ok (.success, s') := by
  by_cases hes : es = []
  · subst hes
    exact ⟨0, s, fun _ _ => rfl⟩
  · obtain ⟨m, hm⟩ := hs.inv ha hb
    obtain ⟨s0, H, gr, h1, -⟩ := bulkload_ok hb hm.below hes hasc hsp (Nat.lt_succ_self _)
    exact ⟨_, _, fun fuel hf => (bulkload_mono cfg bc es threads _ fuel hf).le s _ h1⟩

/-- C41. A bulkload replaces the contents: after it, reading a key gives the payload loaded for it, and nothing for keys that are not
among the entries, whatever was stored before. -/
theorem C41_replaces (ha : v.Admissible cfg) (hb : BulkRoomy cfg bc) {s s' : St K V} (hs : ReachableB (v.impl cfg) cfg bc s)
    {es : List (K × V)} (hes : es ≠ []) {threads : Nat} (hok : Cmd.Ok cfg bc (.bulkload es threads)) {out : Out K V}
    (hr : ReturnsB (v.impl cfg) cfg bc s (.bulkload es threads) out s') (k : K) :
    ∃ r, Returns (v.impl cfg) s' (.read k) (.payload r) s' ∧ ∀ x, r = some x ↔ (k, x) ∈ es := by
  obtain ⟨m, hm⟩ := hs.inv ha hb
  obtain ⟨out', s1, m', h1, h2, h3⟩ := hm.step ha hb hok
  obtain ⟨rfl, rfl⟩ := hr.unique h1
  have hh : Spec.Holds m' es := by
    cases h2 with
    | bulkloadNone => exact absurd rfl hes
    | bulkload _ h => exact h
  obtain ⟨s0, J, rfl, hap, hi⟩ := h3
  refine ⟨m' k, ?_, fun x => hh k x⟩
  obtain ⟨N, hN⟩ := (Variant.callsOk (V := V) ha).reads hi k
  exact ⟨N, fun f hf => (((v.frameOk cfg).exec f (.read k)).run J s0 _ s0 hap (hN f hf)).1⟩

/-- C42 is false: every page that was allocated before a (non-empty) bulkload, at least the initial root, is still allocated after the
index has been destroyed. -/
theorem C42_bulkload_leaks (ha : v.Admissible cfg) (hb : BulkRoomy cfg bc) {s : St K V} (hs : ReachableB (v.impl cfg) cfg bc s)
    {es : List (K × V)} (hes : es ≠ []) {threads : Nat} (hok : Cmd.Ok cfg bc (.bulkload es threads)) :
    (∃ p, s.heap p ≠ none) ∧ ∃ N s1 s2, ∀ fuel, N ≤ fuel →
      bulkload cfg bc fuel es threads s = .ok (.success, s1) ∧ destroy fuel s1 = .ok ((), s2) ∧
      ∀ p, s2.heap p = s.heap p := by
  obtain ⟨m, hm⟩ := hs.inv ha hb
  constructor
  · obtain ⟨s0, J, rfl, -, H, gr, g, -⟩ := hm
    obtain ⟨n, hat, -⟩ := g.wf.root_at g.np
    exact ⟨s0.root, by simp [St.plus, hat.heap]⟩
  · obtain ⟨hasc, hsp⟩ := hok.resolve_left hes
    obtain ⟨s0, H, gr, h1, h2, h3, -⟩ := bulkload_ok hb hm.below hes hasc hsp (Nat.lt_succ_self _)
    refine ⟨max (es.length + 1) (H + 1), s0.plus s.heap, ({ s0 with heap := fun _ => none } : St K V).plus s.heap,
      fun fuel hf => ⟨?_, ?_, ?_⟩⟩
    · exact (bulkload_mono cfg bc es threads _ fuel (by omega)).le s _ h1
    · exact ((destroy_framed fuel).run s.heap s0 () _ h2 (destroy_eq h3 (by omega))).1
    · intro p
      simp [St.plus]

/-- C42: what a bulkload and the calls after it allocate is released when the index is destroyed, and nothing is released twice (which is
undefined behaviour in the model): the pages left are exactly those that were there before the bulkload.  Missing: the release of these
(`C42_bulkload_leaks`). -/
theorem C42_new_pages_released_partial (ha : v.Admissible cfg) (hb : BulkRoomy cfg bc) {s : St K V} (hs : ReachableB (v.impl cfg) cfg bc s)
    {es : List (K × V)} (hes : es ≠ []) {threads : Nat} (hok : Cmd.Ok cfg bc (.bulkload es threads)) (ops : List (Op K V)) :
    ∃ N outs s1 s2, ∀ fuel, N ≤ fuel →
      (v.impl cfg).runB cfg bc fuel (.bulkload es threads :: ops.map .call) s = .ok (outs, s1) ∧ destroy fuel s1 = .ok ((), s2) ∧
      ∀ p, s2.heap p = s.heap p := by
  obtain ⟨m, hm⟩ := hs.inv ha hb
  obtain ⟨hasc, hsp⟩ := hok.resolve_left hes
  obtain ⟨s0, m1, h1, h2, h3, -⟩ := bulkload_returns hb hm.below hes hasc hsp
  obtain ⟨N0, h1⟩ := h1 (v.impl cfg)
  have key : ∀ (ops : List (Op K V)) (t : St K V) (m : Map K V), Apart s.heap t → Inv cfg t m →
      ∃ N outs t' m', (∀ fuel, N ≤ fuel → (v.impl cfg).runB cfg bc fuel (ops.map .call) (t.plus s.heap) = .ok (outs, t'.plus s.heap)) ∧
        Apart s.heap t' ∧ Inv cfg t' m' := by
    intro ops
    induction ops with
    | nil => intro t m h1 h2; exact ⟨0, [], t, m, fun _ _ => rfl, h1, h2⟩
    | cons op ops ih =>
      intro t m h1 h2
      obtain ⟨out, t1, m1, ⟨N1, a1⟩, -, a3⟩ := (Variant.callsOk ha).step h2 op
      have fr := fun f hf => ((v.frameOk cfg).exec f op).run s.heap t out t1 h1 (a1 f hf)
      obtain ⟨N2, outs, t2, m2, b1, b2, b3⟩ := ih t1 m1 (fr N1 (le_refl _)).2 a3
      refine ⟨max N1 N2, out :: outs, t2, m2, fun fuel hf => ?_, b2, b3⟩
      have e1 := (fr fuel (le_trans (le_max_left _ _) hf)).1
      have e2 := b1 fuel (le_trans (le_max_right _ _) hf)
      simp only [List.map_cons]
      unfold Impl.runB
      rw [M.bind_ok (show (v.impl cfg).execB cfg bc fuel (.call op) (t.plus s.heap) = _ from e1), M.bind_ok e2]
      rfl
  obtain ⟨N1, outs, t', m', b1, b2, ⟨H, gr, g, -⟩⟩ := key ops s0 m1 h2 h3
  refine ⟨max N0 (max N1 (H + 1)), .code .success :: outs, t'.plus s.heap, ({ t' with heap := fun _ => none } : St K V).plus s.heap, fun fuel hf => ⟨?_, ?_, ?_⟩⟩
  · unfold Impl.runB
    rw [M.bind_ok (h1 fuel (by omega)), M.bind_ok (b1 fuel (by omega))]
    rfl
  · exact ((destroy_framed fuel).run s.heap t' () _ b2 (destroy_eq g (by omega))).1
  · intro p
    simp [St.plus]

/-! ## The hypotheses are met -/

/-- `kNodeCapacityForBulkLoading` (`component/common.hpp:56`: 0.9 of a page) and `kInnerNodeCap` for 8-byte keys and pointers. -/
def bulk8 : BulkCfg where
  cap := 921
  innerCap := 53

theorem fixCfg_bulk (b : Bool) : BulkRoomy (fixCfg b) bulk8 where
  cap := by simp [bulk8, fixCfg]
  key k := by simp [Cfg.klen, fixCfg]
  leaf k := by simp [bulkRec, Cfg.klen, Cfg.plen, Cfg.mlen, fixCfg, bulk8]
  inner k k' := by simp [bulkRec, Cfg.klen, Cfg.plen, Cfg.mlen, fixCfg, bulk8]
  innerCap := by simp [bulk8]

theorem varCfg_bulk (b : Bool) : BulkRoomy (varCfg b) bulk8 where
  cap := by simp [bulk8, varCfg]
  key k := by simp only [Cfg.klen, varCfg]; omega
  leaf k := by
    have : k % 108 < 108 := Nat.mod_lt _ (by omega)
    simp only [bulkRec, Cfg.klen, Cfg.plen, Cfg.mlen, varCfg, bulk8, Bool.false_eq_true, if_false]
    omega
  inner k k' := by
    have : k % 108 < 108 := Nat.mod_lt _ (by omega)
    have : k' % 108 < 108 := Nat.mod_lt _ (by omega)
    simp only [bulkRec, Cfg.klen, Cfg.plen, Cfg.mlen, varCfg, bulk8, if_true]
    omega
  innerCap := by simp [bulk8]

/-- one thousand entries -/
def thousand : List (Nat × Nat) := (List.range 1000).map (fun i => (i, 2 * i))

theorem thousand_asc : Spec.Ascending thousand := by
  unfold Spec.Ascending thousand
  rw [List.pairwise_map]
  exact List.pairwise_lt_range

theorem onePage_fix (b : Bool) (es : List (Nat × Nat)) : onePage (fixCfg b) es = 48 + 16 * es.length := by
  unfold onePage
  induction es with
  | nil => rfl
  | cons e es ih =>
    have : bulkRec (fixCfg b) false e.1 = 16 := rfl
    rw [List.map_cons, List.sum_cons, this, List.length_cons]
    omega

example : ∀ c ∈ ([.bulkload thousand 4, .call (.delete 7), .bulkload thousand 1] : List (Cmd Nat Nat)), c.Ok (fixCfg true) bulk8 := by
  intro c hc
  simp only [List.mem_cons, List.not_mem_nil, or_false] at hc
  rcases hc with rfl | rfl | rfl
  · exact Or.inr ⟨thousand_asc, Or.inl ⟨by omega, by simp [thousand]⟩⟩
  · trivial
  · refine Or.inr ⟨thousand_asc, Or.inr ?_⟩
    rw [onePage_fix]
    simp [thousand, bulk8]

example : onePage (fixCfg false) [(1, 10), (2, 20)] ≤ bulk8.cap := by decide

/-- The crash on two entries, by execution: the default tree, default page, one worker. -/
example : bulkload (fixCfg true) bulk8 10 [(1, 10), (2, 20)] 1 (initSt : St Nat Nat) = .ub := by rfl

example : ∃ N outs s' m', (∀ fuel, N ≤ fuel →
    ((Variant.osl none).impl (fixCfg true)).runB (fixCfg true) bulk8 fuel
      [.bulkload thousand 4, .call (.scan none none)] initSt = .ok (outs, s')) ∧
    Spec.RunB Spec.empty [.bulkload thousand 4, .call (.scan none none)] outs m' :=
  C17_bulkload (v := .osl none) ⟨8, fixCfg_roomy _, rfl⟩ (fixCfg_bulk _) _ (by
    intro c hc
    simp only [List.mem_cons, List.not_mem_nil, or_false] at hc
    rcases hc with rfl | rfl
    · exact Or.inr ⟨thousand_asc, Or.inl ⟨by omega, by simp [thousand]⟩⟩
    · trivial)

end BT
