import Verif.Shape
import Verif.Variants

/-!
# Shape, memory and statistics of a quiescent tree (C15, C16, C20)

`Serves s d p lo hi` (defined from the root pointer and the page memory only): `d` child links lead from the root to page `p`, and
the slot keys on the way assign to `p` the keys `lo ≤ k < hi`.
-/

namespace BT
variable {K V : Type} [LinearOrder K] {v : Variant K} {cfg : Cfg K} {s : St K V}

/-- C16. There is a depth `H` such that every page at depth `d` is a leaf iff `d = H` (and no page is deeper), and on every level every
key is served by exactly one page: the intervals are disjoint and cover everything. -/
theorem C16_shape (ha : v.Admissible cfg) (hs : Reachable (v.impl cfg) s) :
    ∃ H, (∀ d p lo hi, Serves s d p lo hi → d ≤ H ∧ ∃ n, s.heap p = some n ∧ (n.isInner = false ↔ d = H)) ∧
      ∀ d ≤ H, ∀ k, ∃ p lo hi, Serves s d p lo hi ∧ lo.leKey k ∧ hi.gtKey k ∧
        ∀ p' lo' hi', Serves s d p' lo' hi' → lo'.leKey k → hi'.gtKey k → p' = p ∧ lo' = lo ∧ hi' = hi := by
  obtain ⟨m, H, gr, g, -⟩ := (Variant.callsOk (V := V) ha).reach hs
  refine ⟨H, ?_, ?_⟩
  · intro d p lo hi h
    obtain ⟨h1, n, hat, -⟩ := h.at g
    refine ⟨h1, n, hat.heap, ?_⟩
    rw [hat.ok.kind]
    simp
    omega
  · intro d hd k
    obtain ⟨p, n, lo, hat, h1, h2⟩ := g.wf.cover (i := H - d) (by omega) k
    refine ⟨p, lo, hiB n.high, hat.serves g hd, h1, h2, ?_⟩
    intro p' lo' hi' h' h3 h4
    obtain ⟨-, n', hat', rfl⟩ := h'.at g
    have := hat'.unique hat h3 h4 h1 h2
    subst this
    obtain ⟨rfl, rfl⟩ := At.congr g.wf (by omega) hat' hat
    exact ⟨rfl, rfl, rfl⟩

/-- C16, pages: a page serving `[lo, hi)` is well-formed for that interval (`NodeOk`: slots sorted, keys inside the interval, sizes
within the page), stores `hi` as its upper border key, and its sibling link leads to the page that continues at `hi`
(on the leaf level in all variants, on every level in PSL and OSL). -/
theorem C16_pages (ha : v.Admissible cfg) (hs : Reachable (v.impl cfg) s) {d : Nat} {p : Ptr} {lo hi : Bd K}
    (h : Serves s d p lo hi) :
    ∃ n, s.heap p = some n ∧ NodeOk cfg n.isInner lo n ∧ hiB n.high = hi ∧
      (n.isInner = false ∨ cfg.blink = true →
        (hi = .top ∧ n.next = none) ∨ ∃ q hi', n.next = some q ∧ Serves s d q hi hi') := by
  obtain ⟨m, H, gr, g, -⟩ := (Variant.callsOk (V := V) ha).reach hs
  obtain ⟨hd, n, hat, rfl⟩ := h.at g
  have hat0 := hat
  have hk := hat.ok.kind
  refine ⟨n, hat.heap, by rw [hk]; exact hat.ok, rfl, fun hn => ?_⟩
  obtain ⟨A, B, h1, h2, h3, h4, h5⟩ := hat
  have hnext := h4.2 (by
    rcases hn with hn | hn <;> simp [Node.hasNext, hn])
  cases B with
  | nil => exact Or.inl ⟨h5, hnext⟩
  | cons q B =>
    right
    obtain ⟨qn, lo', hq, hc⟩ := g.wf.at_of_append (p := q) (A := A ++ [p]) (B := B) (Nat.sub_le H d) (by rw [h1]; simp)
    rw [Chain.append] at hc
    obtain ⟨x, -, n', c1, -, c2⟩ := hc
    rw [h2] at c1
    cases c1
    have : hiB n.high = lo' := c2
    exact ⟨q, _, hnext, by rw [this]; exact hq.serves g hd⟩

/-- C15. A page is allocated iff it is reachable from the root through child links; it then has one depth and one interval; every child
and sibling link of a reachable page leads to an allocated page. -/
theorem C15_no_leak (ha : v.Admissible cfg) (hs : Reachable (v.impl cfg) s) (p : Ptr) :
    (s.heap p ≠ none ↔ ∃ d lo hi, Serves s d p lo hi) ∧
    (∀ d lo hi d' lo' hi', Serves s d p lo hi → Serves s d' p lo' hi' → d = d' ∧ lo = lo' ∧ hi = hi') ∧
    (∀ n, s.heap p = some n →
      (n.isInner = true → ∀ r ∈ n.recs, ∃ c, r.pay = .ptr c ∧ s.heap c ≠ none) ∧
      (n.isInner = false ∨ cfg.blink = true → ∀ q, n.next = some q → s.heap q ≠ none)) := by
  obtain ⟨m, H, gr, g, -⟩ := (Variant.callsOk (V := V) ha).reach hs
  have key : s.heap p ≠ none ↔ ∃ d lo hi, Serves s d p lo hi := by
    constructor
    · intro h
      obtain ⟨i, hi, hp⟩ := (g.wf.alloc p).1 h
      obtain ⟨n, lo, hat⟩ := g.wf.at_of_mem hi hp
      have e : H - (H - i) = i := by omega
      exact ⟨H - i, lo, _, At.serves g (by omega) (by rw [e]; exact hat)⟩
    · rintro ⟨d, lo, hi, h⟩
      obtain ⟨-, n, hat, -⟩ := h.at g
      simp [hat.heap]
  refine ⟨key, ?_, ?_⟩
  · intro d lo hi d' lo' hi' h h'
    obtain ⟨h1, n, hat, rfl⟩ := h.at g
    obtain ⟨h2, n', hat', rfl⟩ := h'.at g
    have := g.wf.disj _ (Nat.sub_le H d) _ (Nat.sub_le H d') p hat.mem hat'.mem
    have hdd : d = d' := by omega
    subst hdd
    obtain ⟨rfl, rfl⟩ := At.congr g.wf (Nat.sub_le H d) hat hat'
    exact ⟨rfl, rfl, rfl⟩
  · intro n hn
    obtain ⟨d, lo, hi, h⟩ := key.1 (by simp [hn])
    constructor
    · intro hin r hr
      obtain ⟨h1, n', hat, rfl⟩ := h.at g
      have := hat.heap
      rw [hn] at this
      cases this
      have hok := hat.ok
      rw [← hok.kind, hin] at hok
      obtain ⟨c, hc⟩ := hok.inner.ptrs r hr
      obtain ⟨T, D, hTD⟩ := List.append_of_mem hr
      obtain ⟨-, cn, hatc, -⟩ := (Serves.child h hn hin hTD hc).at g
      exact ⟨c, hc, by simp [hatc.heap]⟩
    · intro hb q hq
      obtain ⟨n', e1, -, -, e2⟩ := C16_pages ha hs h
      rw [hn] at e1
      cases e1
      rcases e2 hb with ⟨-, e⟩ | ⟨q', hi', e, hq'⟩
      · rw [hq] at e; cases e
      · rw [hq] at e
        cases e
        obtain ⟨-, qn, hatq, -⟩ := hq'.at g
        simp [hatq.heap]

/-- C15, destruction: destroying the index in any reachable state finishes without touching a released page and without releasing a page
twice (both are undefined behaviour in the model), and leaves no page allocated. -/
theorem C15_destroy (ha : v.Admissible cfg) (hs : Reachable (v.impl cfg) s) :
    ∃ N s', (∀ fuel, N ≤ fuel → destroy fuel s = .ok ((), s')) ∧ ∀ p, s'.heap p = none := by
  obtain ⟨m, H, gr, g, -⟩ := (Variant.callsOk (V := V) ha).reach hs
  exact ⟨H + 1, _, fun fuel hf => destroy_eq g hf, fun _ => rfl⟩

/-- C20. The statistics have one entry per level. The entry of level `d` counts each page at depth `d` once, adds up the pages'
reported usage, and multiplies the page size by the count. -/
theorem C20_statistics (ha : v.Admissible cfg) (hs : Reachable (v.impl cfg) s) :
    ∃ N st, (∀ fuel, N ≤ fuel → statistics cfg fuel s = .ok (st, s)) ∧
      (∀ d, d < st.length ↔ ∃ p lo hi, Serves s d p lo hi) ∧
      ∀ d < st.length, ∃ ps : List Ptr, ps.Nodup ∧ (∀ p, p ∈ ps ↔ ∃ lo hi, Serves s d p lo hi) ∧
        st[d]? = some (ps.length, (ps.map (fun p => ((s.heap p).map (Node.nodeUsage cfg)).getD 0)).sum, cfg.pageSize * ps.length) := by
  obtain ⟨m, H, gr, g, -⟩ := (Variant.callsOk (V := V) ha).reach hs
  obtain ⟨st, h1, h2, h3⟩ := statistics_ok g (le_refl (H + 1))
  refine ⟨H + 1, st, fun fuel hf => ?_, fun d => ?_, fun d hd => ?_⟩
  · obtain ⟨st', q1, q2, q3⟩ := statistics_ok g hf
    rw [q1]
    congr 2
    apply List.ext_getElem?
    intro d
    by_cases hd : d ≤ H
    · rw [h3 d hd, q3 d hd]
    · rw [List.getElem?_eq_none (by omega), List.getElem?_eq_none (by omega)]
  · constructor
    · intro hd
      obtain ⟨n, hat, -⟩ := g.wf.root_at g.np
      have hne : flat (gr (H - d)) ≠ [] := by
        intro h0
        have := g.wf.chain (H - d) (by omega)
        rw [h0] at this
        cases this
      obtain ⟨p, hp⟩ := List.exists_mem_of_ne_nil _ hne
      obtain ⟨n, lo, hat⟩ := g.wf.at_of_mem (by omega) hp
      exact ⟨p, lo, _, hat.serves g (by omega)⟩
    · rintro ⟨p, lo, hi, h⟩
      have := (h.at g).1
      omega
  · refine ⟨flat (gr (H - d)), g.wf.nodup (by omega), fun p => ?_, h3 d (by omega)⟩
    constructor
    · intro hp
      obtain ⟨n, lo, hat⟩ := g.wf.at_of_mem (by omega) hp
      exact ⟨lo, _, hat.serves g (by omega)⟩
    · rintro ⟨lo, hi, h⟩
      obtain ⟨-, n, hat, -⟩ := h.at g
      exact hat.mem

/-- Bytes of a page that are in use: header, slot area (with the border keys, which the fixed-length layout keeps in the key array) and
record area. -/
def occupied (cfg : Cfg K) (n : Node K V) : Nat :=
  match cfg.layout with
  | .var => cfg.headerLen + cfg.metaLen * n.recs.length + n.block
  | .fix => cfg.headerLen + cfg.maxKeyLen * (n.recs.length + n.borders) + n.block

/-- C20, usage: in the variable-length layout the reported usage of a page is the number of occupied bytes. -/
theorem C20_usage_var_partial (h : cfg.layout = .var) (n : Node K V) : n.nodeUsage cfg = occupied cfg n := by
  simp [Node.nodeUsage, occupied, h, Node.rc, Nat.mul_comm]

/-- C20, usage: in the fixed-length layout the reported usage omits exactly the border keys. -/
theorem C20_usage_fix_partial (h : cfg.layout = .fix) (n : Node K V) :
    n.nodeUsage cfg + cfg.maxKeyLen * n.borders = occupied cfg n := by
  simp only [Node.nodeUsage, occupied, h, Node.rc, Nat.mul_add]
  rw [Nat.mul_comm n.recs.length]
  omega

/-- C20 is false for the fixed-length layout as far as used bytes are concerned: a page with an upper border key reports less than it
occupies. -/
theorem C20_usage_fix_undercounts : ∃ n : Node Nat Nat, n.nodeUsage (fixCfg true) < occupied (fixCfg true) n :=
  ⟨{ isInner := false, recs := [⟨some 1, .val 1, false⟩], high := some 5, next := some 1, block := 8 }, by decide⟩

/-- The hypotheses are met: the state after inserting a key into a new default index. -/
example : ∃ s, Reachable ((Variant.osl none).impl (varCfg true) : Impl Nat Nat) s ∧ ∃ d p lo hi, Serves s d p lo hi := by
  have ha : (Variant.osl none : Variant Nat).Admissible (varCfg true) := ⟨108, varCfg_roomy _, rfl⟩
  have hc := Variant.callsOk (V := Nat) ha
  obtain ⟨out, s, m, h1, -, -⟩ := hc.step (inv_init _) (.insert 5 50)
  exact ⟨s, Reachable.init.step h1, 0, s.root, _, _, .root⟩

end BT
