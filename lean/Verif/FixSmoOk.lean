import Verif.FixBytesOk

/-!
# The fixed-length page: copying, splitting and merging bytes
-/

set_option linter.unusedSectionVars false

namespace BT
variable {K V : Type} [LinearOrder K] {cfg : Cfg K} {C : Codec cfg V}

namespace FixPage
variable {g src : FixPage}

theorem copyRecordFrom_ok {w c pos : Nat} (hg : g.payLen = w) (hs : src.payLen = w) (hc : g.count = c)
    (hfit : keyOff cfg (c + 1) + w * (c + 1) ≤ cfg.pageSize) (hsrc : keyOff cfg (pos + 1) + w * (pos + 1) ≤ cfg.pageSize) :
    ∃ m', g.copyRecordFrom cfg src pos (cfg.pageSize - w * c) = .ok ({ g with mem := m', count := c + 1 }, cfg.pageSize - w * (c + 1)) ∧
      (∀ i, i < c + 1 → kc cfg m' i = if i < c then kc cfg g.mem i else kc cfg src.mem pos) ∧
      (∀ i, i < c + 1 → pc cfg w m' i = if i < c then pc cfg w g.mem i else pc cfg w src.mem pos) := by
  have e1 := Nat.mul_add_one w c
  have e2 := Nat.mul_add_one w pos
  have hk : (kc cfg src.mem pos).length = cfg.maxKeyLen := by simp [kc, Ram.bytes]
  have hp : (pc cfg w src.mem pos).length = w := by simp [pc, Ram.bytes]
  have k1 := hdr_le (cfg := cfg) (c + 1)
  have k2 := hdr_le (cfg := cfg) (pos + 1)
  have k3 := keyOff_succ (cfg := cfg) c
  refine ⟨(g.mem.write (keyOff cfg c) (kc cfg src.mem pos)).write (cfg.pageSize - w * (c + 1)) (pc cfg w src.mem pos), ?_, ?_, ?_⟩
  · unfold FixPage.copyRecordFrom
    rw [rdKey_ok (by omega)]
    simp only [Res.ok_bind, hc]
    rw [wrKey_ok hk (by omega)]
    simp only [Res.ok_bind, hg, hs]
    rw [usub_ok (by omega)]
    simp only [Res.ok_bind]
    rw [Nat.mul_comm (pos + 1), usub_ok (by omega)]
    simp only [Res.ok_bind]
    rw [rd_ok (by omega) (by omega)]
    simp only [Res.ok_bind]
    have e3 : cfg.pageSize - w * c - w = cfg.pageSize - w * (c + 1) := by omega
    have e4 : src.mem.bytes (cfg.pageSize - w * (pos + 1)) w = pc cfg w src.mem pos := rfl
    rw [e3, e4, wr_ok (by omega) (by omega)]
    simp only [Res.ok_bind, Res.pure_eq, hc]
  · intro i hi
    have a1 := keyOff_le (cfg := cfg) (show i + 1 ≤ c + 1 by omega)
    rw [kc_above_wr _ (by omega), kc_wr _ _ _ hk]
    by_cases c1 : i < c
    · rw [if_neg (by omega), if_pos c1]
    · rw [if_pos (by omega), if_neg c1]
  · intro i hi
    have a1 := Nat.mul_le_mul_left w (show i + 1 ≤ c + 1 by omega)
    rw [pc_wr _ _ _ _ hp (by omega) (by omega), pc_below_wr _ (by rw [hk]; omega)]
    by_cases c1 : i < c
    · rw [if_neg (by omega), if_pos c1]
    · rw [if_pos (by omega), if_neg c1]

theorem copyRecordsFrom_ok {w m : Nat} : ∀ {g : FixPage} {c pos : Nat}, g.payLen = w → src.payLen = w → g.count = c →
    keyOff cfg (c + m) + w * (c + m) ≤ cfg.pageSize → keyOff cfg (pos + m) + w * (pos + m) ≤ cfg.pageSize →
    ∃ m', g.copyRecordsFrom cfg src m pos (cfg.pageSize - w * c) = .ok ({ g with mem := m', count := c + m }, cfg.pageSize - w * (c + m)) ∧
      (∀ i, i < c + m → kc cfg m' i = if i < c then kc cfg g.mem i else kc cfg src.mem (pos + (i - c))) ∧
      (∀ i, i < c + m → pc cfg w m' i = if i < c then pc cfg w g.mem i else pc cfg w src.mem (pos + (i - c))) := by
  induction m with
  | zero =>
    intro g c pos hg hs hc hfit hsrc
    refine ⟨g.mem, ?_, fun i hi => by rw [if_pos (by omega)], fun i hi => by rw [if_pos (by omega)]⟩
    simp only [FixPage.copyRecordsFrom, Nat.add_zero, ← hc]
  | succ m ih =>
    intro g c pos hg hs hc hfit hsrc
    have a1 := keyOff_le (cfg := cfg) (show c + 1 ≤ c + (m + 1) by omega)
    have a2 := Nat.mul_le_mul_left w (show c + 1 ≤ c + (m + 1) by omega)
    have a3 := keyOff_le (cfg := cfg) (show pos + 1 ≤ pos + (m + 1) by omega)
    have a4 := Nat.mul_le_mul_left w (show pos + 1 ≤ pos + (m + 1) by omega)
    obtain ⟨m1, h1, h2, h3⟩ := copyRecordFrom_ok hg hs hc (show keyOff cfg (c + 1) + w * (c + 1) ≤ cfg.pageSize by omega)
      (show keyOff cfg (pos + 1) + w * (pos + 1) ≤ cfg.pageSize by omega)
    have b1 : c + 1 + m = c + (m + 1) := by omega
    have b2 : pos + 1 + m = pos + (m + 1) := by omega
    obtain ⟨m2, h4, h5, h6⟩ := ih (g := { g with mem := m1, count := c + 1 }) (c := c + 1) (pos := pos + 1) hg hs rfl
      (by rw [b1]; exact hfit) (by rw [b2]; exact hsrc)
    rw [b1] at h4 h5 h6
    refine ⟨m2, ?_, ?_, ?_⟩
    · simp only [FixPage.copyRecordsFrom, h1, Res.ok_bind, h4]
    · intro i hi
      rw [h5 i hi]
      dsimp only
      by_cases c1 : i < c
      · rw [if_pos (by omega), if_pos c1, h2 _ (by omega), if_pos c1]
      · rw [if_neg c1]
        by_cases c2 : i = c
        · subst c2
          rw [if_pos (by omega), h2 _ (by omega), if_neg (by omega)]; simp
        · rw [if_neg (by omega)]; congr 1; omega
    · intro i hi
      rw [h6 i hi]
      dsimp only
      by_cases c1 : i < c
      · rw [if_pos (by omega), if_pos c1, h3 _ (by omega), if_pos c1]
      · rw [if_neg c1]
        by_cases c2 : i = c
        · subst c2
          rw [if_pos (by omega), h3 _ (by omega), if_neg (by omega)]; simp
        · rw [if_neg (by omega)]; congr 1; omega

end FixPage

theorem Node.keyArray_get {n : Node K V} {i : Nat} {k : K} (h : n.keyArray[i]? = some (some k)) :
    (∃ r, n.recs[i]? = some r ∧ r.key = some k) ∨ (i = n.recs.length ∧ n.high = some k) ∨
    (i = n.recs.length + n.high.isSome.toNat ∧ n.low = some k) := by
  rw [Node.keyArray_eq, List.getElem?_append, List.length_map, List.getElem?_map] at h
  by_cases c : i < n.recs.length
  · rw [if_pos c] at h
    left
    simp only [Option.map_eq_some_iff] at h
    exact h
  · rw [if_neg c] at h
    right
    simp only [Node.tailKeys] at h
    cases hh : n.high with
    | none =>
      simp only [hh, Option.isSome_none, Bool.false_eq_true, if_false, List.nil_append] at h
      right
      cases hl : n.low with
      | none => simp [hl] at h
      | some l =>
        simp only [hl, Option.isSome_some, if_true, List.getElem?_singleton] at h
        split at h
        · simp at h; subst h; refine ⟨?_, rfl⟩; simp; omega
        · simp at h
    | some x =>
      simp only [hh, Option.isSome_some, if_true, List.singleton_append] at h
      by_cases c2 : i = n.recs.length
      · left
        subst c2
        simp at h
        exact ⟨rfl, by rw [h]⟩
      · right
        obtain ⟨j, hj⟩ : ∃ j, i - n.recs.length = j + 1 := ⟨i - n.recs.length - 1, by omega⟩
        rw [hj, List.getElem?_cons_succ] at h
        cases hl : n.low with
        | none => simp [hl] at h
        | some l =>
          simp only [hl, Option.isSome_some, if_true, List.getElem?_singleton] at h
          split at h
          · simp at h; subst h; refine ⟨?_, rfl⟩; simp; omega
          · simp at h

theorem Node.keyArray_rec {n : Node K V} {i : Nat} {r : Rec K V} (h : n.recs[i]? = some r) : n.keyArray[i]? = some r.key := by
  have hl := (List.getElem?_eq_some_iff.1 h).1
  rw [Node.keyArray_eq, List.getElem?_append_left (by simpa using hl), List.getElem?_map, h]; rfl

theorem Node.keyArray_high {n : Node K V} {k : K} (h : n.high = some k) : n.keyArray[n.recs.length]? = some (some k) := by
  rw [Node.keyArray_eq, List.getElem?_append_right (by simp)]
  simp [Node.tailKeys, h]

theorem Node.keyArray_low {n : Node K V} {k : K} (h : n.low = some k) :
    n.keyArray[n.recs.length + n.high.isSome.toNat]? = some (some k) := by
  rw [Node.keyArray_eq, List.getElem?_append_right (by simp)]
  simp only [List.length_map, Nat.add_sub_cancel_left, Node.tailKeys, h]
  cases n.high <;> simp

namespace FixRep
open FixPage
variable {g r0 gr : FixPage} {n n' nr l r : Node K V}

theorem recKey (h : FixRep C g n) {i : Nat} {r : Rec K V} {k : K} (hi : n.recs[i]? = some r) (hk : r.key = some k) :
    kc cfg g.mem i = C.key k := h.keys i k (by rw [Node.keyArray_rec hi, hk])

theorem highKey (h : FixRep C g n) {k : K} (hk : n.high = some k) : kc cfg g.mem n.recs.length = C.key k :=
  h.keys _ k (Node.keyArray_high hk)

theorem lowKey (h : FixRep C g n) {k : K} (hk : n.low = some k) :
    kc cfg g.mem (n.recs.length + n.high.isSome.toNat) = C.key k := h.keys _ k (Node.keyArray_low hk)

theorem nfits (hf : cfg.layout = .fix) (h : n.checked cfg = .ok n') (hb : n.block = cfg.plen n.isInner * n.recs.length)
    (hh : cfg.headerLen ≤ cfg.pageSize) :
    n' = n ∧ keyOff cfg (n.recs.length + n.borders) + cfg.plen n.isInner * n.recs.length ≤ cfg.pageSize := by
  simp only [Node.checked] at h
  split at h
  · next c =>
    simp only [Res.ok.injEq] at h
    refine ⟨h.symm, ?_⟩
    simp only [Node.fits, hf, decide_eq_true_eq, Node.rc, Cfg.cap, hb] at c
    simp only [keyOff]
    omega
  · exact absurd h (by simp)

theorem kc_len (m : Ram) (i : Nat) : (kc cfg m i).length = cfg.maxKeyLen := by simp [kc, Ram.bytes]

/-- A page is represented when its three groups of keys and its payloads are. -/
theorem mk' (inner : g.inner = n.isInner) (removed : g.removed = n.removed) (count : g.count = n.recs.length)
    (payLen : g.payLen = cfg.plen n.isInner) (blk : g.blk = cfg.plen n.isInner * n.recs.length) (block : n.block = g.blk)
    (next : g.next = n.next) (hasLow : g.hasLow = n.low.isSome) (hasHigh : g.hasHigh = n.high.isSome)
    (fits : keyOff cfg (n.recs.length + n.borders) + cfg.plen n.isInner * n.recs.length ≤ cfg.pageSize)
    (hk : ∀ i r k, n.recs[i]? = some r → r.key = some k → kc cfg g.mem i = C.key k)
    (hh : ∀ k, n.high = some k → kc cfg g.mem n.recs.length = C.key k)
    (hl : ∀ k, n.low = some k → kc cfg g.mem (n.recs.length + n.high.isSome.toNat) = C.key k)
    (pays : ∀ i r, n.recs[i]? = some r → pc cfg (cfg.plen n.isInner) g.mem i = C.pay r.pay)
    (kinds : ∀ r ∈ n.recs, r.pay.Fits n.isInner) (live : ∀ r ∈ n.recs, r.del = false) : FixRep C g n := by
  refine ⟨inner, removed, count, payLen, blk, block, next, hasLow, hasHigh, fits, ?_, pays, kinds, live⟩
  intro i k hi
  rcases Node.keyArray_get hi with ⟨r, h1, h2⟩ | ⟨rfl, h1⟩ | ⟨rfl, h1⟩
  · exact hk i r k h1 h2
  · exact hh k h1
  · exact hl k h1

/-- `Split`.  The entry behind the border keys must lie inside the page, because it is read even when there is no border key. -/
theorem split (hf : cfg.layout = .fix) (h : FixRep C g n) (hr : r0.inner = n.isInner ∧ r0.removed = false ∧ r0.count = 0 ∧ r0.next = none)
    (hread : keyOff cfg (n.recs.length + n.high.isSome.toNat + 1) ≤ cfg.pageSize) {rp : Ptr} (hn : n.splitFix cfg rp = .ok (l, r))
    (hsep : l.high.isSome) (hlow : l.low.isSome = n.low.isSome) :
    ∃ gl gr, g.split cfg r0 rp = .ok (gl, gr) ∧ FixRep C gl l ∧ FixRep C gr r := by
  obtain ⟨hr1, hr2, hr3, hr4⟩ := hr
  have hfit := h.fits
  have hhdr := hdr_le (cfg := cfg) (n.recs.length + n.borders)
  generalize hw : cfg.plen n.isInner = w at *
  generalize hc : n.recs.length = c at *
  generalize hlc : c / 2 = lc at *
  simp only [Node.splitFix, Node.rc, hc, hlc] at hn
  have hlt : lc < c := by
    rcases Nat.lt_or_ge lc c with h1 | h1
    · exact h1
    · rw [List.getElem?_eq_none (by omega)] at hn; simp at hn
  obtain ⟨x, hx⟩ : ∃ x, n.recs[lc]? = some x := ⟨n.recs[lc], by rw [List.getElem?_eq_getElem]⟩
  rw [hx] at hn
  dsimp only at hn
  have hwx : w * c = w * lc + w * (c - lc) := by rw [← Nat.mul_add]; congr 1; omega
  have hblk : n.block = w * c := by rw [h.block, h.blk, hw, hc]
  have htl : (n.recs.take lc).length = lc := by rw [List.length_take, hc]; omega
  have hdl : (n.recs.drop lc).length = c - lc := by rw [List.length_drop, hc]
  cases e1 : Node.checked cfg { n with
      recs := n.recs.take lc
      low := if n.low.isSome then (if cfg.blink then n.low else (n.keyArray[lc + 1]?).join) else none
      high := x.key
      next := if n.hasNext cfg then some rp else n.next
      block := n.block - cfg.plen n.isInner * (c - lc) } with
  | ub => rw [e1] at hn; simp at hn
  | fuel => rw [e1] at hn; simp at hn
  | ok l' =>
  cases e2 : Node.checked cfg ({
      isInner := n.isInner
      recs := n.recs.drop lc
      low := x.key
      high := n.high
      next := if n.hasNext cfg then n.next else none
      block := cfg.plen n.isInner * (c - lc) } : Node K V) with
  | ub => rw [e1, e2] at hn; simp at hn
  | fuel => rw [e1, e2] at hn; simp at hn
  | ok r' =>
  have hn' : l' = l ∧ r' = r := by
    rw [e1, e2] at hn
    simpa using hn
  obtain ⟨rfl, rfl⟩ := hn'
  obtain ⟨rfl, f1⟩ := nfits hf e1 (by simp only [htl, hblk, hw]; omega) (by omega)
  obtain ⟨rfl, f2⟩ := nfits hf e2 (by simp only [hdl]) (by omega)
  obtain ⟨s, hs⟩ : ∃ s, x.key = some s := Option.isSome_iff_exists.1 hsep
  have hcx : kc cfg g.mem lc = C.key s := h.recKey hx hs
  simp only [Node.borders, htl, hdl, hw, hs, Option.isSome_some, if_true] at f1 f2
  simp only [hs] at hlow
  rw [hlow] at f1
  have hcount := h.count; rw [hc] at hcount
  have hpl := h.payLen; rw [hw] at hpl
  have hgb := h.blk; rw [hw, hc] at hgb
  have hL := h.hasLow
  have hH := h.hasHigh
  have fR : keyOff cfg (c - lc + 1 + g.hasHigh.toNat) + w * (c - lc) ≤ cfg.pageSize := by
    rw [hH]; cases hq : n.high <;> simp only [hq, Option.isSome_none, Option.isSome_some, Bool.toNat_true, Bool.toNat_false] at f2 ⊢
    · simpa using f2
    · have : c - lc + 1 + 1 = c - lc + (1 + 1) := by omega
      rw [this]; simpa using f2
  have fL : keyOff cfg (lc + 1 + g.hasLow.toNat) + w * lc ≤ cfg.pageSize := by
    rw [hL]; cases hq : n.low <;> simp only [hq, Option.isSome_none, Option.isSome_some, Bool.toNat_true, Bool.toNat_false] at f1 ⊢
    · simpa using f1
    · have : lc + 1 + 1 = lc + (1 + 1) := by omega
      rw [this]; simpa using f1
  rw [← hH] at hread
  have fG : keyOff cfg c + w * c ≤ cfg.pageSize := by
    have := keyOff_le (cfg := cfg) (show c ≤ c + n.borders by omega); omega
  have k1 := keyOff_le (cfg := cfg) (show c - lc ≤ c - lc + 1 + g.hasHigh.toNat by omega)
  have hlr : lc + (c - lc) = c := by omega
  obtain ⟨m1, d1, d2, d3⟩ := copyRecordsFrom_ok (cfg := cfg) (src := g) (w := w) (m := c - lc) (g := { r0 with payLen := g.payLen }) (c := 0)
    (pos := lc) hpl hpl hr3 (by rw [Nat.zero_add]; omega) (by rw [hlr]; exact fG)
  simp only [Nat.mul_zero, Nat.sub_zero, Nat.zero_add, Nat.not_lt_zero, if_false] at d1 d2 d3
  -- the right page
  have hkl : ∀ m i, (kc cfg m i).length = cfg.maxKeyLen := fun m i => kc_len m i
  have a1 := keyOff_le (cfg := cfg) (show c + 1 ≤ c + g.hasHigh.toNat + 1 by omega)
  have a2 := keyOff_le (cfg := cfg) (show c - lc + 1 ≤ c - lc + 1 + g.hasHigh.toNat by omega)
  have a3 := keyOff_le (cfg := cfg) (show 0 + 1 ≤ c - lc + 1 + g.hasHigh.toNat by omega)
  have a4 : c - lc + g.hasHigh.toNat + 1 = c - lc + 1 + g.hasHigh.toNat := by omega
  have a5 : lc + g.hasLow.toNat + 1 = lc + 1 + g.hasLow.toNat := by omega
  have a6 := keyOff_le (cfg := cfg) (show lc + 1 ≤ lc + 1 + g.hasLow.toNat by omega)
  have hs0 : kc cfg m1 0 = C.key s := by rw [d2 0 (by omega)]; simpa using hcx
  have hskl : (C.key s).length = cfg.maxKeyLen := C.key_len_fix hf s
  have hs1 : ∀ b, kc cfg (m1.write (keyOff cfg (c - lc)) b) 0 = kc cfg m1 0 ∨ b.length ≠ cfg.maxKeyLen := by
    intro b
    by_cases hb : b.length = cfg.maxKeyLen
    · left; rw [kc_wr _ _ _ hb, if_neg (by omega)]
    · exact Or.inr hb
  let mr := (m1.write (keyOff cfg (c - lc)) (kc cfg g.mem c)).write (keyOff cfg (c - lc + g.hasHigh.toNat)) (C.key s)
  have hmr0 : kc cfg mr 0 = C.key s := by
    simp only [mr]
    rw [kc_wr _ _ _ hskl, if_neg (by omega), kc_wr _ _ _ (hkl _ _), if_neg (by omega), hs0]
  let gr : FixPage := { r0 with
      payLen := w, count := c - lc, mem := mr, blk := w * (c - lc)
      next := if cfg.blink || !g.inner then g.next else r0.next, hasLow := true, hasHigh := g.hasHigh }
  have hR : FixRep C gr ({
      isInner := n.isInner
      recs := n.recs.drop lc
      low := x.key
      high := n.high
      next := if n.hasNext cfg then n.next else none
      block := cfg.plen n.isInner * (c - lc) } : Node K V) := by
    refine mk' hr1 hr2 hdl.symm hw.symm ?_ ?_ ?_ ?_ hH ?_ ?_ ?_ ?_ ?_ ?_ ?_
    · simp only [gr, hdl, hw]
    · simp only [gr, hw]
    · simp only [gr, Node.hasNext, h.inner, h.next, hr4]; congr
    · simp only [gr, hs]; rfl
    · simp only [Node.borders, hdl, hw, hs, Option.isSome_some, if_true]; exact f2
    · intro i r k hi hk
      have hil := (List.getElem?_eq_some_iff.1 hi).1
      dsimp only at hi hil
      rw [hdl] at hil
      rw [List.getElem?_drop] at hi
      simp only [gr, mr]
      rw [kc_wr _ _ _ hskl, if_neg (by omega), kc_wr _ _ _ (hkl _ _), if_neg (by omega), d2 i hil]
      exact h.recKey hi hk
    · intro k hk
      dsimp only at hk ⊢
      simp only [gr, mr, hdl, hH, hk, Option.isSome_some, Bool.toNat_true]
      rw [kc_wr _ _ _ hskl, if_neg (by omega), kc_wr _ _ _ (hkl _ _), if_pos rfl, ← hc]
      exact h.highKey hk
    · intro k hk
      dsimp only at hk ⊢
      rw [hs] at hk
      simp only [Option.some.injEq] at hk
      subst hk
      simp only [gr, mr, hdl, hH]
      rw [kc_wr _ _ _ hskl, if_pos rfl]
    · intro i r hi
      have hil := (List.getElem?_eq_some_iff.1 hi).1
      dsimp only at hi hil ⊢
      rw [hdl] at hil
      rw [List.getElem?_drop] at hi
      simp only [gr, mr, hw]
      have b1 := Nat.mul_le_mul_left w (show i + 1 ≤ c - lc by omega)
      have b2 := keyOff_succ (cfg := cfg) (c - lc)
      have b3 := keyOff_succ (cfg := cfg) (c - lc + g.hasHigh.toNat)
      rw [a4] at b3
      rw [pc_below_wr _ (by rw [hskl]; omega), pc_below_wr _ (by rw [hkl]; omega), d3 i hil, ← hw]
      exact h.pays _ _ hi
    · intro r hr; exact h.kinds r (List.mem_of_mem_drop hr)
    · intro r hr; exact h.live r (List.mem_of_mem_drop hr)
  -- the left page
  have hLeft : ∀ low : List Byte, low.length = cfg.maxKeyLen →
      (∀ k, (if n.low.isSome then (if cfg.blink then n.low else (n.keyArray[lc + 1]?).join) else none) = some k → low = C.key k) →
      FixRep C { g with
          mem := (g.mem.write (keyOff cfg (lc + g.hasLow.toNat)) low).write (keyOff cfg lc) (C.key s)
          count := lc, blk := w * lc, next := if cfg.blink || !g.inner then some rp else g.next, hasHigh := true }
        ({ n with
          recs := n.recs.take lc
          low := if n.low.isSome then (if cfg.blink then n.low else (n.keyArray[lc + 1]?).join) else none
          high := x.key
          next := if n.hasNext cfg then some rp else n.next
          block := n.block - cfg.plen n.isInner * (c - lc) } : Node K V) := by
    intro low hll hlk
    refine mk' h.inner h.removed htl.symm h.payLen ?_ ?_ ?_ ?_ ?_ ?_ ?_ ?_ ?_ ?_ ?_ ?_
    · simp only [htl, hw]
    · simp only [hw, hblk]; omega
    · simp only [Node.hasNext, h.inner, h.next]; congr
    · simp only; rw [hlow]; exact hL
    · simp only [hs]; rfl
    · simp only [Node.borders, htl, hw, hs, Option.isSome_some, if_true]
      rw [hlow]; exact f1
    · intro i r k hi hk
      have hil := (List.getElem?_eq_some_iff.1 hi).1
      dsimp only at hi hil ⊢
      rw [htl] at hil
      rw [List.getElem?_take, if_pos hil] at hi
      rw [kc_wr _ _ _ hskl, if_neg (by omega), kc_wr _ _ _ hll, if_neg (by omega)]
      exact h.recKey hi hk
    · intro k hk
      dsimp only at hk ⊢
      rw [hs] at hk
      simp only [Option.some.injEq] at hk
      subst hk
      rw [htl, kc_wr _ _ _ hskl, if_pos rfl]
    · intro k hk
      dsimp only at hk ⊢
      have hls : g.hasLow = true := by
        rw [hL, ← hlow, hk]; rfl
      rw [htl, hs]
      simp only [hls, Option.isSome_some, Bool.toNat_true]
      rw [kc_wr _ _ _ hskl, if_neg (by omega), kc_wr _ _ _ hll, if_pos rfl]
      exact hlk k hk
    · intro i r hi
      have hil := (List.getElem?_eq_some_iff.1 hi).1
      dsimp only at hi hil ⊢
      rw [htl] at hil
      rw [List.getElem?_take, if_pos hil] at hi
      have b1 := Nat.mul_le_mul_left w (show i + 1 ≤ lc by omega)
      have b2 := keyOff_succ (cfg := cfg) lc
      have b3 := keyOff_succ (cfg := cfg) (lc + g.hasLow.toNat)
      rw [a5] at b3
      rw [hw, pc_below_wr _ (by rw [hskl]; omega), pc_below_wr _ (by rw [hll]; omega), ← hw]
      exact h.pays _ _ hi
    · intro r hr; exact h.kinds r (List.mem_of_mem_take hr)
    · intro r hr; exact h.live r (List.mem_of_mem_take hr)
  -- the run
  have hroff : cfg.pageSize - (cfg.pageSize - w * (c - lc)) = w * (c - lc) := by
    have := Nat.mul_le_mul_left w (show c - lc ≤ c by omega)
    omega
  have hlb : usub (w * c) (w * (c - lc)) = .ok (w * lc) := by
    rw [usub_ok (by omega)]; congr 1; omega
  unfold FixPage.split
  simp only [hcount, hlc]
  rw [d1]
  simp only [Res.ok_bind]
  rw [rdKey_ok (by omega)]
  simp only [Res.ok_bind]
  rw [wrKey_ok (hkl _ _) (by omega)]
  simp only [Res.ok_bind]
  rw [rdKey_ok (by omega)]
  simp only [Res.ok_bind]
  rw [kc_wr _ _ _ (hkl _ _), if_neg (by omega), hs0, wrKey_ok hskl (by rw [a4]; omega)]
  simp only [Res.ok_bind, hroff, hpl]
  have egr : ({ r0 with
      payLen := w, count := c - lc
      mem := (m1.write (keyOff cfg (c - lc)) (kc cfg g.mem c)).write (keyOff cfg (c - lc + g.hasHigh.toNat)) (C.key s)
      blk := w * (c - lc)
      next := if cfg.blink || !g.inner then g.next else r0.next, hasLow := true, hasHigh := g.hasHigh } : FixPage) = gr := rfl
  have hgr0 : gr.rdKey cfg 0 = .ok (C.key s) := by rw [rdKey_ok (by omega)]; simp only [gr, hmr0]
  cases hb : cfg.blink with
  | true =>
    simp only [if_true]
    rw [rdKey_ok (by omega)]
    simp only [Res.ok_bind]
    rw [wrKey_ok (hkl _ _) (by rw [a5]; omega)]
    simp only [Res.ok_bind, hb, Bool.true_or] at egr ⊢
    rw [egr, hgr0]
    simp only [Res.ok_bind]
    rw [wrKey_ok hskl (by omega)]
    simp only [Res.ok_bind, hgb]
    rw [hlb]
    simp only [Res.ok_bind, Res.pure_eq]
    refine ⟨_, _, rfl, ?_, hR⟩
    have hx2 := hLeft (kc cfg g.mem (c + g.hasHigh.toNat)) (hkl _ _) (by
      intro k hk
      have hnl : n.low = some k := by
        split at hk
        · simpa [hb] using hk
        · exact absurd hk (by simp)
      rw [← hc, hH]
      exact h.lowKey hnl)
    simp only [hb, Bool.true_or, if_true] at hx2
    rw [← hpl] at hx2
    simpa only [if_true, hpl] using hx2
  | false =>
    simp only [Bool.false_eq_true, if_false, hgb]
    rw [hlb]
    simp only [Res.ok_bind, Bool.toNat_true]
    have a7 := keyOff_le (cfg := cfg) (show lc + 1 + 1 ≤ c + g.hasHigh.toNat + 1 by omega)
    rw [rdKey_ok (by omega)]
    simp only [Res.ok_bind]
    rw [wrKey_ok (hkl _ _) (by rw [a5]; omega)]
    simp only [Res.ok_bind, hb] at egr ⊢
    rw [egr, hgr0]
    simp only [Res.ok_bind]
    rw [wrKey_ok hskl (by omega)]
    simp only [Res.ok_bind, Res.pure_eq]
    refine ⟨_, _, rfl, ?_, hR⟩
    have hx2 := hLeft (kc cfg g.mem (lc + 1)) (hkl _ _) (by
      intro k hk
      split at hk
      · rw [if_neg (by simp [hb])] at hk
        have : n.keyArray[lc + 1]? = some (some k) := by
          cases hq : n.keyArray[lc + 1]? with
          | none => simp [hq] at hk
          | some o => simp only [hq, Option.join_some] at hk; rw [hk]
        exact h.keys _ _ this
      · exact absurd hk (by simp))
    simp only [hb, hpl, Bool.false_eq_true, if_false] at hx2 ⊢
    convert hx2

/-- `Merge`.  The left page has a right sibling, hence a highest key, and the entry behind it lies inside the page. -/
theorem merge (hf : cfg.layout = .fix) (h : FixRep C g n) (hr : FixRep C gr nr) (hin : n.isInner = nr.isInner) (hh : n.high.isSome)
    (hread : keyOff cfg (n.recs.length + 2) ≤ cfg.pageSize) (hn : n.merge cfg nr = .ok n') :
    ∃ g', g.merge cfg gr = .ok g' ∧ FixRep C g' n' := by
  have hfit := h.fits
  have hfit2 := hr.fits
  rw [← hin] at hfit2
  have hhdr := hdr_le (cfg := cfg) (n.recs.length + n.borders)
  simp only [Node.merge, hf] at hn
  obtain ⟨rfl, f⟩ := nfits hf hn (by simp only [Node.rc, List.length_append, Nat.mul_add, h.block, h.blk]) (by omega)
  simp only [Node.borders, List.length_append] at f
  have hcount := h.count
  have hpl := h.payLen
  have hgb := h.blk
  have hc2 := hr.count
  have hp2 := hr.payLen; rw [← hin] at hp2
  have hpays := h.pays
  have hpays2 := hr.pays; rw [← hin] at hpays2
  generalize hw : cfg.plen n.isInner = w at *
  generalize hc : n.recs.length = c at *
  generalize hd : nr.recs.length = d at *
  have fB : keyOff cfg (c + d + nr.high.isSome.toNat + n.low.isSome.toNat) + w * (c + d) ≤ cfg.pageSize := by
    have : (if n.low.isSome = true then 1 else 0) + (if nr.high.isSome = true then 1 else 0) = nr.high.isSome.toNat + n.low.isSome.toNat := by
      cases n.low <;> cases nr.high <;> rfl
    rw [this] at f
    rw [Nat.add_assoc (c + d)]
    exact f
  have k1 := keyOff_le (cfg := cfg) (show c + d ≤ c + d + nr.high.isSome.toNat + n.low.isSome.toNat by omega)
  have k2 := keyOff_le (cfg := cfg) (show d ≤ c + d by omega)
  have k3 := Nat.mul_le_mul_left w (show d ≤ c + d by omega)
  have k4 := Nat.mul_le_mul_left w (show c ≤ c + d by omega)
  obtain ⟨m1, d1, d2, d3⟩ := copyRecordsFrom_ok (cfg := cfg) (src := gr) (w := w) (m := d) (g := g) (c := c) (pos := 0)
    hpl hp2 hcount (by omega) (by rw [Nat.zero_add]; omega)
  simp only [Nat.zero_add] at d2 d3
  have hkl : ∀ m i, (kc cfg m i).length = cfg.maxKeyLen := fun m i => kc_len m i
  have hhd : gr.hasHigh = nr.high.isSome := hr.hasHigh
  have hrd : gr.hasHigh = true → keyOff cfg (d + 1) ≤ cfg.pageSize := by
    intro e
    have : d + 1 ≤ d + nr.borders := by
      simp only [Node.borders]; rw [hhd] at e; rw [e]; simp
    have := keyOff_le (cfg := cfg) this
    omega
  have key : ∀ low : List Byte, low.length = cfg.maxKeyLen → (∀ k, n.low = some k → low = C.key k) →
      ∃ m', ((do
        let g2 ← if gr.hasHigh = true then do
            let h ← gr.rdKey cfg gr.count
            ({ g with mem := m1, count := c + d } : FixPage).wrKey cfg (c + d) h
          else .ok ({ g with mem := m1, count := c + d } : FixPage)
        let g3 ← if g2.hasLow = true then g2.wrKey cfg (g2.count + gr.hasHigh.toNat) low else .ok g2
        return ({ g3 with
          blk := w * (c + d)
          next := if cfg.blink || !g3.inner then gr.next else g3.next
          hasHigh := gr.hasHigh } : FixPage)) : Res FixPage) = .ok ({ g with
          mem := m', count := c + d, blk := w * (c + d), next := if cfg.blink || !g.inner then gr.next else g.next,
          hasHigh := gr.hasHigh } : FixPage) ∧
        (∀ i, i < c + d → kc cfg m' i = kc cfg m1 i) ∧
        (∀ k, nr.high = some k → kc cfg m' (c + d) = C.key k) ∧
        (∀ k, n.low = some k → kc cfg m' (c + d + nr.high.isSome.toNat) = C.key k) ∧
        (∀ i, i < c + d → pc cfg w m' i = pc cfg w m1 i) := by
    intro low hll hlk
    have hnb : ∀ i bs j, bs.length = cfg.maxKeyLen → i + 1 ≤ c + d + nr.high.isSome.toNat + n.low.isSome.toNat → j < c + d →
        ∀ m, pc cfg w (m.write (keyOff cfg i) bs) j = pc cfg w m j := by
      intro i bs j hbs hi hj m
      have b1 := keyOff_le (cfg := cfg) hi
      have b2 := keyOff_succ (cfg := cfg) i
      have b3 := Nat.mul_le_mul_left w (show j + 1 ≤ c + d by omega)
      exact pc_below_wr _ (by rw [hbs]; omega)
    cases e1 : nr.high with
    | none =>
      simp only [e1, Option.isSome_none] at hhd
      simp only [e1, Option.isSome_none, Bool.toNat_false, Nat.add_zero] at hnb fB
      simp only [hhd, Bool.false_eq_true, if_false, Res.ok_bind, Bool.toNat_false, Nat.add_zero]
      cases e2 : n.low with
      | none =>
        have e3 : g.hasLow = false := by rw [h.hasLow, e2]; rfl
        simp only [e3, Bool.false_eq_true, if_false, Res.ok_bind, Res.pure_eq]
        exact ⟨m1, rfl, fun _ _ => rfl, (fun k hk => by simp at hk), (fun k hk => by simp at hk), fun _ _ => rfl⟩
      | some k =>
        have e3 : g.hasLow = true := by rw [h.hasLow, e2]; rfl
        simp only [e2, Option.isSome_some, Bool.toNat_true] at fB hnb
        simp only [e3, if_true]
        rw [wrKey_ok hll (by omega)]
        simp only [Res.ok_bind, Res.pure_eq]
        refine ⟨_, rfl, ?_, (fun k hk => by simp at hk), ?_, ?_⟩
        · intro i hi; rw [kc_wr _ _ _ hll, if_neg (by omega)]
        · intro k' hk'
          simp only [Option.isSome_none, Bool.toNat_false, Nat.add_zero]
          rw [kc_wr _ _ _ hll, if_pos rfl]; exact hlk k' (by rw [e2, hk'])
        · intro i hi; exact hnb _ _ _ hll (by omega) hi _
    | some hi =>
      simp only [e1, Option.isSome_some] at hhd
      have hcell : kc cfg gr.mem d = C.key hi := by rw [← hd]; exact hr.highKey e1
      simp only [e1, Option.isSome_some, Bool.toNat_true] at hnb fB
      have b1 := keyOff_le (cfg := cfg) (show c + d + 1 ≤ c + d + 1 + n.low.isSome.toNat by omega)
      have b2 := hrd hhd
      have hhl : (C.key hi).length = cfg.maxKeyLen := C.key_len_fix hf hi
      simp only [hhd, if_true, hc2, Bool.toNat_true]
      rw [rdKey_ok b2, hcell]
      simp only [Res.ok_bind]
      rw [wrKey_ok hhl (by omega)]
      simp only [Res.ok_bind]
      cases e2 : n.low with
      | none =>
        have e3 : g.hasLow = false := by rw [h.hasLow, e2]; rfl
        simp only [e3, Bool.false_eq_true, if_false, Res.ok_bind, Res.pure_eq]
        refine ⟨_, rfl, ?_, ?_, (fun k hk => by simp at hk), ?_⟩
        · intro i hi'; rw [kc_wr _ _ _ hhl, if_neg (by omega)]
        · intro k hk; rw [kc_wr _ _ _ hhl, if_pos rfl]; simp at hk; rw [hk]
        · intro i hi'; exact hnb _ _ _ hhl (by omega) hi' _
      | some k =>
        have e3 : g.hasLow = true := by rw [h.hasLow, e2]; rfl
        simp only [e2, Option.isSome_some, Bool.toNat_true] at fB hnb
        simp only [e3, if_true]
        rw [wrKey_ok hll (by omega)]
        simp only [Res.ok_bind, Res.pure_eq]
        refine ⟨_, rfl, ?_, ?_, ?_, ?_⟩
        · intro i hi'; rw [kc_wr _ _ _ hll, if_neg (by omega), kc_wr _ _ _ hhl, if_neg (by omega)]
        · intro k hk; rw [kc_wr _ _ _ hll, if_neg (by omega), kc_wr _ _ _ hhl, if_pos rfl]; simp at hk; rw [hk]
        · intro k' hk'
          simp only [Option.isSome_some, Bool.toNat_true]
          rw [kc_wr _ _ _ hll, if_pos rfl]; exact hlk k' (by rw [e2, hk'])
        · intro i hi'; rw [hnb _ _ _ hll (by omega) hi', hnb _ _ _ hhl (by omega) hi']
  obtain ⟨lp, hlp1, hlp2, hlp3⟩ : ∃ lp, g.mergeLowPos cfg = .ok lp ∧ keyOff cfg (lp + 1) ≤ cfg.pageSize ∧ ∀ k, n.low = some k → kc cfg g.mem lp = C.key k := by
    have hH := h.hasHigh; rw [hh] at hH
    have hlow : ∀ k, n.low = some k → kc cfg g.mem (c + 1) = C.key k := by
      intro k hk
      have := h.lowKey hk
      rw [hh, hc] at this; exact this
    simp only [FixPage.mergeLowPos]
    by_cases hb : cfg.blink = true
    · rw [if_pos hb, hcount]
      exact ⟨_, rfl, hread, hlow⟩
    · rw [if_neg hb, hcount, hH, h.hasLow]
      cases e2 : n.low with
      | none =>
        refine ⟨c, ?_, ?_, fun k hk => by simp at hk⟩
        · simp only [Option.isSome_none, Bool.toNat_false, Bool.toNat_true, Nat.add_zero]; exact usub_ok (by omega)
        · have := keyOff_le (cfg := cfg) (show c + 1 ≤ c + 2 by omega); omega
      | some k =>
        refine ⟨c + 1, ?_, hread, fun k' hk' => hlow k' (by rw [e2, hk'])⟩
        simp only [Option.isSome_some, Bool.toNat_true]; exact usub_ok (by omega)
  obtain ⟨m', q1, q2, q3, q4, q5⟩ := key (kc cfg g.mem lp) (hkl _ _) hlp3
  refine ⟨{ g with
          mem := m', count := c + d, blk := w * (c + d), next := if cfg.blink || !g.inner then gr.next else g.next,
          hasHigh := gr.hasHigh }, ?_, ?_⟩
  · unfold FixPage.merge
    rw [hlp1]
    simp only [Res.ok_bind]
    rw [rdKey_ok hlp2]
    simp only [Res.ok_bind]
    rw [hgb, usub_ok (by omega)]
    simp only [Res.ok_bind, hc2]
    rw [d1]
    simp only [Res.ok_bind]
    have e5 : cfg.pageSize - (cfg.pageSize - w * (c + d)) = w * (c + d) := by omega
    rw [e5]
    simp only [hc2] at q1
    exact q1
  · have hlen : (n.recs ++ nr.recs).length = c + d := by rw [List.length_append, hc, hd]
    have hget : ∀ i, (n.recs ++ nr.recs)[i]? = if i < c then n.recs[i]? else nr.recs[i - c]? := by
      intro i; rw [List.getElem?_append, hc]
    refine mk' h.inner h.removed hlen.symm ?_ ?_ ?_ ?_ h.hasLow hhd ?_ ?_ ?_ ?_ ?_ ?_ ?_
    · simp only [hw]; exact hpl
    · simp only [hw, hlen]
    · simp only [Node.rc, hd, h.block, hgb, hw, Nat.mul_add]
    · simp only [Node.hasNext, h.inner, h.next, hr.next]; congr
    · simp only [hlen, hw, Node.borders]; exact f
    · intro i r k hi hk
      have hil := (List.getElem?_eq_some_iff.1 hi).1
      dsimp only at hi hil ⊢
      rw [hlen] at hil
      rw [hget] at hi
      rw [q2 i hil, d2 i hil]
      by_cases c1 : i < c
      · rw [if_pos c1] at hi ⊢; exact h.recKey hi hk
      · rw [if_neg c1] at hi ⊢; exact hr.recKey hi hk
    · intro k hk; simp only [hlen]; exact q3 k hk
    · intro k hk; simp only [hlen]; exact q4 k hk
    · intro i r hi
      have hil := (List.getElem?_eq_some_iff.1 hi).1
      dsimp only at hi hil ⊢
      rw [hlen] at hil
      rw [hget] at hi
      rw [hw, q5 i hil, d3 i hil]
      by_cases c1 : i < c
      · rw [if_pos c1] at hi ⊢; exact hpays _ _ hi
      · rw [if_neg c1] at hi ⊢; exact hpays2 _ _ hi
    · intro r hr'
      rcases List.mem_append.1 hr' with h1 | h1
      · exact h.kinds r h1
      · dsimp only; rw [hin]; exact hr.kinds r h1
    · intro r hr'
      rcases List.mem_append.1 hr' with h1 | h1
      · exact h.live r h1
      · exact hr.live r h1

end FixRep
end BT
