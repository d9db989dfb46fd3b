import Verif.VarSmoOk
import Verif.FixReadOk

/-!
# The variable-length page: construction, bulk load and reads
-/

set_option linter.unusedSectionVars false

namespace BT
variable {K V : Type} [LinearOrder K] {cfg : Cfg K} {C : Codec cfg V}

open VarPage

namespace VarRep
variable {g gr : VarPage} {n n' nr : Node K V}

/-- An empty page on any memory. -/
theorem empty (C : Codec cfg V) (inner : Bool) (junk : Ram) (hh : cfg.headerLen ≤ cfg.pageSize) :
    VarRep C (VarPage.empty cfg inner junk) ({ isInner := inner, recs := [] } : Node K V) := by
  have := Lay.nil C junk inner cfg.pageSize (Nat.le_refl _) hh
  rw [Nat.sub_self] at this
  exact ⟨rfl, rfl, rfl, rfl, rfl, rfl, rfl, rfl, rfl, _, this⟩

/-- A new root. -/
theorem newRoot (hv : cfg.layout = .var) (hm : cfg.metaLen = 8) (hp : cfg.pageSize < 2 ^ 16) (hh : cfg.headerLen ≤ cfg.pageSize) {k : K}
    {l r : Ptr} (junk : Ram) (hn : (Node.newRoot cfg (some k) l r : Res (Node K V)) = .ok n) :
    ∃ g, VarPage.newRoot cfg (C.key k) (natBytes cfg.ptrLen l) (natBytes cfg.ptrLen r) junk = .ok g ∧ VarRep C g n := by
  simp only [Node.newRoot, hv] at hn
  obtain ⟨rfl, hroom⟩ := vfits hv hh hn
  simp only [List.length_cons, List.length_nil, Nat.zero_add] at hroom
  have a1 := metaOff_succ (cfg := cfg) 1
  have a2 := hdr_metaOff (cfg := cfg) 1
  have a3 := metaOff_zero (cfg := cfg)
  have a4 := metaOff_succ (cfg := cfg) 0
  have lk : (C.key k).length = cfg.klen k := C.key_len k
  have ll := natBytes_length cfg.ptrLen l
  have lr := natBytes_length cfg.ptrLen r
  have h0 := Lay.nil (K := K) C junk true cfg.pageSize (Nat.le_refl _) hh
  rw [Nat.sub_self] at h0
  have h1 := h0.append hm hp (r := ⟨none, .ptr l, false⟩) rfl rfl (off := cfg.pageSize - cfg.ptrLen) rfl
    (by simp only [Rec.len, Cfg.oklen, Cfg.plen, if_true]; omega)
    (by simp only [Rec.len, Cfg.oklen, Cfg.plen, if_true, List.length_nil, Nat.zero_add] at a4 ⊢; omega)
  have h2 := h1.append hm hp (r := ⟨some k, .ptr r, false⟩) rfl rfl (off := cfg.pageSize - (cfg.ptrLen + (cfg.klen k + cfg.ptrLen))) rfl
    (by simp only [Rec.len, Cfg.oklen, Cfg.plen, if_true]; omega)
    (by simp only [Rec.len, Cfg.oklen, Cfg.plen, if_true, List.length_nil, Nat.zero_add, List.nil_append, List.length_cons] at a4 ⊢; omega)
  simp only [Rec.len, Cfg.oklen, Cfg.plen, if_true, List.length_nil, Nat.zero_add, List.nil_append, List.length_cons, Codec.whole,
    Codec.okey, Codec.pay, List.cons_append] at h2
  generalize hM : Ram.write _ (metaOff cfg 1) _ = mem at h2
  refine ⟨{ VarPage.empty cfg true junk with mem := mem, count := 2, blk := cfg.ptrLen + (cfg.klen k + cfg.ptrLen) }, ?_,
    rfl, rfl, rfl, rfl, rfl, rfl, rfl, rfl, rfl, _, h2⟩
  unfold VarPage.newRoot
  simp only
  rw [put_ok (o := cfg.pageSize - cfg.ptrLen) (by omega) (by omega) (by omega)]
  simp only [Res.ok_bind]
  rw [wrMeta_ok (by omega)]
  simp only [Res.ok_bind]
  rw [put_ok (o := cfg.pageSize - (cfg.ptrLen + cfg.ptrLen)) (by omega) (by omega) (by omega)]
  simp only [Res.ok_bind]
  rw [put_ok (o := cfg.pageSize - (cfg.ptrLen + (cfg.klen k + cfg.ptrLen))) (by omega) (by omega) (by omega)]
  simp only [Res.ok_bind]
  rw [wrMeta_ok (by rw [a1]; omega)]
  simp only [Res.ok_bind, Res.pure_eq, lk]
  have e : cfg.pageSize - (cfg.ptrLen + cfg.ptrLen) = cfg.pageSize - (cfg.ptrLen + (cfg.klen k + cfg.ptrLen)) + (C.key k).length := by omega
  have e2 : cfg.pageSize - (cfg.pageSize - (cfg.ptrLen + (cfg.klen k + cfg.ptrLen))) = cfg.ptrLen + (cfg.klen k + cfg.ptrLen) := by omega
  rw [e, Ram.write_write_adj, e2]
  simp only [VarPage.empty, hM]

/-- Filling a page in the course of a bulk load. -/
theorem bulkFill_ok (hm : cfg.metaLen = 8) (hp : cfg.pageSize < 2 ^ 16) {inner : Bool} {low high : Option K} {hoff top : Nat}
    (es : List (K × Pay V)) :
    ∀ {t : VarPage} {recs : List (Rec K V)} {blk off : Nat}, Lay C t.mem inner recs low high blk hoff top → t.count = recs.length →
    off + blk = cfg.pageSize → (∀ e ∈ es, e.2.Fits inner) →
    metaOff cfg (recs.length + es.length) + (blk + Node.recBytes cfg inner (es.map fun e => (⟨some e.1, e.2, false⟩ : Rec K V))) ≤
      cfg.pageSize →
    ∃ mem off', t.bulkFill cfg (es.map fun e => (C.key e.1, C.pay e.2)) off =
        .ok ({ t with mem := mem, count := recs.length + es.length }, off') ∧
      Lay C mem inner (recs ++ es.map fun e => (⟨some e.1, e.2, false⟩ : Rec K V)) low high
        (blk + Node.recBytes cfg inner (es.map fun e => (⟨some e.1, e.2, false⟩ : Rec K V))) hoff top ∧
      off' + (blk + Node.recBytes cfg inner (es.map fun e => (⟨some e.1, e.2, false⟩ : Rec K V))) = cfg.pageSize := by
  induction es with
  | nil =>
    intro t recs blk off ht htc ho _ _
    refine ⟨t.mem, off, ?_, ?_, ?_⟩
    · simp only [List.map_nil, VarPage.bulkFill, List.length_nil, Nat.add_zero, ← htc]
    · simpa using ht
    · simpa using ho
  | cons e es ih =>
    intro t recs blk off ht htc ho hfit hroom
    obtain ⟨k, pay⟩ := e
    have hf : pay.Fits inner := hfit (k, pay) (by simp)
    have lk : (C.key k).length = cfg.klen k := C.key_len k
    have lp : (C.pay pay).length = cfg.plen inner := C.pay_len hf
    simp only [List.map_cons, recBytes_cons, List.length_cons] at hroom ⊢
    simp only [Rec.len, Cfg.oklen] at hroom ⊢
    have b1 := metaOff_le (cfg := cfg) (show recs.length + 1 ≤ recs.length + (es.length + 1) by omega)
    have b2 := hdr_metaOff (cfg := cfg) (recs.length + 1)
    have l1 := ht.append hm hp (r := ⟨some k, pay, false⟩) hf rfl (off := off - (cfg.klen k + cfg.plen inner)) rfl
      (by simp only [Rec.len, Cfg.oklen]; omega) (by simp only [Rec.len, Cfg.oklen]; omega)
    simp only [Rec.len, Cfg.oklen, Codec.whole, Codec.okey] at l1
    generalize hM : Ram.write _ (metaOff cfg recs.length) _ = m1 at l1
    obtain ⟨m2, o2, e2, l2, p2⟩ := ih (t := { t with mem := m1, count := recs.length + 1 }) (off := off - (cfg.klen k + cfg.plen inner)) l1
      (by simp) (by omega) (fun e he => hfit e (by simp [he])) (by
        simp only [List.length_append, List.length_cons, List.length_nil]
        rw [show recs.length + (0 + 1) + es.length = recs.length + (es.length + 1) by omega]
        omega)
    refine ⟨m2, o2, ?_, ?_, by omega⟩
    · unfold VarPage.bulkFill
      rw [put_ok (o := off - cfg.plen inner) (by omega) (by omega) (by omega)]
      simp only [Res.ok_bind]
      rw [put_ok (o := off - (cfg.klen k + cfg.plen inner)) (by omega) (by omega) (by omega)]
      simp only [Res.ok_bind, htc]
      rw [wrMeta_ok (by omega)]
      simp only [Res.ok_bind, lk, lp]
      have e : off - cfg.plen inner = off - (cfg.klen k + cfg.plen inner) + (C.key k).length := by omega
      rw [e, Ram.write_write_adj, hM]
      simp only [List.length_append, List.length_cons, List.length_nil] at e2
      rw [show recs.length + (0 + 1) + es.length = recs.length + (es.length + 1) by omega] at e2
      rw [← e2]
    · simp only [List.append_assoc, List.cons_append, List.nil_append] at l2
      rw [← Nat.add_assoc]
      exact l2

/-- `Bulkload` of a page that takes the entries `es`. -/
theorem bulkload (hv : cfg.layout = .var) (hm : cfg.metaLen = 8) (hp : cfg.pageSize < 2 ^ 16) (hh : cfg.headerLen ≤ cfg.pageSize)
    {inner : Bool} {k : K} (hk : cfg.klen k ≤ cfg.maxKeyLen) {es : List (K × Pay V)} (junk : Ram) (hfit : ∀ e ∈ es, e.2.Fits inner)
    (hn : Node.checked cfg (bulkNode cfg inner k (es.map fun e => (⟨some e.1, e.2, false⟩ : Rec K V))) = .ok n) :
    ∃ g, (VarPage.empty cfg inner junk).bulkload cfg (C.key k) (es.map fun e => (C.key e.1, C.pay e.2)) = .ok g ∧ VarRep C g n := by
  obtain ⟨rfl, hroom⟩ := vfits hv hh hn
  simp only [bulkNode, hv, List.length_map] at hroom
  have b0 := hdr_metaOff (cfg := cfg) es.length
  have lk : (C.key k).length = cfg.klen k := C.key_len k
  have h0 := Lay.nil (K := K) C junk inner cfg.pageSize (top := cfg.pageSize - cfg.maxKeyLen) (by omega) (by omega)
  rw [show cfg.pageSize - (cfg.pageSize - cfg.maxKeyLen) = cfg.maxKeyLen by omega] at h0
  obtain ⟨m1, o1, e1, l1, p1⟩ := bulkFill_ok hm hp es (t := VarPage.empty cfg inner junk) (off := cfg.pageSize - cfg.maxKeyLen) h0 rfl (by omega)
    hfit (by simp only [List.length_nil, Nat.zero_add]; omega)
  simp only [List.nil_append, List.length_nil, Nat.zero_add] at e1 l1
  have l2 := l1.putLow (k := k) (by omega)
  refine ⟨{ VarPage.empty cfg inner junk with mem := m1.write (cfg.pageSize - cfg.klen k) (C.key k), count := es.length, blk := cfg.pageSize - o1, lowOff := cfg.pageSize - cfg.klen k, lowLen := cfg.klen k }, ?_, ?_⟩
  · unfold VarPage.bulkload
    rw [usub_ok (by omega)]
    simp only [Res.ok_bind, e1]
    rw [put_ok (o := cfg.pageSize - cfg.klen k) (by omega) (by omega) (by omega)]
    simp only [Res.ok_bind, Res.pure_eq, lk]
  · refine ⟨rfl, rfl, by simp [bulkNode], ?_, rfl, rfl, rfl, rfl, rfl, cfg.pageSize - cfg.maxKeyLen, ?_⟩
    · simp only [bulkNode, hv]; omega
    · simp only [bulkNode, hv]
      exact l2

/-- `LinkNext` of a freshly loaded page. -/
theorem linkNext (hv : cfg.layout = .var) (hh : cfg.headerLen ≤ cfg.pageSize) (h : VarRep C g n) (hr : VarRep C gr nr) (hhi : n.high = none)
    {k : K} (hk0 : hdKey nr.recs none = some k) (hlow : nr.low = some k) {rp : Ptr} (hn : n.linkTo cfg k rp = .ok n') :
    ∃ g', g.linkNext cfg gr rp = .ok g' ∧ VarRep C g' n' := by
  obtain ⟨x, hx, hxk⟩ : ∃ x, nr.recs[0]? = some x ∧ x.key = some k := by
    cases hq : nr.recs with
    | nil => simp [hq, hdKey] at hk0
    | cons a b => simp only [hq, hdKey] at hk0; exact ⟨a, rfl, hk0⟩
  simp only [Node.linkTo, hv] at hn
  obtain ⟨rfl, hroom⟩ := vfits hv hh hn
  dsimp only at hroom
  obtain ⟨top, hl⟩ := h.lay
  obtain ⟨rtop, hrl⟩ := hr.lay
  have hpos : 0 < nr.recs.length := (List.getElem?_eq_some_iff.mp hx).1
  have sl := hrl.slot _ _ hx
  have b0 := hdr_metaOff (cfg := cfg) n.recs.length
  have lk : (C.key k).length = cfg.klen k := C.key_len k
  rw [hhi] at hl
  have l1 := hl.putHigh (k := k) (off := cfg.pageSize - (n.block + cfg.klen k)) rfl (by omega) hroom
  have hlen : linkLen cfg gr (word cfg gr.mem 0) = cfg.klen k := by
    unfold linkLen
    split
    · rw [hr.lowLen, hlow]; rfl
    · rw [sl.klen, hxk]; rfl
  refine ⟨{ g with mem := g.mem.write (cfg.pageSize - (n.block + cfg.klen k)) (C.key k), highLen := cfg.klen k, highOff := cfg.pageSize - (n.block + cfg.klen k), blk := n.block + cfg.klen k, next := if cfg.blink || !g.inner then some rp else g.next }, ?_, ?_⟩
  · unfold VarPage.linkNext
    rw [rdMeta_ok (hrl.metaIn hpos)]
    simp only [Res.ok_bind, keyBytes_ok hrl hx, hxk, Codec.okey, hlen]
    rw [if_neg (by omega), h.blk, usub_ok (by omega)]
    simp only [Res.ok_bind]
    rw [List.take_of_length_le (by omega), put_ok (o := cfg.pageSize - (n.block + cfg.klen k)) (by omega) (by omega) (by omega)]
    simp only [Res.ok_bind, Res.pure_eq]
    rw [h.blk]
  · refine ⟨h.inner, h.removed, h.count, rfl, h.del, ?_, h.lowLen, h.lowOff, rfl, top, l1⟩
    simp only [h.inner, h.next, Node.hasNext]
    congr

/-! ### Reads -/

theorem getKey (h : VarRep C g n) {i : Nat} {r : Rec K V} {k : K} (hi : n.recs[i]? = some r) (hk : r.key = some k) :
    g.getKey C i = .ok k := by
  obtain ⟨top, hl⟩ := h.lay
  have hpos : i < n.recs.length := (List.getElem?_eq_some_iff.mp hi).1
  simp only [VarPage.getKey, rdMeta_ok (hl.metaIn hpos), Res.ok_bind, keyBytes_ok hl hi, hk, Codec.okey, C.key_get]

theorem rdPay (h : VarRep C g n) {i : Nat} {r : Rec K V} (hi : n.recs[i]? = some r) {len : Nat} (hlen : len = cfg.plen n.isInner) :
    g.rd cfg ((word cfg g.mem i).offset + (word cfg g.mem i).keyLen) len = .ok (C.pay r.pay) := by
  obtain ⟨top, hl⟩ := h.lay
  have sl := hl.slot _ _ hi
  have s1 := sl.lo; have s2 := sl.hi; have s3 := sl.klen; have s5 := sl.bytes
  have t1 := hl.hdr; have t2 := hl.top_hi
  simp only [Rec.len] at s2
  rw [s3, hlen, rd_ok (by omega) (by omega)]
  congr 1
  rw [Rec.len, Ram.bytes_append] at s5
  unfold Codec.whole at s5
  exact (List.append_inj s5 (by simp)).2

theorem isDeleted (h : VarRep C g n) {i : Nat} {r : Rec K V} (hi : n.recs[i]? = some r) : g.isDeleted cfg i = .ok r.del := by
  obtain ⟨top, hl⟩ := h.lay
  have hpos : i < n.recs.length := (List.getElem?_eq_some_iff.mp hi).1
  simp only [VarPage.isDeleted, rdMeta_ok (hl.metaIn hpos), Res.ok_bind, (hl.slot _ _ hi).mark, Res.pure_eq]

theorem getVal (h : VarRep C g n) {i : Nat} {r : Rec K V} {v : V} (hi : n.recs[i]? = some r) (hv : r.pay = .val v) :
    g.getVal C i = .ok v := by
  obtain ⟨top, hl⟩ := h.lay
  have hpos : i < n.recs.length := (List.getElem?_eq_some_iff.mp hi).1
  have hf := (hl.slot _ _ hi).fits
  rw [hv] at hf
  have hleaf : n.isInner = false := hf
  simp only [VarPage.getVal, rdMeta_ok (hl.metaIn hpos), Res.ok_bind]
  rw [h.rdPay hi (by rw [hleaf]; rfl)]
  simp only [Res.ok_bind, hv, Codec.pay, C.val_get]

theorem getChild (h : VarRep C g n) {i : Nat} {r : Rec K V} {c : Ptr} (hi : n.recs[i]? = some r) (hc : r.pay = .ptr c)
    (hb : c < 256 ^ cfg.ptrLen) : g.getChild cfg i = .ok c := by
  obtain ⟨top, hl⟩ := h.lay
  have hpos : i < n.recs.length := (List.getElem?_eq_some_iff.mp hi).1
  have hf := (hl.slot _ _ hi).fits
  rw [hc] at hf
  have hin : n.isInner = true := hf
  simp only [VarPage.getChild, rdMeta_ok (hl.metaIn hpos), Res.ok_bind]
  rw [h.rdPay hi (by rw [hin]; rfl)]
  simp only [Res.ok_bind, hc, Codec.pay, bytesNat_natBytes _ _ hb, Res.pure_eq]

theorem getHigh (h : VarRep C g n) {k : K} (hk : n.high = some k) : g.getHigh C = .ok k := by
  obtain ⟨top, hl⟩ := h.lay
  obtain ⟨h1, h2, h3⟩ := hl.highOk k hk
  have t1 := hl.hdr; have t2 := hl.top_hi
  have e := h.highLen
  rw [hk] at e
  simp only [Cfg.oklen] at e
  unfold VarPage.getHigh
  rw [e, rd_ok (by omega) (by omega), h3]
  simp only [Res.ok_bind, C.key_get]

theorem getLow (h : VarRep C g n) {k : K} (hk : n.low = some k) : g.getLow C = .ok k := by
  obtain ⟨top, hl⟩ := h.lay
  have h3 := hl.lowOk
  have t1 := hl.hdr; have t2 := hl.lowBytes
  unfold VarPage.getLow
  rw [h.lowOff, h.lowLen, rd_ok (by omega) (by omega), h3, hk]
  simp only [Res.ok_bind, Codec.okey, C.key_get]

theorem compHighKey (hne : ∀ k, 0 < cfg.klen k) (h : VarRep C g n) (k : K) : g.compHighKey C k = .ok (n.compHighKey k) := by
  have e := h.highLen
  unfold VarPage.compHighKey Node.compHighKey
  cases hq : n.high with
  | none =>
    rw [hq] at e
    simp only [Cfg.oklen] at e
    rw [if_pos e]
  | some x =>
    rw [hq] at e
    simp only [Cfg.oklen] at e
    have := hne x
    rw [if_neg (by omega), h.getHigh hq]
    rfl

theorem searchLoop (h : VarRep C g n) (k : K) : ∀ {f b e : Nat} {x : NodeRC × Nat}, Node.searchLoop n.recs k f b e = .ok x →
    g.searchLoop C k f b e = .ok x := by
  intro f
  induction f with
  | zero => intro b e x hx; simp [Node.searchLoop] at hx
  | succ f ih =>
    intro b e x hx
    simp only [Node.searchLoop] at hx
    simp only [VarPage.searchLoop]
    by_cases c1 : b < e
    · rw [if_pos c1] at hx ⊢
      cases hq : n.recs[(b + e - 1) / 2]? with
      | none => simp [hq] at hx
      | some r =>
        simp only [hq] at hx
        cases hk : r.key with
        | none => simp [hk] at hx
        | some ik =>
          simp only [hk] at hx
          rw [h.getKey hq hk]
          simp only [Res.ok_bind]
          by_cases c2 : k < ik
          · rw [if_pos c2] at hx ⊢; exact ih hx
          · rw [if_neg c2] at hx ⊢
            by_cases c3 : ik < k
            · rw [if_pos c3] at hx ⊢; exact ih hx
            · rw [if_neg c3] at hx ⊢
              rw [h.isDeleted hq]
              simpa using hx
    · rw [if_neg c1] at hx ⊢; exact hx

theorem searchRecord (h : VarRep C g n) {k : K} {x : NodeRC × Nat} (hx : n.searchRecord k = .ok x) : g.searchRecord C k = .ok x := by
  simp only [Node.searchRecord, Node.rc] at hx
  simp only [VarPage.searchRecord, h.count, h.inner]
  cases hq : Node.searchLoop n.recs k (n.recs.length + 1) (if n.isInner then 1 else 0) n.recs.length with
  | ub => rw [hq] at hx; simp at hx
  | fuel => rw [hq] at hx; simp at hx
  | ok y =>
    have := h.searchLoop k hq
    rw [hq] at hx
    rw [this]
    obtain ⟨y1, y2⟩ := y
    cases y1 <;> exact hx

end VarRep
end BT
