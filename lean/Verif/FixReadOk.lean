import Verif.FixSmoOk
import Verif.Bulk

/-!
# The fixed-length page: construction, bulk loading and reads
-/

set_option linter.unusedSectionVars false

namespace BT
variable {K V : Type} [LinearOrder K] {cfg : Cfg K} {C : Codec cfg V}

/-- The list-level page after `LinkNext` to a page whose first key is `k` (the body of `linkNext`). -/
def Node.linkTo (cfg : Cfg K) (n : Node K V) (k : K) (rp : Ptr) : Res (Node K V) :=
  Node.checked cfg { n with
    high := some k
    next := if n.hasNext cfg then some rp else n.next
    block := match cfg.layout with
      | .var => n.block + cfg.klen k
      | .fix => n.block }

namespace FixRep
open FixPage
variable {g gr : FixPage} {n n' nr : Node K V}

/-- An empty page on any memory. -/
theorem empty (C : Codec cfg V) (inner : Bool) (junk : Ram) (hh : cfg.headerLen ≤ cfg.pageSize) :
    FixRep C (FixPage.empty cfg inner junk) ({ isInner := inner, recs := [] } : Node K V) := by
  refine ⟨rfl, rfl, rfl, rfl, ?_, rfl, rfl, rfl, rfl, ?_, ?_, ?_, ?_, ?_⟩
  · simp [FixPage.empty]
  · simp [keyOff, Node.borders]; exact hh
  · intro i k hi; simp [Node.keyArray] at hi
  · intro i r hi; simp at hi
  · intro r hr; simp at hr
  · intro r hr; simp at hr

/-- A new root. -/
theorem newRoot (hf : cfg.layout = .fix) (hh : cfg.headerLen ≤ cfg.pageSize) {k : K} {l r : Ptr} (junk : Ram)
    (hn : (Node.newRoot cfg (some k) l r : Res (Node K V)) = .ok n) :
    ∃ g, FixPage.newRoot cfg (C.key k) (natBytes cfg.ptrLen l) (natBytes cfg.ptrLen r) junk = .ok g ∧ FixRep C g n := by
  simp only [Node.newRoot, hf] at hn
  obtain ⟨rfl, f⟩ := nfits hf hn (by simp [Cfg.plen]; omega) hh
  have hk : (C.key k).length = cfg.maxKeyLen := C.key_len_fix hf k
  simp only [List.length_cons, List.length_nil, Node.borders, Cfg.plen, if_true] at f
  simp only [Option.isSome_none, Bool.false_eq_true, if_false, Nat.add_zero, Nat.zero_add] at f
  generalize hw : cfg.ptrLen = w at *
  have k1 := hdr_le (cfg := cfg) (1 + 1)
  have e2 : w * (1 + 1) = w + w := by omega
  have hwl : ∀ x, (natBytes w x).length = w := fun x => natBytes_length w x
  refine ⟨⟨true, false, 2 * w, 2, w, none, false, false,
    ((junk.write (keyOff cfg 1) (C.key k)).write (cfg.pageSize - w * (0 + 1)) (natBytes w l)).write
      (cfg.pageSize - w * (1 + 1)) (natBytes w r)⟩, ?_, ?_⟩
  · unfold FixPage.newRoot
    rw [hw]
    dsimp only
    rw [wrKey_ok hk (by omega)]
    simp only [Res.ok_bind, FixPage.setPayload]
    rw [usub_ok (by omega)]
    simp only [Res.ok_bind]
    rw [wr_ok (by omega) (by rw [hwl]; omega)]
    simp only [Res.ok_bind, Res.pure_eq]
    rw [usub_ok (by omega)]
    simp only [Res.ok_bind]
    rw [wr_ok (by omega) (by rw [hwl]; omega)]
    simp only [Res.ok_bind, Res.pure_eq]
    have e3 : cfg.pageSize - w - w = cfg.pageSize - w * (1 + 1) := by omega
    have e4 : cfg.pageSize - w = cfg.pageSize - w * (0 + 1) := by omega
    rw [e3, e4]
  · have hp : cfg.plen true = w := by simp [Cfg.plen, hw]
    refine mk' rfl rfl rfl ?_ ?_ ?_ rfl rfl rfl ?_ ?_ ?_ ?_ ?_ ?_ ?_
    · exact hp.symm
    · simp only [hp, List.length_cons, List.length_nil]; omega
    · rfl
    · simp only [hp, List.length_cons, List.length_nil, Node.borders]; simpa using f
    · intro i r' k' hi hk'
      have hil := (List.getElem?_eq_some_iff.1 hi).1
      simp only [List.length_cons, List.length_nil] at hil
      dsimp only at hi ⊢
      have hi2 : i = 0 ∨ i = 1 := by omega
      rcases hi2 with rfl | rfl
      · simp at hi; subst hi; simp at hk'
      · simp at hi; subst hi
        simp at hk'; subst hk'
        rw [kc_above_wr _ (by omega), kc_above_wr _ (by omega), kc_wr _ _ _ hk, if_pos rfl]
    · intro k' hk'; simp at hk'
    · intro k' hk'; simp at hk'
    · intro i r' hi
      have hil := (List.getElem?_eq_some_iff.1 hi).1
      simp only [List.length_cons, List.length_nil] at hil
      dsimp only at hi ⊢
      rw [hp]
      have hi2 : i = 0 ∨ i = 1 := by omega
      rcases hi2 with rfl | rfl
      · simp only [List.getElem?_cons_zero, Option.some.injEq] at hi
        subst hi
        rw [pc_wr _ _ _ _ (hwl _) (by omega) (by omega), if_neg (by omega), pc_wr _ _ _ _ (hwl _) (by omega) (by omega), if_pos rfl]
        simp only [Codec.pay, hw]
      · simp only [List.getElem?_cons_succ, List.getElem?_cons_zero, Option.some.injEq] at hi
        subst hi
        rw [pc_wr _ _ _ _ (hwl _) (by omega) (by omega), if_pos rfl]
        simp only [Codec.pay, hw]
    · intro r' hr
      simp only [List.mem_cons, List.not_mem_nil, or_false] at hr
      rcases hr with rfl | rfl <;> rfl
    · intro r' hr
      simp only [List.mem_cons, List.not_mem_nil, or_false] at hr
      rcases hr with rfl | rfl <;> rfl

/-- Filling a page in the course of a bulk load. -/
theorem bulkFill_ok (hf : cfg.layout = .fix) {inner : Bool} {es : List (K × Pay V)} :
    ∀ {g : FixPage} {c : Nat}, g.payLen = cfg.plen inner → g.count = c →
    keyOff cfg (c + es.length) + cfg.plen inner * (c + es.length) ≤ cfg.pageSize → (∀ e ∈ es, e.2.Fits inner) →
    ∃ m', g.bulkFill cfg (es.map fun e => (C.key e.1, C.pay e.2)) (cfg.pageSize - cfg.plen inner * c)
        = .ok ({ g with mem := m', count := c + es.length }, cfg.pageSize - cfg.plen inner * (c + es.length)) ∧
      (∀ i, i < c → kc cfg m' i = kc cfg g.mem i) ∧ (∀ i, i < c → pc cfg (cfg.plen inner) m' i = pc cfg (cfg.plen inner) g.mem i) ∧
      (∀ i e, es[i]? = some e → kc cfg m' (c + i) = C.key e.1 ∧ pc cfg (cfg.plen inner) m' (c + i) = C.pay e.2) := by
  induction es with
  | nil =>
    intro g c hp hc hfit hk
    refine ⟨g.mem, ?_, fun _ _ => rfl, fun _ _ => rfl, fun i e hi => by simp at hi⟩
    simp only [List.map_nil, FixPage.bulkFill, List.length_nil, Nat.add_zero, ← hc]
  | cons e es ih =>
    intro g c hp hc hfit hk
    obtain ⟨k, pay⟩ := e
    have hkl : (C.key k).length = cfg.maxKeyLen := C.key_len_fix hf k
    have hpl : (C.pay pay).length = cfg.plen inner := C.pay_len (hk (k, pay) (by simp))
    simp only [List.length_cons] at hfit
    generalize hw : cfg.plen inner = w at *
    have a1 := keyOff_le (cfg := cfg) (show c + 1 ≤ c + (es.length + 1) by omega)
    have a2 := Nat.mul_le_mul_left w (show c + 1 ≤ c + (es.length + 1) by omega)
    have a3 := Nat.mul_add_one w c
    have a4 := hdr_le (cfg := cfg) (c + 1)
    have a5 := keyOff_succ (cfg := cfg) c
    have b1 : c + 1 + es.length = c + (es.length + 1) := by omega
    obtain ⟨m2, h1, h2, h3, h4⟩ := ih (g := { g with
        mem := (g.mem.write (cfg.pageSize - w * (c + 1)) (C.pay pay)).write (keyOff cfg c) (C.key k), count := c + 1 })
      (c := c + 1) hp rfl (by rw [b1]; exact hfit) (fun e he => hk e (by simp [he]))
    rw [b1] at h1
    refine ⟨m2, ?_, ?_, ?_, ?_⟩
    · simp only [List.map_cons, FixPage.bulkFill, FixPage.setPayload, hp]
      rw [usub_ok (by omega)]
      simp only [Res.ok_bind]
      have e3 : cfg.pageSize - w * c - w = cfg.pageSize - w * (c + 1) := by omega
      rw [e3, wr_ok (by omega) (by omega)]
      simp only [Res.ok_bind, Res.pure_eq, hc]
      rw [wrKey_ok hkl (by omega)]
      simp only [Res.ok_bind]
      simp only [hp] at h1 ⊢
      rw [h1]; simp only [List.length_cons]
    · intro i hi
      have a6 := keyOff_le (cfg := cfg) (show i + 1 ≤ c + 1 by omega)
      rw [h2 i (by omega)]
      dsimp only
      rw [kc_wr _ _ _ hkl, if_neg (by omega), kc_above_wr _ (by omega)]
    · intro i hi
      have a6 := Nat.mul_le_mul_left w (show i + 1 ≤ c + 1 by omega)
      rw [h3 i (by omega)]
      dsimp only
      rw [pc_below_wr _ (by rw [hkl]; omega), pc_wr _ _ _ _ hpl (by omega) (by omega), if_neg (by omega)]
    · intro i e hi
      cases i with
      | zero =>
        simp only [List.getElem?_cons_zero, Option.some.injEq] at hi
        subst hi
        rw [Nat.add_zero, h2 c (by omega), h3 c (by omega)]
        dsimp only
        refine ⟨?_, ?_⟩
        · rw [kc_wr _ _ _ hkl, if_pos rfl]
        · rw [pc_below_wr _ (by rw [hkl]; omega), pc_wr _ _ _ _ hpl (by omega) (by omega), if_pos rfl]
      | succ j =>
        simp only [List.getElem?_cons_succ] at hi
        have := h4 j e hi
        have b3 : c + 1 + j = c + (j + 1) := by omega
        rw [b3] at this
        exact this

/-- `Bulkload` of a page that takes the entries `es`. -/
theorem bulkload (hf : cfg.layout = .fix) (hh : cfg.headerLen ≤ cfg.pageSize) {inner : Bool} {k : K} {pay : Pay V} {es : List (K × Pay V)}
    (junk : Ram) (hk : ∀ e ∈ (k, pay) :: es, e.2.Fits inner)
    (hn : Node.checked cfg (bulkNode cfg inner k (((k, pay) :: es).map fun e => (⟨some e.1, e.2, false⟩ : Rec K V))) = .ok n) :
    ∃ g, (FixPage.empty cfg inner junk).bulkload cfg (((k, pay) :: es).map fun e => (C.key e.1, C.pay e.2)) = .ok g ∧ FixRep C g n := by
  generalize hes : (k, pay) :: es = es' at *
  have hlen : (es'.map fun e => (⟨some e.1, e.2, false⟩ : Rec K V)).length = es'.length := by simp
  have h0 : es'[0]? = some (k, pay) := by rw [← hes]; rfl
  have hpos : 0 < es'.length := by rw [← hes]; simp
  obtain ⟨rfl, f⟩ := nfits hf hn (by simp only [bulkNode, hf]) hh
  simp only [bulkNode, hlen, Node.borders, Option.isSome_some, Option.isSome_none, Bool.false_eq_true, if_true, if_false, Nat.add_zero] at f
  have a1 := keyOff_le (cfg := cfg) (show es'.length ≤ es'.length + 1 by omega)
  obtain ⟨m1, h1, h2, h3, h4⟩ := bulkFill_ok (C := C) hf (inner := inner) (es := es') (g := FixPage.empty cfg inner junk) (c := 0) rfl rfl
    (by rw [Nat.zero_add]; omega) hk
  simp only [Nat.zero_add, Nat.mul_zero, Nat.sub_zero] at h1 h4
  have hkl : (C.key k).length = cfg.maxKeyLen := C.key_len_fix hf k
  have a2 := keyOff_le (cfg := cfg) (show 0 + 1 ≤ es'.length + 1 by omega)
  have e5 : cfg.pageSize - (cfg.pageSize - cfg.plen inner * es'.length) = cfg.plen inner * es'.length := by omega
  have a3 := keyOff_succ (cfg := cfg) es'.length
  refine ⟨⟨inner, false, cfg.plen inner * es'.length, es'.length, cfg.plen inner, none, true, false,
    m1.write (keyOff cfg es'.length) (C.key k)⟩, ?_, ?_⟩
  · unfold FixPage.bulkload
    rw [h1]
    simp only [Res.ok_bind, e5]
    rw [rdKey_ok (by omega)]
    simp only [Res.ok_bind]
    rw [(h4 0 _ h0).1, wrKey_ok hkl (by omega)]
    simp only [FixPage.empty]
  · refine mk' rfl rfl hlen.symm rfl ?_ ?_ rfl rfl rfl ?_ ?_ ?_ ?_ ?_ ?_ ?_
    · simp only [bulkNode, hlen]
    · simp only [bulkNode, hf, hlen]
    · simp only [bulkNode, hlen, Node.borders, Option.isSome_some, Option.isSome_none, Bool.false_eq_true, if_true, if_false, Nat.add_zero]
      exact f
    · intro i r k' hi hk'
      have hil := (List.getElem?_eq_some_iff.1 hi).1
      simp only [bulkNode, hlen] at hi hil ⊢
      rw [List.getElem?_map] at hi
      simp only [Option.map_eq_some_iff] at hi
      obtain ⟨e, he, rfl⟩ := hi
      simp only [Option.some.injEq] at hk'
      rw [kc_wr _ _ _ hkl, if_neg (by omega), (h4 i e he).1, hk']
    · intro k' hk'; simp [bulkNode] at hk'
    · intro k' hk'
      simp only [bulkNode, Option.some.injEq] at hk'
      subst hk'
      simp only [bulkNode, hlen, Option.isSome_none, Bool.toNat_false, Nat.add_zero]
      rw [kc_wr _ _ _ hkl, if_pos rfl]
    · intro i r hi
      have hil := (List.getElem?_eq_some_iff.1 hi).1
      simp only [bulkNode, hlen] at hi hil ⊢
      rw [List.getElem?_map] at hi
      simp only [Option.map_eq_some_iff] at hi
      obtain ⟨e, he, rfl⟩ := hi
      have a4 := Nat.mul_le_mul_left (cfg.plen inner) (show i + 1 ≤ es'.length by omega)
      rw [pc_below_wr _ (by rw [hkl]; omega), (h4 i e he).2]
    · intro r hr
      simp only [bulkNode, List.mem_map] at hr ⊢
      obtain ⟨e, he, rfl⟩ := hr
      exact hk e he
    · intro r hr
      simp only [bulkNode, List.mem_map] at hr
      obtain ⟨e, he, rfl⟩ := hr
      rfl

/-- `LinkNext` of a freshly loaded page (it has a lowest key and no highest key). -/
theorem linkNext (hf : cfg.layout = .fix) (h : FixRep C g n) (hr : FixRep C gr nr) (hl : n.low.isSome) (hhi : n.high = none)
    {k : K} (hk0 : hdKey nr.recs none = some k) {rp : Ptr} (hn : n.linkTo cfg k rp = .ok n') :
    ∃ g', g.linkNext cfg gr rp = .ok g' ∧ FixRep C g' n' := by
  obtain ⟨x, hx, hxk⟩ : ∃ x, nr.recs[0]? = some x ∧ x.key = some k := by
    cases hq : nr.recs with
    | nil => simp [hq, hdKey] at hk0
    | cons a b => simp only [hq, hdKey] at hk0; exact ⟨a, rfl, hk0⟩
  have hfit := h.fits
  have hfit2 := hr.fits
  have hr0 : 1 ≤ nr.recs.length + nr.borders := by
    have := (List.getElem?_eq_some_iff.1 hx).1; omega
  have a0 := keyOff_le (cfg := cfg) hr0
  have hhdr := hdr_le (cfg := cfg) (n.recs.length + n.borders)
  simp only [Node.linkTo, hf] at hn
  obtain ⟨rfl, f⟩ := nfits hf hn (by simp only [h.block, h.blk]) (by omega)
  simp only [Node.borders, hl, Option.isSome_some, if_true] at f
  have hcx : kc cfg gr.mem 0 = C.key k := hr.recKey hx hxk
  have hkl : (C.key k).length = cfg.maxKeyLen := C.key_len_fix hf k
  obtain ⟨lo, hlo⟩ := Option.isSome_iff_exists.1 hl
  have hlc : kc cfg g.mem n.recs.length = C.key lo := by
    have := h.lowKey hlo; rw [hhi] at this; exact this
  have hll : (C.key lo).length = cfg.maxKeyLen := C.key_len_fix hf lo
  generalize hc : n.recs.length = c at *
  have hcount := h.count; rw [hc] at hcount
  have a1 := keyOff_le (cfg := cfg) (show c + 1 ≤ c + (1 + 1) by omega)
  have a2 := keyOff_succ (cfg := cfg) c
  have a3 := keyOff_succ (cfg := cfg) (c + 1)
  have a5 : c + (1 + 1) = c + 1 + 1 := rfl
  rw [a5] at f a1
  refine ⟨{ g with
      mem := (g.mem.write (keyOff cfg (c + 1)) (C.key lo)).write (keyOff cfg c) (C.key k), hasHigh := true
      next := if cfg.blink || !g.inner then some rp else g.next }, ?_, ?_⟩
  · unfold FixPage.linkNext
    simp only [hcount]
    rw [rdKey_ok (by omega)]
    simp only [Res.ok_bind]
    rw [hlc, wrKey_ok hll (by omega)]
    simp only [Res.ok_bind, hcount]
    rw [rdKey_ok (by rw [Nat.zero_add]; omega)]
    simp only [Res.ok_bind]
    rw [hcx, wrKey_ok hkl (by omega)]
    simp only [Res.ok_bind, Res.pure_eq, hcount]
  · refine mk' h.inner h.removed ?_ h.payLen ?_ ?_ ?_ h.hasLow rfl ?_ ?_ ?_ ?_ ?_ h.kinds h.live
    · simp only [hc, hcount]
    · exact h.blk
    · exact h.block
    · simp only [Node.hasNext, h.inner, h.next]; congr
    · simp only [hc, Node.borders, hl, Option.isSome_some, if_true]; exact f
    · intro i r k' hi hk'
      have hil := (List.getElem?_eq_some_iff.1 hi).1
      dsimp only at hi hil ⊢
      rw [hc] at hil
      rw [kc_wr _ _ _ hkl, if_neg (by omega), kc_wr _ _ _ hll, if_neg (by omega)]
      exact h.recKey hi hk'
    · intro k' hk'
      dsimp only at hk' ⊢
      simp only [Option.some.injEq] at hk'
      rw [hc, kc_wr _ _ _ hkl, if_pos rfl, hk']
    · intro k' hk'
      dsimp only at hk' ⊢
      rw [hlo] at hk'
      simp only [Option.some.injEq] at hk'
      simp only [hc, Option.isSome_some, Bool.toNat_true]
      rw [kc_wr _ _ _ hkl, if_neg (by omega), kc_wr _ _ _ hll, if_pos rfl, hk']
    · intro i r hi
      have hil := (List.getElem?_eq_some_iff.1 hi).1
      dsimp only at hi hil ⊢
      rw [hc] at hil
      have a4 := Nat.mul_le_mul_left (cfg.plen n.isInner) (show i + 1 ≤ c by omega)
      rw [pc_below_wr _ (by rw [hkl]; omega), pc_below_wr _ (by rw [hll]; omega)]
      exact h.pays i r hi

/-! ### Reads -/

theorem getKey (h : FixRep C g n) {i : Nat} {k : K} (hi : n.keyArray[i]? = some (some k)) : g.getKey C i = .ok k := by
  have hil := (List.getElem?_eq_some_iff.1 hi).1
  rw [Node.keyArray_length] at hil
  have a1 := keyOff_le (cfg := cfg) (show i + 1 ≤ n.recs.length + n.borders by omega)
  have := h.fits
  simp only [FixPage.getKey]
  rw [rdKey_ok (by omega)]
  simp only [Res.ok_bind, h.keys i k hi, C.key_get]

theorem rdPay (h : FixRep C g n) {i : Nat} {r : Rec K V} (hi : n.recs[i]? = some r) : g.rdPay cfg i = .ok (C.pay r.pay) := by
  have hil := (List.getElem?_eq_some_iff.1 hi).1
  have a1 := Nat.mul_le_mul_left (cfg.plen n.isInner) (show i + 1 ≤ n.recs.length by omega)
  have a2 := hdr_le (cfg := cfg) (n.recs.length + n.borders)
  have := h.fits
  have a3 := Nat.mul_add_one (cfg.plen n.isInner) i
  simp only [FixPage.rdPay, h.payLen]
  rw [Nat.mul_comm, usub_ok (by omega)]
  simp only [Res.ok_bind]
  rw [rd_ok (by omega) (by omega)]
  exact congrArg _ (h.pays i r hi)

theorem getVal (h : FixRep C g n) {i : Nat} {v : V} (hi : n.getVal i = .ok v) : g.getVal C i = .ok v := by
  simp only [Node.getVal] at hi
  split at hi
  · next hq =>
    simp only [Res.ok.injEq] at hi
    subst hi
    simp only [FixPage.getVal, h.rdPay hq, Res.ok_bind, Codec.pay, C.val_get]
  · exact absurd hi (by simp)

theorem getChild (h : FixRep C g n) {i : Nat} {p : Ptr} (hp : p < 256 ^ cfg.ptrLen) (hi : n.getChild i = .ok p) :
    g.getChild cfg i = .ok p := by
  simp only [Node.getChild] at hi
  split at hi
  · next hq =>
    simp only [Res.ok.injEq] at hi
    subst hi
    simp only [FixPage.getChild, h.rdPay hq, Res.ok_bind, Codec.pay, bytesNat_natBytes _ _ hp, Res.pure_eq]
  · exact absurd hi (by simp)

theorem getHigh (h : FixRep C g n) {k : K} (hk : n.high = some k) : g.getHigh C = .ok k := by
  simp only [FixPage.getHigh, h.count]
  exact h.getKey (Node.keyArray_high hk)

theorem getLow (h : FixRep C g n) {k : K} (hk : n.low = some k) : g.getLow C = .ok k := by
  simp only [FixPage.getLow, h.count, h.hasHigh]
  exact h.getKey (Node.keyArray_low hk)

theorem compHighKey (h : FixRep C g n) (k : K) : g.compHighKey C k = .ok (n.compHighKey k) := by
  simp only [FixPage.compHighKey, Node.compHighKey]
  have hH := h.hasHigh
  cases hq : n.high with
  | none => rw [hq] at hH; simp [hH]
  | some x => rw [hq] at hH; simp [hH, h.getHigh hq]

theorem searchLoop (h : FixRep C g n) (k : K) : ∀ {f b e : Nat} {x : NodeRC × Nat}, Node.searchLoop n.recs k f b e = .ok x →
    g.searchLoop C k f b e = .ok x := by
  intro f
  induction f with
  | zero => intro b e x hx; simp [Node.searchLoop] at hx
  | succ f ih =>
    intro b e x hx
    simp only [Node.searchLoop] at hx
    simp only [FixPage.searchLoop]
    by_cases c1 : b < e
    · rw [if_pos c1] at hx ⊢
      cases hq : n.recs[(b + e - 1) / 2]? with
      | none => simp [hq] at hx
      | some r =>
        simp only [hq] at hx
        cases hk : r.key with
        | none => simp [hk] at hx
        | some ik =>
          simp only [hk] at hx
          rw [h.getKey (by rw [Node.keyArray_rec hq, hk])]
          simp only [Res.ok_bind]
          by_cases c2 : k < ik
          · rw [if_pos c2] at hx ⊢; exact ih hx
          · rw [if_neg c2] at hx ⊢
            by_cases c3 : ik < k
            · rw [if_pos c3] at hx ⊢; exact ih hx
            · rw [if_neg c3] at hx ⊢
              rw [h.live r (List.mem_of_getElem? hq)] at hx
              simpa using hx
    · rw [if_neg c1] at hx ⊢; exact hx

theorem searchRecord (h : FixRep C g n) {k : K} {x : NodeRC × Nat} (hx : n.searchRecord k = .ok x) : g.searchRecord C k = .ok x := by
  simp only [Node.searchRecord, Node.rc] at hx
  simp only [FixPage.searchRecord, h.count, h.inner]
  cases hq : Node.searchLoop n.recs k (n.recs.length + 1) (if n.isInner then 1 else 0) n.recs.length with
  | ub => rw [hq] at hx; simp at hx
  | fuel => rw [hq] at hx; simp at hx
  | ok y =>
    have := h.searchLoop k hq
    rw [hq] at hx
    rw [this]
    obtain ⟨y1, y2⟩ := y
    cases y1 <;> exact hx

end FixRep
end BT
