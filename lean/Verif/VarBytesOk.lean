import Verif.VarLayOk

/-!
# The variable-length page: bytes against record lists

`VarRep C g n`: the bytes of page `g` hold the records of the list-level page `n`.
-/

set_option linter.unusedSectionVars false

namespace BT
variable {K V : Type} [LinearOrder K] {cfg : Cfg K} {C : Codec cfg V}

open VarPage

/-- The bytes of page `g` hold the list-level page `n`. -/
structure VarRep (C : Codec cfg V) (g : VarPage) (n : Node K V) : Prop where
  inner : g.inner = n.isInner
  removed : g.removed = n.removed
  count : g.count = n.recs.length
  blk : g.blk = n.block
  del : g.del = n.dead
  next : g.next = n.next
  lowLen : g.lowLen = cfg.oklen n.low
  lowOff : g.lowOff = cfg.pageSize - cfg.oklen n.low
  highLen : g.highLen = cfg.oklen n.high
  lay : ∃ top, Lay C g.mem n.isInner n.recs n.low n.high n.block g.highOff top

namespace Ram

theorem move_zero (m : Ram) (a b : Nat) : m.move a b 0 = m := by
  funext i
  simp only [move]
  rw [if_neg (by omega)]

theorem bytes_write_in {m m' : Ram} {off src len o l : Nat} (h1 : off ≤ o) (h2 : o + l ≤ off + len) :
    (m.write off (m'.bytes src len)).bytes o l = m'.bytes (src + (o - off)) l := by
  apply bytes_congr
  intro j hj
  simp only [write, bytes_length]
  rw [if_pos (by omega)]
  have hlt : o + j - off < (m'.bytes src len).length := by simp; omega
  rw [List.getD_eq_getElem?_getD, List.getElem?_eq_getElem hlt]
  simp only [bytes, List.getElem_map, List.getElem_range, Option.getD_some]
  congr 1
  omega

end Ram

namespace VarPage

theorem rd_ok {g : VarPage} {off len : Nat} (h1 : cfg.headerLen ≤ off) (h2 : off + len ≤ cfg.pageSize) :
    g.rd cfg off len = .ok (g.mem.bytes off len) := if_pos ⟨h1, h2⟩

theorem wr_ok {g : VarPage} {off : Nat} {bs : List Byte} (h1 : cfg.headerLen ≤ off) (h2 : off + bs.length ≤ cfg.pageSize) :
    g.wr cfg off bs = .ok { g with mem := g.mem.write off bs } := if_pos ⟨h1, h2⟩

theorem mv_ok {g : VarPage} {dst src len : Nat} (h1 : cfg.headerLen ≤ dst) (h2 : dst + len ≤ cfg.pageSize) (h3 : cfg.headerLen ≤ src)
    (h4 : src + len ≤ cfg.pageSize) : g.mv cfg dst src len = .ok { g with mem := g.mem.move dst src len } := if_pos ⟨h1, h2, h3, h4⟩

theorem rdMeta_ok {g : VarPage} {i : Nat} (h : metaOff cfg (i + 1) ≤ cfg.pageSize) : g.rdMeta cfg i = .ok (word cfg g.mem i) := by
  rw [metaOff_succ] at h
  simp only [rdMeta, rd_ok (hdr_metaOff i) h, Res.ok_bind, word, Res.pure_eq]

theorem wrMeta_ok {g : VarPage} {i : Nat} (h : metaOff cfg (i + 1) ≤ cfg.pageSize) (w : MetaWord) :
    g.wrMeta cfg i w = .ok { g with mem := g.mem.write (metaOff cfg i) (natBytes cfg.metaLen w.toNat) } := by
  rw [metaOff_succ] at h
  exact wr_ok (hdr_metaOff i) (by rw [natBytes_length]; exact h)

theorem put_ok {g : VarPage} {off o : Nat} {bs : List Byte} (h1 : o + bs.length = off) (h2 : cfg.headerLen ≤ o) (h3 : off ≤ cfg.pageSize) :
    g.put cfg off bs = .ok ({ g with mem := g.mem.write o bs }, o) := by
  have : off - bs.length = o := by omega
  simp only [put, usub_ok (show bs.length ≤ off by omega), Res.ok_bind, this, wr_ok h2 (show o + bs.length ≤ cfg.pageSize by omega),
    Res.pure_eq]

end VarPage

namespace Lay
variable {m m' : Ram} {inner : Bool} {recs : List (Rec K V)} {low high : Option K} {blk hoff top : Nat}

/-- Without a highest key its offset does not matter. -/
theorem hoff_none (h : Lay C m inner recs low none blk hoff top) (hoff' : Nat) : Lay C m inner recs low none blk hoff' top :=
  ⟨h.room, h.top_lo, h.top_hi, h.lowOk, fun k hk => by simp at hk, h.slot, h.apart, fun i r k _ hk => by simp at hk⟩

/-- A new record behind the others. -/
theorem append (hm : cfg.metaLen = 8) (hp : cfg.pageSize < 2 ^ 16) (h : Lay C m inner recs low high blk hoff top)
    {r : Rec K V} (hfit : r.pay.Fits inner) (hdel : r.del = false) {blk' off : Nat}
    (hb : blk' = blk + r.len cfg inner) (ho : off + blk' = cfg.pageSize) (hroom : metaOff cfg (recs.length + 1) + blk' ≤ cfg.pageSize) :
    Lay C ((m.write off (C.whole r)).write (metaOff cfg recs.length)
      (natBytes cfg.metaLen (MetaWord.make 0 off (cfg.oklen r.key) (r.len cfg inner)).toNat)) inner (recs ++ [r]) low high blk' hoff top := by
  have := h.insert hm hp (pos := recs.length) (Nat.le_refl _) hfit hdel hb ho hroom
  simpa only [Nat.sub_self, Nat.mul_zero, Ram.move_zero, insAt, List.take_length, List.drop_length] using this

/-- The optional highest key. -/
theorem putHigh' (h : Lay C m inner recs low none blk hoff top) {k : Option K} {blk' off : Nat} (hb : blk' = blk + cfg.oklen k)
    (ho : off + blk' = cfg.pageSize) (hroom : metaOff cfg recs.length + blk' ≤ cfg.pageSize) :
    Lay C (m.write off (C.okey k)) inner recs low k blk' off top := by
  cases k with
  | none =>
    simp only [Cfg.oklen, Nat.add_zero] at hb
    subst hb
    simp only [Codec.okey, Ram.write_nil]
    exact h.hoff_none off
  | some k => exact h.putHigh hb ho hroom

theorem lowBytes (h : Lay C m inner recs low high blk hoff top) : cfg.oklen low ≤ blk := by
  have h1 := h.top_lo
  have h2 := h.top_hi
  omega

theorem hdr (h : Lay C m inner recs low high blk hoff top) : cfg.headerLen + blk ≤ cfg.pageSize := by
  have h1 := h.room
  have h2 := hdr_metaOff (cfg := cfg) recs.length
  omega

/-- The metadata word can be read. -/
theorem metaIn (h : Lay C m inner recs low high blk hoff top) {i : Nat} (hi : i < recs.length) : metaOff cfg (i + 1) ≤ cfg.pageSize := by
  have := metaOff_le (cfg := cfg) (show i + 1 ≤ recs.length from hi)
  have := h.room
  omega

end Lay

theorem vfits (hv : cfg.layout = .var) (hh : cfg.headerLen ≤ cfg.pageSize) {n n' : Node K V} (h : n.checked cfg = .ok n') :
    n = n' ∧ metaOff cfg n.recs.length + n.block ≤ cfg.pageSize := by
  simp only [Node.checked, Node.fits, hv] at h
  by_cases c : cfg.metaLen * n.rc + n.block ≤ cfg.cap
  · simp only [c, decide_true, if_true, Res.ok.injEq] at h
    refine ⟨h, ?_⟩
    simp only [Cfg.cap, Node.rc] at c
    simp only [metaOff]
    omega
  · simp [c] at h

namespace VarRep
variable {g : VarPage} {n n' : Node K V}

theorem insert_aux (hm : cfg.metaLen = 8) (hp : cfg.pageSize < 2 ^ 16) (h : VarRep C g n) {k : K} {pay : Pay V} {pos : Nat}
    (hpos : pos ≤ n.recs.length) (hfit : pay.Fits n.isInner)
    (hroom : metaOff cfg (n.recs.length + 1) + (n.block + (cfg.klen k + cfg.plen n.isInner)) ≤ cfg.pageSize) :
    ∃ mem, Lay C mem n.isInner (insAt n.recs pos ⟨some k, pay, false⟩) n.low n.high (n.block + (cfg.klen k + cfg.plen n.isInner)) g.highOff
        (h.lay.choose) ∧
      mem = ((g.mem.write (cfg.pageSize - (n.block + (cfg.klen k + cfg.plen n.isInner))) (C.key k ++ C.pay pay)).move
        (metaOff cfg (pos + 1)) (metaOff cfg pos) (cfg.metaLen * (n.recs.length - pos))).write (metaOff cfg pos)
        (natBytes cfg.metaLen (MetaWord.make 0 (cfg.pageSize - (n.block + (cfg.klen k + cfg.plen n.isInner))) (cfg.klen k)
          (cfg.klen k + cfg.plen n.isInner)).toNat) := by
  have hl := h.lay.choose_spec
  have a1 := hdr_metaOff (cfg := cfg) (n.recs.length + 1)
  refine ⟨_, hl.insert hm hp hpos (r := ⟨some k, pay, false⟩) hfit rfl (off := cfg.pageSize - (n.block + (cfg.klen k + cfg.plen n.isInner)))
    rfl ?_ hroom, rfl⟩
  omega

/-- `InsertRecord`. -/
theorem insertRecord (hv : cfg.layout = .var) (hm : cfg.metaLen = 8) (hp : cfg.pageSize < 2 ^ 16) (hh : cfg.headerLen ≤ cfg.pageSize)
    (h : VarRep C g n) {k : K} {pay : Pay V} {pos : Nat} (hpos : pos ≤ n.recs.length) (hfit : pay.Fits n.isInner)
    (hn : n.insertRecord cfg k pay pos = .ok n') :
    ∃ g', g.insertRecord cfg (C.key k) (C.pay pay) pos = .ok g' ∧ VarRep C g' n' := by
  simp only [Node.insertRecord, Node.fitsOne, hv] at hn
  by_cases c : cfg.metaLen * (n.rc + 1) + n.block + Rec.len cfg n.isInner (⟨some k, pay, false⟩ : Rec K V) ≤ cfg.cap
  case neg => simp [c] at hn
  simp only [c, decide_true, if_true, Res.ok.injEq] at hn
  subst hn
  simp only [Cfg.cap, Node.rc, Rec.len, Cfg.oklen] at c
  have hroom : metaOff cfg (n.recs.length + 1) + (n.block + (cfg.klen k + cfg.plen n.isInner)) ≤ cfg.pageSize := by
    simp only [metaOff]
    omega
  have lk : (C.key k).length = cfg.klen k := C.key_len k
  have lp : (C.pay pay).length = cfg.plen n.isInner := C.pay_len hfit
  obtain ⟨mem, hlay, hmem⟩ := h.insert_aux hm hp hpos hfit hroom
  have a1 := hdr_metaOff (cfg := cfg) (n.recs.length + 1)
  have a2 := metaOff_le (cfg := cfg) (show pos + 1 ≤ n.recs.length + 1 by omega)
  have a3 : metaOff cfg (pos + 1) + cfg.metaLen * (n.recs.length - pos) = metaOff cfg (n.recs.length + 1) := by
    rw [← metaOff_add]; congr 1; omega
  have a4 := metaOff_succ (cfg := cfg) pos
  refine ⟨{ g with mem := mem, count := n.recs.length + 1, blk := n.block + (cfg.klen k + cfg.plen n.isInner) }, ?_, ?_⟩
  · simp only [VarPage.insertRecord, h.blk, usub_ok (show n.block ≤ cfg.pageSize by omega), Res.ok_bind]
    rw [put_ok (o := cfg.pageSize - (n.block + cfg.plen n.isInner)) (by omega) (by omega) (by omega)]
    simp only [Res.ok_bind]
    rw [put_ok (o := cfg.pageSize - (n.block + (cfg.klen k + cfg.plen n.isInner))) (by omega) (by omega) (by omega)]
    simp only [Res.ok_bind, h.count, usub_ok hpos]
    rw [mv_ok (hdr_metaOff _) (by omega) (hdr_metaOff _) (by omega)]
    simp only [Res.ok_bind, lk, lp]
    rw [wrMeta_ok (by omega)]
    simp only [Res.ok_bind, Res.pure_eq, Res.ok.injEq]
    have e : cfg.pageSize - (n.block + cfg.plen n.isInner) =
        cfg.pageSize - (n.block + (cfg.klen k + cfg.plen n.isInner)) + (C.key k).length := by omega
    rw [hmem, e, Ram.write_write_adj, h.blk]
  · exact ⟨h.inner, h.removed, by simp [insAt]; omega, rfl, h.del, h.next, h.lowLen, h.lowOff,
      h.highLen, _, hlay⟩

/-- A new payload. -/
theorem setVal (h : VarRep C g n) {pos : Nat} {v : V} (hleaf : n.isInner = false) (hn : n.setPayload pos v = .ok n') :
    ∃ g', g.setVal cfg pos (C.val v) = .ok g' ∧ VarRep C g' n' := by
  unfold Node.setPayload at hn
  cases hr : n.recs[pos]? with
  | none => rw [hr] at hn; simp at hn
  | some r =>
    rw [hr] at hn
    simp only [Res.ok.injEq] at hn
    subst hn
    obtain ⟨top, hl⟩ := h.lay
    have hpos : pos < n.recs.length := (List.getElem?_eq_some_iff.mp hr).1
    have s := hl.slot _ _ hr
    have s1 := s.lo; have s2 := s.hi; have s3 := s.klen
    have t1 := hl.hdr; have t2 := hl.top_hi
    have hf : (Pay.val v : Pay V).Fits n.isInner := hleaf
    have lp : (C.val v).length = cfg.plen n.isInner := C.pay_len hf
    simp only [Rec.len] at s2
    refine ⟨{ g with mem := g.mem.write ((word cfg g.mem pos).offset + (word cfg g.mem pos).keyLen) (C.val v) }, ?_, h.inner, h.removed,
      ?_, h.blk, h.del, h.next, h.lowLen, h.lowOff, h.highLen, top, hl.setPay hr (p := .val v) hf⟩
    rotate_left 1
    · simp only [updAt, h.count]; simp; omega
    · simp only [VarPage.setVal, rdMeta_ok (hl.metaIn hpos), Res.ok_bind]
      rw [wr_ok (by omega) (by omega)]

/-- `ReuseRecord`. -/
theorem reuseRecord (hm : cfg.metaLen = 8) (h : VarRep C g n) {pos : Nat} {v : V} (hleaf : n.isInner = false)
    (hd : ∀ r, n.recs[pos]? = some r → r.len cfg n.isInner + cfg.metaLen ≤ n.dead) (hn : n.reuseRecord cfg pos v = .ok n') :
    ∃ g', g.reuseRecord cfg (C.val v) pos = .ok g' ∧ VarRep C g' n' := by
  unfold Node.reuseRecord at hn
  cases hr : n.recs[pos]? with
  | none => rw [hr] at hn; simp at hn
  | some r =>
    rw [hr] at hn
    simp only [Res.ok.injEq] at hn
    subst hn
    obtain ⟨top, hl⟩ := h.lay
    have hpos : pos < n.recs.length := (List.getElem?_eq_some_iff.mp hr).1
    have s := hl.slot _ _ hr
    have s1 := s.lo; have s2 := s.hi; have s3 := s.klen
    have t1 := hl.hdr; have t2 := hl.top_hi
    have hf : (Pay.val v : Pay V).Fits n.isInner := hleaf
    have lp : (C.val v).length = cfg.plen n.isInner := C.pay_len hf
    have hl1 := hl.mark hm hr false
    have hr1 : (updAt n.recs pos { r with del := false })[pos]? = some { r with del := false } := by
      rw [getElem?_updAt hpos]; simp
    have hl2 := hl1.setPay hr1 (p := .val v) hf
    have e1 : updAt (updAt n.recs pos { r with del := false }) pos { r with pay := .val v, del := false } =
        updAt n.recs pos { r with pay := .val v, del := false } := by
      apply List.ext_getElem?
      intro i
      have hl' : pos < (updAt n.recs pos { r with del := false }).length := by simp [updAt]; omega
      rw [getElem?_updAt hl', getElem?_updAt hpos, getElem?_updAt hpos]
      split <;> rfl
    rw [e1] at hl2
    rw [word_write_meta hm, if_pos rfl, MetaWord.offset_set, MetaWord.keyLen_set] at hl2
    have hd := hd r hr
    simp only [Rec.len] at s2
    refine ⟨{ g with mem := (g.mem.write (metaOff cfg pos) (natBytes cfg.metaLen ((word cfg g.mem pos).setDeleted false).toNat)).write ((word cfg g.mem pos).offset + (word cfg g.mem pos).keyLen) (C.val v), del := n.dead - (r.len cfg n.isInner + cfg.metaLen) }, ?_, h.inner, h.removed, ?_, h.blk, rfl, h.next,
      h.lowLen, h.lowOff, h.highLen, top, hl2⟩
    rotate_left 1
    · simp only [updAt, h.count]; simp; omega
    · simp only [VarPage.reuseRecord, rdMeta_ok (hl.metaIn hpos), Res.ok_bind, wrMeta_ok (hl.metaIn hpos)]
      rw [wr_ok (by omega) (by omega)]
      simp only [Res.ok_bind, s.rlen, h.del, usub_ok hd, Res.pure_eq]

/-- The removal in `Delete`. -/
theorem removeRecord (hv : cfg.layout = .var) (hm : cfg.metaLen = 8) (h : VarRep C g n) {pos : Nat} (hn : n.removeRecord cfg pos = .ok n') :
    ∃ g', g.removeRecord cfg pos = .ok g' ∧ VarRep C g' n' := by
  unfold Node.removeRecord at hn
  cases hr : n.recs[pos]? with
  | none => rw [hr] at hn; simp at hn
  | some r =>
    rw [hr] at hn
    simp only [hv, Res.ok.injEq] at hn
    subst hn
    obtain ⟨top, hl⟩ := h.lay
    have hpos : pos < n.recs.length := (List.getElem?_eq_some_iff.mp hr).1
    have s := hl.slot _ _ hr
    refine ⟨{ g with mem := g.mem.write (metaOff cfg pos) (natBytes cfg.metaLen ((word cfg g.mem pos).setDeleted true).toNat), del := n.dead + (r.len cfg n.isInner + cfg.metaLen) }, ?_, h.inner, h.removed, ?_, h.blk, rfl, h.next,
      h.lowLen, h.lowOff, h.highLen, top, hl.mark hm hr true⟩
    rotate_left 1
    · simp only [updAt, h.count]; simp; omega
    · simp only [VarPage.removeRecord, rdMeta_ok (hl.metaIn hpos), Res.ok_bind, wrMeta_ok (hl.metaIn hpos), s.rlen, h.del, Res.pure_eq]

/-- `InsertChild`. -/
theorem insertChild (hv : cfg.layout = .var) (hm : cfg.metaLen = 8) (hp : cfg.pageSize < 2 ^ 16) (hh : cfg.headerLen ≤ cfg.pageSize)
    (h : VarRep C g n) {k : K} {c : Ptr} {pos : Nat} (hpos : pos < n.recs.length) (hinner : n.isInner = true)
    (hn : n.placeChild cfg (some k) c pos = .ok n') :
    ∃ g', g.insertChild cfg (C.key k) (natBytes cfg.ptrLen c) pos = .ok g' ∧ VarRep C g' n' := by
  obtain ⟨g', e1, e2⟩ := h.insertRecord hv hm hp hh (pos := pos + 1) hpos (pay := .ptr c) hinner hn
  refine ⟨g', ?_, e2⟩
  rw [← e1]
  simp only [VarPage.insertChild, VarPage.insertRecord, Codec.pay]
  have : ∀ g1 : VarPage, g1.count = n.recs.length → usub (g1.count - 1) pos = usub g1.count (pos + 1) := by
    intro g1 hg
    rw [hg]
    simp only [usub]
    by_cases hc : pos ≤ n.recs.length - 1
    · rw [if_pos hc, if_pos (by omega)]; congr 1; omega
    · rw [if_neg hc, if_neg (by omega)]
  have hb : n.block ≤ cfg.pageSize := by have := h.lay.choose_spec.hdr; omega
  simp only [h.blk, usub_ok hb, Res.ok_bind]
  have hc : ∀ {g1 g2 : VarPage} {off : Nat} {bs : List Byte} {o : Nat}, g1.put cfg off bs = .ok (g2, o) → g2.count = g1.count := by
    intro g1 g2 off bs o hput
    unfold put wr usub at hput
    split at hput
    · simp only [Res.ok_bind] at hput
      split at hput
      · simp only [Res.ok_bind, Res.pure_eq, Res.ok.injEq, Prod.mk.injEq] at hput
        rw [← hput.1]
      · simp at hput
    · simp at hput
  cases hp1 : g.put cfg (cfg.pageSize - n.block) (natBytes cfg.ptrLen c) with
  | ok x =>
    obtain ⟨g1, o1⟩ := x
    simp only [Res.ok_bind]
    cases hp2 : g1.put cfg o1 (C.key k) with
    | ok y =>
      obtain ⟨g2, o2⟩ := y
      simp only [Res.ok_bind]
      rw [this g2 (by rw [hc hp2, hc hp1, h.count])]
    | ub => rfl
    | fuel => rfl
  | ub => rfl
  | fuel => rfl

/-- `DeleteChild`. -/
theorem deleteChild (hv : cfg.layout = .var) (h : VarRep C g n) {pos : Nat} (hn : n.dropChild cfg pos = .ok n') :
    ∃ g', g.deleteChild cfg pos = .ok g' ∧ VarRep C g' n' := by
  unfold Node.dropChild at hn
  cases hr : n.recs[pos]? with
  | none => rw [hr] at hn; simp at hn
  | some r =>
    rw [hr] at hn
    simp only [hv, Res.ok.injEq] at hn
    subst hn
    obtain ⟨top, hl⟩ := h.lay
    have hpos : pos < n.recs.length := (List.getElem?_eq_some_iff.mp hr).1
    have s := hl.slot _ _ hr
    have a1 := hl.room
    have a2 : metaOff cfg (pos + 1) + cfg.metaLen * (n.recs.length - 1 - pos) = metaOff cfg n.recs.length := by
      rw [← metaOff_add]; congr 1; omega
    have a3 := metaOff_succ (cfg := cfg) pos
    refine ⟨{ g with mem := g.mem.move (metaOff cfg pos) (metaOff cfg (pos + 1)) (cfg.metaLen * (n.recs.length - 1 - pos)), count := g.count - 1, del := n.dead + r.len cfg n.isInner }, ?_, h.inner, h.removed, ?_, h.blk, rfl,
      h.next, h.lowLen, h.lowOff, h.highLen, top, hl.erase hpos⟩
    rotate_left 1
    · simp only [delAt, h.count]; simp; omega
    · simp only [VarPage.deleteChild, rdMeta_ok (hl.metaIn hpos), Res.ok_bind, h.count, usub_ok (show pos ≤ n.recs.length - 1 by omega)]
      rw [mv_ok (hdr_metaOff _) (by omega) (hdr_metaOff _) (by omega)]
      simp only [Res.ok_bind, h.del, s.rlen, Res.pure_eq]
      rw [h.count]

/-- The lowest key is dropped. -/
theorem strip (h : VarRep C g n) : VarRep C (g.strip cfg) { n with low := none } := by
  obtain ⟨top, hl⟩ := h.lay
  exact ⟨h.inner, h.removed, h.count, h.blk, h.del, h.next, rfl, by simp [VarPage.strip, Cfg.oklen], h.highLen, top, hl.dropLow⟩

end VarRep

end BT
