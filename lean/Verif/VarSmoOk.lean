import Verif.VarBytesOk

/-!
# The variable-length page: the functions that copy records between pages
-/

set_option linter.unusedSectionVars false

namespace BT
variable {K V : Type} [LinearOrder K] {cfg : Cfg K} {C : Codec cfg V}

open VarPage

theorem recBytes_append (inner : Bool) (a b : List (Rec K V)) :
    Node.recBytes cfg inner (a ++ b) = Node.recBytes cfg inner a + Node.recBytes cfg inner b := by
  simp [Node.recBytes]

theorem recBytes_cons (inner : Bool) (r : Rec K V) (b : List (Rec K V)) :
    Node.recBytes cfg inner (r :: b) = r.len cfg inner + Node.recBytes cfg inner b := by
  simp [Node.recBytes]

@[simp] theorem recBytes_nil (inner : Bool) : Node.recBytes cfg inner ([] : List (Rec K V)) = 0 := rfl

/-- The optional lowest key. -/
theorem Lay.putLow' {m : Ram} {inner : Bool} {recs : List (Rec K V)} {high : Option K} {blk hoff top : Nat}
    (h : Lay C m inner recs none high blk hoff top) {k : Option K} (hk : top + cfg.oklen k ≤ cfg.pageSize) :
    Lay C (m.write (cfg.pageSize - cfg.oklen k) (C.okey k)) inner recs k high blk hoff top := by
  cases k with
  | none => simpa only [Codec.okey, Ram.write_nil] using h
  | some k => exact h.putLow hk

section copy
variable {t s : VarPage} {inner sinner : Bool} {recs srecs : List (Rec K V)} {low high slow shigh : Option K}
variable {blk hoff top sblk shoff stop : Nat}

/-- `CopyRecordFrom` of a live record. -/
theorem copyRecordFrom_ok (hm : cfg.metaLen = 8) (hp : cfg.pageSize < 2 ^ 16) (ht : Lay C t.mem inner recs low high blk hoff top)
    (htc : t.count = recs.length) (hs : Lay C s.mem inner srecs slow shigh sblk shoff stop) {i : Nat} {r : Rec K V}
    (hr : srecs[i]? = some r) (hdel : r.del = false) {off : Nat} (ho : off + blk = cfg.pageSize)
    (hroom : metaOff cfg (recs.length + 1) + (blk + r.len cfg inner) ≤ cfg.pageSize) :
    ∃ m off', t.copyRecordFrom cfg s (word cfg s.mem i) off = .ok ({ t with mem := m, count := recs.length + 1 }, off') ∧
      Lay C m inner (recs ++ [r]) low high (blk + r.len cfg inner) hoff top ∧ off' + (blk + r.len cfg inner) = cfg.pageSize := by
  have sl := hs.slot _ _ hr
  have s1 := sl.lo; have s2 := sl.hi; have s3 := sl.klen; have s4 := sl.rlen; have s5 := sl.bytes
  have t1 := hs.hdr; have t2 := hs.top_hi
  have lw : (C.whole r).length = r.len cfg inner := C.whole_len sl.fits
  have a1 := hdr_metaOff (cfg := cfg) (recs.length + 1)
  refine ⟨_, off - r.len cfg inner, ?_, ht.append hm hp (r := r) sl.fits hdel (off := off - r.len cfg inner) rfl (by omega) hroom, by omega⟩
  simp only [copyRecordFrom, s4]
  rw [rd_ok (by omega) (by omega)]
  simp only [Res.ok_bind, s5]
  rw [put_ok (o := off - r.len cfg inner) (by omega) (by omega) (by omega)]
  simp only [Res.ok_bind, htc]
  rw [wrMeta_ok (by omega)]
  simp only [Res.ok_bind, Res.pure_eq, s3]
  try rw [htc]

/-- `CopyRecordsFrom`: the live ones among `m` slots are appended. -/
theorem copyRecordsFrom_ok (hm : cfg.metaLen = 8) (hp : cfg.pageSize < 2 ^ 16)
    (hs : Lay C s.mem inner srecs slow shigh sblk shoff stop) (m : Nat) :
    ∀ (t : VarPage) (recs : List (Rec K V)) (blk pos off : Nat), pos + m ≤ srecs.length →
    Lay C t.mem inner recs low high blk hoff top → t.count = recs.length → off + blk = cfg.pageSize →
    metaOff cfg (recs.length + (Node.liveRecs ((srecs.drop pos).take m)).length) +
      (blk + Node.recBytes cfg inner (Node.liveRecs ((srecs.drop pos).take m))) ≤ cfg.pageSize →
    ∃ mem off', t.copyRecordsFrom cfg s m pos off =
        .ok ({ t with mem := mem, count := recs.length + (Node.liveRecs ((srecs.drop pos).take m)).length }, off') ∧
      Lay C mem inner (recs ++ Node.liveRecs ((srecs.drop pos).take m)) low high
        (blk + Node.recBytes cfg inner (Node.liveRecs ((srecs.drop pos).take m))) hoff top ∧
      off' + (blk + Node.recBytes cfg inner (Node.liveRecs ((srecs.drop pos).take m))) = cfg.pageSize := by
  induction m with
  | zero =>
    intro t recs blk pos off _ ht htc ho _
    refine ⟨t.mem, off, ?_, ?_, ?_⟩
    · simp only [copyRecordsFrom, List.take_zero, Node.liveRecs, List.filter_nil, List.length_nil, Nat.add_zero, ← htc]
    · simpa [Node.liveRecs] using ht
    · simpa [Node.liveRecs] using ho
  | succ m ih =>
    intro t recs blk pos off hlen ht htc ho hroom
    have hpos : pos < srecs.length := by omega
    have hr : srecs[pos]? = some srecs[pos] := List.getElem?_eq_getElem hpos
    have sl := hs.slot _ _ hr
    have e : (srecs.drop pos).take (m + 1) = srecs[pos] :: (srecs.drop (pos + 1)).take m := by
      rw [List.drop_eq_getElem_cons hpos, List.take_succ_cons]
    rw [e] at hroom ⊢
    simp only [copyRecordsFrom, rdMeta_ok (hs.metaIn hpos), Res.ok_bind, sl.mark]
    cases hd : srecs[pos].del with
    | true =>
      have el : Node.liveRecs (srecs[pos] :: (srecs.drop (pos + 1)).take m) = Node.liveRecs ((srecs.drop (pos + 1)).take m) := by
        simp [Node.liveRecs, hd]
      rw [el] at hroom ⊢
      simp only [if_true]
      exact ih t recs blk (pos + 1) off (by omega) ht htc ho hroom
    | false =>
      have el : Node.liveRecs (srecs[pos] :: (srecs.drop (pos + 1)).take m) =
          srecs[pos] :: Node.liveRecs ((srecs.drop (pos + 1)).take m) := by
        simp [Node.liveRecs, hd]
      rw [el] at hroom ⊢
      simp only [recBytes_cons, List.length_cons] at hroom ⊢
      have b1 := metaOff_le (cfg := cfg) (show recs.length + 1 ≤ recs.length + ((Node.liveRecs ((srecs.drop (pos + 1)).take m)).length + 1)
        by omega)
      obtain ⟨m1, o1, e1, l1, p1⟩ := copyRecordFrom_ok hm hp ht htc hs hr hd ho (by omega)
      simp only [Bool.false_eq_true, if_false, e1, Res.ok_bind]
      obtain ⟨m2, o2, e2, l2, p2⟩ := ih { t with mem := m1, count := recs.length + 1 } (recs ++ [srecs[pos]])
        (blk + srecs[pos].len cfg inner) (pos + 1) o1 (by omega) l1 (by simp) p1 (by
          simp only [List.length_append, List.length_cons, List.length_nil]
          rw [show recs.length + (0 + 1) + (Node.liveRecs ((srecs.drop (pos + 1)).take m)).length =
            recs.length + ((Node.liveRecs ((srecs.drop (pos + 1)).take m)).length + 1) by omega]
          omega)
      refine ⟨m2, o2, ?_, ?_, by omega⟩
      · rw [e2]
        simp only [List.length_append, List.length_cons, List.length_nil]
        rw [show recs.length + (0 + 1) + (Node.liveRecs ((srecs.drop (pos + 1)).take m)).length =
            recs.length + ((Node.liveRecs ((srecs.drop (pos + 1)).take m)).length + 1) by omega]
      · rw [← Nat.add_assoc]
        simpa using l2

/-- All records of the source. -/
theorem copyAll_ok (hm : cfg.metaLen = 8) (hp : cfg.pageSize < 2 ^ 16)
    (hs : Lay C s.mem inner srecs slow shigh sblk shoff stop) (ht : Lay C t.mem inner recs low high blk hoff top) (htc : t.count = recs.length)
    {off : Nat} (ho : off + blk = cfg.pageSize)
    (hroom : metaOff cfg (recs.length + (Node.liveRecs srecs).length) +
      (blk + Node.recBytes cfg inner (Node.liveRecs srecs)) ≤ cfg.pageSize) :
    ∃ mem off', t.copyRecordsFrom cfg s srecs.length 0 off =
        .ok ({ t with mem := mem, count := recs.length + (Node.liveRecs srecs).length }, off') ∧
      Lay C mem inner (recs ++ Node.liveRecs srecs) low high (blk + Node.recBytes cfg inner (Node.liveRecs srecs)) hoff top ∧
      off' + (blk + Node.recBytes cfg inner (Node.liveRecs srecs)) = cfg.pageSize := by
  have := copyRecordsFrom_ok (low := low) (high := high) (hoff := hoff) (top := top) hm hp hs srecs.length t recs blk 0 off (by omega) ht htc ho
    (by simpa using hroom)
  simpa using this

/-- A border key is copied below `off`. -/
theorem copyBorder_ok {k : Option K} {from_ len off : Nat} (hlen : len = cfg.oklen k) (hb : 0 < len → s.mem.bytes from_ len = C.okey k)
    (h1 : 0 < len → cfg.headerLen ≤ from_ ∧ from_ + len ≤ cfg.pageSize) (h2 : cfg.headerLen + len ≤ off) (h3 : off ≤ cfg.pageSize) :
    t.copyBorder cfg s from_ len off = .ok ({ t with mem := t.mem.write (off - len) (C.okey k) }, off - len) := by
  unfold copyBorder
  by_cases hl : 0 < len
  · obtain ⟨q1, q2⟩ := h1 hl
    rw [if_pos hl, rd_ok q1 q2]
    simp only [Res.ok_bind, hb hl]
    have := C.okey_len k
    rw [put_ok (o := off - len) (by omega) (by omega) (by omega)]
  · rw [if_neg hl]
    have h0 : (C.okey k).length = 0 := by rw [C.okey_len]; omega
    rw [List.eq_nil_of_length_eq_zero h0, Ram.write_nil]
    have : len = 0 := by omega
    subst this
    rfl

/-- The lowest key of `s`. -/
theorem copyLow_ok {n : Node K V} (hs : VarRep C s n) (inner : Bool) :
    ∃ m, t.copyLowKeyFrom cfg s =
        .ok ({ t with mem := m, lowOff := cfg.pageSize - cfg.oklen n.low, lowLen := cfg.oklen n.low }, cfg.pageSize - cfg.oklen n.low) ∧
      ∀ hoff, Lay C m inner [] n.low none (cfg.oklen n.low) hoff (cfg.pageSize - cfg.oklen n.low) := by
  obtain ⟨top, hl⟩ := hs.lay
  have a1 := hl.lowBytes
  have a2 := hl.hdr
  refine ⟨t.mem.write (cfg.pageSize - cfg.oklen n.low) (C.okey n.low), ?_, ?_⟩
  · unfold copyLowKeyFrom
    rw [copyBorder_ok (C := C) (k := n.low) hs.lowLen]
    · simp only [Res.ok_bind, Res.pure_eq, hs.lowLen]
    · intro _
      rw [hs.lowLen, hs.lowOff]
      exact hl.lowOk
    · intro _
      rw [hs.lowLen, hs.lowOff]
      omega
    · rw [hs.lowLen]; omega
    · exact Nat.le_refl _
  · intro hoff
    have h0 : Lay C t.mem inner ([] : List (Rec K V)) none none (cfg.pageSize - (cfg.pageSize - cfg.oklen n.low)) hoff
        (cfg.pageSize - cfg.oklen n.low) := Lay.nil C t.mem inner hoff (by omega) (by omega)
    rw [show cfg.pageSize - (cfg.pageSize - cfg.oklen n.low) = cfg.oklen n.low by omega] at h0
    exact h0.putLow' (by omega)

/-- The highest key of `s` is copied below the other contents. -/
theorem copyHigh_ok {n : Node K V} (hs : VarRep C s n) (ht : Lay C t.mem inner recs low none blk hoff top) {off : Nat}
    (ho : off + blk = cfg.pageSize) (hroom : metaOff cfg recs.length + (blk + cfg.oklen n.high) ≤ cfg.pageSize) :
    ∃ m, t.copyHighKeyFrom cfg s off = .ok ({ t with mem := m }, off - cfg.oklen n.high) ∧
      Lay C m inner recs low n.high (blk + cfg.oklen n.high) (off - cfg.oklen n.high) top ∧
      off - cfg.oklen n.high + (blk + cfg.oklen n.high) = cfg.pageSize := by
  obtain ⟨stop, hl⟩ := hs.lay
  have a1 := hdr_metaOff (cfg := cfg) recs.length
  have a2 := hl.hdr
  refine ⟨t.mem.write (off - cfg.oklen n.high) (C.okey n.high), ?_, ht.putHigh' rfl (by omega) hroom, by omega⟩
  unfold copyHighKeyFrom
  rw [copyBorder_ok (C := C) (k := n.high) hs.highLen]
  · rw [hs.highLen]
  · intro hlt
    rw [hs.highLen] at hlt ⊢
    cases hk : n.high with
    | none => rw [hk] at hlt; simp [Cfg.oklen] at hlt
    | some k => exact (hl.highOk k hk).2.2
  · intro hlt
    rw [hs.highLen] at hlt ⊢
    cases hk : n.high with
    | none => rw [hk] at hlt; simp [Cfg.oklen] at hlt
    | some k =>
      obtain ⟨q1, q2, _⟩ := hl.highOk k hk
      have := hl.top_hi
      simp only [Cfg.oklen] at *
      omega
  · rw [hs.highLen]; omega
  · omega

/-- The contents of the temporary page are taken over. -/
theorem takeFrom_ok {g : VarPage} (ht : Lay C t.mem inner recs low high blk hoff top) {off : Nat} (ho : off + blk = cfg.pageSize) :
    ∃ m, g.takeFrom cfg t recs.length off = .ok { g with mem := m } ∧ Lay C m inner recs low high blk hoff top := by
  have a1 := ht.room
  have a0 : metaOff cfg recs.length = cfg.headerLen + cfg.metaLen * recs.length := rfl
  refine ⟨(g.mem.write cfg.headerLen (t.mem.bytes cfg.headerLen (cfg.metaLen * recs.length))).write off
    (t.mem.bytes off (cfg.pageSize - off)), ?_, ht.frame ?_ ?_⟩
  · unfold takeFrom
    rw [rd_ok (Nat.le_refl _) (by omega)]
    simp only [Res.ok_bind]
    rw [wr_ok (Nat.le_refl _) (by simp; omega)]
    simp only [Res.ok_bind, usub_ok (show off ≤ cfg.pageSize by omega)]
    rw [rd_ok (by omega) (by omega)]
    simp only [Res.ok_bind]
    rw [wr_ok (by omega) (by simp; omega)]
  · intro i hi
    have b1 := metaOff_le (cfg := cfg) (show i + 1 ≤ recs.length from hi)
    have b2 := metaOff_succ (cfg := cfg) i
    have b3 := hdr_metaOff (cfg := cfg) i
    apply word_congr
    rw [Ram.bytes_write_disj (by omega), Ram.bytes_write_in (by omega) (by omega)]
    congr 1
    omega
  · intro o l h1 h2
    rw [Ram.bytes_write_in (by omega) (by omega)]
    congr 1
    omega

theorem splitLoop_ge {inner : Bool} {half : Nat} (rest : List (Rec K V)) :
    ∀ {used pos pos' : Nat}, Node.splitLoop cfg inner half rest used pos = .ok pos' → pos ≤ pos' ∧ pos' - pos ≤ rest.length := by
  induction rest with
  | nil =>
    intro used pos pos' h
    unfold Node.splitLoop at h
    by_cases c : used < half
    · rw [if_pos c] at h; simp at h
    · rw [if_neg c] at h
      simp only [Res.ok.injEq] at h
      omega
  | cons r rest ih =>
    intro used pos pos' h
    unfold Node.splitLoop at h
    by_cases c : used < half
    · rw [if_pos c] at h
      have := ih h
      simp only [List.length_cons]
      omega
    · rw [if_neg c] at h
      simp only [Res.ok.injEq] at h
      omega

/-- The copying loop of `Split`. -/
theorem splitLoop_ok (hm : cfg.metaLen = 8) (hp : cfg.pageSize < 2 ^ 16) (hs : Lay C s.mem inner srecs slow shigh sblk shoff stop) {half : Nat}
    (rest : List (Rec K V)) :
    ∀ {t : VarPage} {recs : List (Rec K V)} {blk used pos off f pos' : Nat}, srecs.drop pos = rest → rest.length < f →
    Lay C t.mem inner recs low high blk hoff top → t.count = recs.length → off + blk = cfg.pageSize →
    Node.splitLoop cfg inner half rest used pos = .ok pos' →
    metaOff cfg (recs.length + (Node.liveRecs (rest.take (pos' - pos))).length) +
      (blk + Node.recBytes cfg inner (Node.liveRecs (rest.take (pos' - pos)))) ≤ cfg.pageSize →
    ∃ mem off', t.splitLoop cfg s half f used pos off =
        .ok ({ t with mem := mem, count := recs.length + (Node.liveRecs (rest.take (pos' - pos))).length }, pos', off') ∧
      Lay C mem inner (recs ++ Node.liveRecs (rest.take (pos' - pos))) low high
        (blk + Node.recBytes cfg inner (Node.liveRecs (rest.take (pos' - pos)))) hoff top ∧
      off' + (blk + Node.recBytes cfg inner (Node.liveRecs (rest.take (pos' - pos)))) = cfg.pageSize := by
  have stopped : ∀ {rest : List (Rec K V)} {t : VarPage} {recs : List (Rec K V)} {blk used pos off f pos' : Nat}, ¬ used < half →
      rest.length < f → Lay C t.mem inner recs low high blk hoff top → t.count = recs.length → off + blk = cfg.pageSize → pos = pos' →
      ∃ mem off', t.splitLoop cfg s half f used pos off =
        .ok ({ t with mem := mem, count := recs.length + (Node.liveRecs (rest.take (pos' - pos))).length }, pos', off') ∧
      Lay C mem inner (recs ++ Node.liveRecs (rest.take (pos' - pos))) low high
        (blk + Node.recBytes cfg inner (Node.liveRecs (rest.take (pos' - pos)))) hoff top ∧
      off' + (blk + Node.recBytes cfg inner (Node.liveRecs (rest.take (pos' - pos)))) = cfg.pageSize := by
    intro rest t recs blk used pos off f pos' c hf ht htc ho hpos
    subst hpos
    obtain ⟨f, rfl⟩ : ∃ f', f = f' + 1 := ⟨f - 1, by omega⟩
    refine ⟨t.mem, off, ?_, ?_, ?_⟩
    · unfold splitLoop
      rw [if_neg c]
      simp [Node.liveRecs, ← htc]
    · simpa [Node.liveRecs] using ht
    · simpa [Node.liveRecs] using ho
  induction rest with
  | nil =>
    intro t recs blk used pos off f pos' _ hf ht htc ho hloop _
    unfold Node.splitLoop at hloop
    by_cases c : used < half
    · rw [if_pos c] at hloop; simp at hloop
    · rw [if_neg c] at hloop
      simp only [Res.ok.injEq] at hloop
      exact stopped c hf ht htc ho hloop
  | cons r rest ih =>
    intro t recs blk used pos off f pos' hdrop hf ht htc ho hloop hroom
    unfold Node.splitLoop at hloop
    by_cases c : used < half
    · rw [if_pos c] at hloop
      have hpos : pos < srecs.length := by
        by_contra hc
        rw [List.drop_eq_nil_of_le (by omega)] at hdrop
        simp at hdrop
      have hd := List.drop_eq_getElem_cons hpos
      rw [hdrop] at hd
      obtain ⟨q1, q2⟩ := List.cons.inj hd
      have hr : srecs[pos]? = some r := by rw [q1]; exact List.getElem?_eq_getElem hpos
      have sl := hs.slot _ _ hr
      obtain ⟨g1, g2⟩ := splitLoop_ge _ hloop
      obtain ⟨f, rfl⟩ : ∃ f', f = f' + 1 := ⟨f - 1, by omega⟩
      have et : (r :: rest).take (pos' - pos) = r :: rest.take (pos' - (pos + 1)) := by
        rw [show pos' - pos = pos' - (pos + 1) + 1 by omega, List.take_succ_cons]
      rw [et] at hroom ⊢
      unfold splitLoop
      rw [if_pos c, rdMeta_ok (hs.metaIn hpos)]
      simp only [Res.ok_bind, sl.mark]
      simp only [List.length_cons] at hf
      cases hdel : r.del with
      | true =>
        have el : Node.liveRecs (r :: rest.take (pos' - (pos + 1))) = Node.liveRecs (rest.take (pos' - (pos + 1))) := by
          simp [Node.liveRecs, hdel]
        rw [el] at hroom ⊢
        simp only [hdel] at hloop
        simp only [if_true] at hloop ⊢
        exact ih q2.symm (by omega) ht htc ho hloop hroom
      | false =>
        have el : Node.liveRecs (r :: rest.take (pos' - (pos + 1))) = r :: Node.liveRecs (rest.take (pos' - (pos + 1))) := by
          simp [Node.liveRecs, hdel]
        rw [el] at hroom ⊢
        simp only [hdel] at hloop
        simp only [Bool.false_eq_true, if_false] at hloop ⊢
        simp only [recBytes_cons, List.length_cons] at hroom ⊢
        have b1 := metaOff_le (cfg := cfg) (show recs.length + 1 ≤ recs.length + ((Node.liveRecs (rest.take (pos' - (pos + 1)))).length + 1)
          by omega)
        obtain ⟨m1, o1, e1, l1, p1⟩ := copyRecordFrom_ok hm hp ht htc hs hr hdel ho (by omega)
        simp only [e1, Res.ok_bind, sl.rlen]
        obtain ⟨m2, o2, e2, l2, p2⟩ := ih (t := { t with mem := m1, count := recs.length + 1 }) (recs := recs ++ [r])
          (blk := blk + r.len cfg inner) (off := o1) (f := f) q2.symm (by omega) l1 (by simp) p1 hloop (by
            simp only [List.length_append, List.length_cons, List.length_nil]
            rw [show recs.length + (0 + 1) + (Node.liveRecs (rest.take (pos' - (pos + 1)))).length =
              recs.length + ((Node.liveRecs (rest.take (pos' - (pos + 1)))).length + 1) by omega]
            omega)
        refine ⟨m2, o2, ?_, ?_, by omega⟩
        · rw [e2]
          simp only [List.length_append, List.length_cons, List.length_nil]
          rw [show recs.length + (0 + 1) + (Node.liveRecs (rest.take (pos' - (pos + 1)))).length =
              recs.length + ((Node.liveRecs (rest.take (pos' - (pos + 1)))).length + 1) by omega]
        · rw [← Nat.add_assoc]
          simpa using l2
    · rw [if_neg c] at hloop
      simp only [Res.ok.injEq] at hloop
      exact stopped c hf ht htc ho hloop

/-- The bytes of a key of the source. -/
theorem keyBytes_ok (hs : Lay C s.mem inner srecs slow shigh sblk shoff stop) {i : Nat} {r : Rec K V} (hr : srecs[i]? = some r) :
    s.keyBytes cfg (word cfg s.mem i) = .ok (C.okey r.key) := by
  have sl := hs.slot _ _ hr
  have s1 := sl.lo; have s2 := sl.hi; have s3 := sl.klen; have s5 := sl.bytes
  have t1 := hs.hdr; have t2 := hs.top_hi
  simp only [Rec.len] at s2
  unfold keyBytes
  rw [s3, rd_ok (by omega) (by omega)]
  congr 1
  rw [Rec.len, Ram.bytes_append] at s5
  unfold Codec.whole at s5
  exact (List.append_inj s5 (by simp)).1

end copy

namespace VarRep
variable {g : VarPage} {n n' : Node K V}

/-- `CleanUp`. -/
theorem cleanUp (hv : cfg.layout = .var) (hm : cfg.metaLen = 8) (hp : cfg.pageSize < 2 ^ 16) (hh : cfg.headerLen ≤ cfg.pageSize)
    (h : VarRep C g n) {tmp : VarPage} (ht : tmp.count = 0) (hn : n.cleanUp cfg = .ok n') :
    ∃ g', g.cleanUp cfg tmp = .ok g' ∧ VarRep C g' n' := by
  obtain ⟨rfl, hroom⟩ := vfits hv hh hn
  dsimp only at hroom
  obtain ⟨top, hl⟩ := h.lay
  have b0 := metaOff_le (cfg := cfg) (Nat.zero_le (Node.liveRecs n.recs).length)
  obtain ⟨m1, e1, l1⟩ := copyLow_ok (t := tmp) h n.isInner
  have c1 := hl.lowBytes
  have c2 := hl.hdr
  obtain ⟨m2, e2, l2, p2⟩ := copyHigh_ok (t := { tmp with mem := m1, lowOff := cfg.pageSize - cfg.oklen n.low, lowLen := cfg.oklen n.low })
    h (l1 0) (off := cfg.pageSize - cfg.oklen n.low) (by omega) (by simp only [List.length_nil]; omega)
  obtain ⟨m3, o3, e3, l3, p3⟩ := copyAll_ok (t := { tmp with mem := m2, lowOff := cfg.pageSize - cfg.oklen n.low, lowLen := cfg.oklen n.low })
    hm hp hl l2 (by simp [ht]) p2 (by simp only [List.length_nil, Nat.zero_add]; omega)
  obtain ⟨m4, e4, l4⟩ := takeFrom_ok (g := g)
    (t := { tmp with mem := m3, lowOff := cfg.pageSize - cfg.oklen n.low, lowLen := cfg.oklen n.low, count := (Node.liveRecs n.recs).length })
    l3 p3
  simp only [List.nil_append, List.length_nil, Nat.zero_add] at e3 e4 l4
  refine ⟨{ g with mem := m4, blk := cfg.pageSize - o3, del := 0, count := (Node.liveRecs n.recs).length, highOff := cfg.pageSize - cfg.oklen n.low - cfg.oklen n.high }, ?_, ?_⟩
  · simp only [VarPage.cleanUp, e1, e2, h.count, e3, e4, Res.ok_bind, Res.pure_eq]
  · exact ⟨h.inner, h.removed, rfl, by dsimp only; omega, rfl, h.next, h.lowLen, h.lowOff, h.highLen, _, l4⟩

/-- `Merge`. -/
theorem merge (hv : cfg.layout = .var) (hm : cfg.metaLen = 8) (hp : cfg.pageSize < 2 ^ 16) (hh : cfg.headerLen ≤ cfg.pageSize)
    (h : VarRep C g n) {r : VarPage} {rn : Node K V} (hr : VarRep C r rn) (hi : rn.isInner = n.isInner) {tmp : VarPage} (ht : tmp.count = 0)
    (hn : n.merge cfg rn = .ok n') : ∃ g', g.merge cfg r tmp = .ok g' ∧ VarRep C g' n' := by
  simp only [Node.merge, hv] at hn
  obtain ⟨rfl, hroom⟩ := vfits hv hh hn
  dsimp only at hroom
  rw [recBytes_append, List.length_append] at hroom
  obtain ⟨top, hl⟩ := h.lay
  obtain ⟨rtop, hrl⟩ := hr.lay
  rw [hi] at hrl
  have b0 := metaOff_le (cfg := cfg) (Nat.zero_le ((Node.liveRecs n.recs).length + (Node.liveRecs rn.recs).length))
  have b1 := metaOff_le (cfg := cfg) (Nat.le_add_right (Node.liveRecs n.recs).length (Node.liveRecs rn.recs).length)
  obtain ⟨m1, e1, l1⟩ := copyLow_ok (t := tmp) h n.isInner
  have c1 := hl.lowBytes
  have c2 := hl.hdr
  obtain ⟨m2, e2, l2, p2⟩ := copyHigh_ok (t := { tmp with mem := m1, lowOff := cfg.pageSize - cfg.oklen n.low, lowLen := cfg.oklen n.low })
    hr (l1 0) (off := cfg.pageSize - cfg.oklen n.low) (by omega) (by simp only [List.length_nil]; omega)
  obtain ⟨m3, o3, e3, l3, p3⟩ := copyAll_ok (t := { tmp with mem := m2, lowOff := cfg.pageSize - cfg.oklen n.low, lowLen := cfg.oklen n.low })
    hm hp hl l2 (by simp [ht]) p2 (by simp only [List.length_nil, Nat.zero_add]; omega)
  obtain ⟨m4, e4, l4⟩ := takeFrom_ok (g := g)
    (t := { tmp with mem := m3, lowOff := cfg.pageSize - cfg.oklen n.low, lowLen := cfg.oklen n.low, count := (Node.liveRecs n.recs).length })
    l3 p3
  simp only [List.nil_append, List.length_nil, Nat.zero_add] at e3 e4 l4
  obtain ⟨m5, o5, e5, l5, p5⟩ := copyAll_ok
    (t := { g with mem := m4, count := (Node.liveRecs n.recs).length, highOff := cfg.pageSize - cfg.oklen n.low - cfg.oklen rn.high, highLen := r.highLen })
    hm hp hrl l4 rfl p3 (by omega)
  refine ⟨{ g with mem := m5, blk := cfg.pageSize - o5, del := 0, count := (Node.liveRecs n.recs).length + (Node.liveRecs rn.recs).length, highOff := cfg.pageSize - cfg.oklen n.low - cfg.oklen rn.high, highLen := r.highLen, next := if cfg.blink || !g.inner then r.next else g.next }, ?_, ?_⟩
  · simp only [VarPage.merge, e1, e2, h.count, e3, e4, hr.count, e5, Res.ok_bind, Res.pure_eq]
  · refine ⟨h.inner, h.removed, by simp, by dsimp only; rw [recBytes_append]; omega, rfl, ?_, h.lowLen, h.lowOff, hr.highLen,
      cfg.pageSize - cfg.oklen n.low, ?_⟩
    · simp only [h.inner, hr.next, h.next, Node.hasNext]
      congr
    · dsimp only
      rw [recBytes_append, ← Nat.add_assoc]
      exact l5

/-- `Split`. -/
theorem split (hv : cfg.layout = .var) (hm : cfg.metaLen = 8) (hp : cfg.pageSize < 2 ^ 16) (hh : cfg.headerLen ≤ cfg.pageSize)
    (h : VarRep C g n) {junk : Ram} {tmp : VarPage} (ht : tmp.count = 0) {rp : Ptr} {ln rn : Node K V}
    (hd : n.dead ≤ cfg.metaLen * n.rc + n.block) (hn : n.splitVar cfg rp = .ok (ln, rn)) :
    ∃ g' r', g.split cfg (VarPage.empty cfg n.isInner junk) tmp rp = .ok (g', r') ∧ VarRep C g' ln ∧ VarRep C r' rn := by
  obtain ⟨top, hl⟩ := h.lay
  unfold Node.splitVar at hn
  dsimp only at hn
  cases hloop : Node.splitLoop cfg n.isInner ((cfg.metaLen * n.rc + n.block - n.dead) / 2) n.recs 0 0 with
  | ub => rw [hloop] at hn; simp at hn
  | fuel => rw [hloop] at hn; simp at hn
  | ok pos =>
  rw [hloop] at hn
  simp only [Res.ok_bind] at hn
  cases hr : n.recs[pos]? with
  | none => rw [hr] at hn; simp at hn
  | some sr =>
  rw [hr] at hn
  simp only at hn
  generalize hL : Node.checked cfg _ = cl at hn
  cases cl with
  | ub => simp at hn
  | fuel => simp at hn
  | ok cl =>
  simp only [Res.ok_bind] at hn
  generalize hR : Node.checked cfg _ = cr at hn
  cases cr with
  | ub => simp at hn
  | fuel => simp at hn
  | ok cr =>
  simp only [Res.ok_bind, Res.pure_eq, Res.ok.injEq, Prod.mk.injEq] at hn
  obtain ⟨rfl, rfl⟩ := hn
  obtain ⟨rfl, roomL⟩ := vfits hv hh hL
  obtain ⟨rfl, roomR⟩ := vfits hv hh hR
  dsimp only at roomL roomR
  have hpos : pos < n.recs.length := (List.getElem?_eq_some_iff.mp hr).1
  have sl := hl.slot _ _ hr
  have b0 := metaOff_le (cfg := cfg) (Nat.zero_le (Node.liveRecs (n.recs.take pos)).length)
  have b1 := metaOff_le (cfg := cfg) (Nat.zero_le (Node.liveRecs (n.recs.drop pos)).length)
  have b2 := hdr_metaOff (cfg := cfg) 0
  have c1 := hl.lowBytes
  have c2 := hl.hdr
  have ks := C.okey_len sr.key
  obtain ⟨m1, e1, l1⟩ := copyLow_ok (t := tmp) h n.isInner
  obtain ⟨m2, o2, e2, l2, p2⟩ := splitLoop_ok (f := n.recs.length + 1) hm hp hl n.recs
    (t := { tmp with mem := m1, lowOff := cfg.pageSize - cfg.oklen n.low, lowLen := cfg.oklen n.low }) (off := cfg.pageSize - cfg.oklen n.low)
    (by simp) (by omega) (l1 0) (by simp [ht]) (by omega) hloop (by simp only [List.length_nil, Nat.zero_add, Nat.sub_zero]; omega)
  simp only [List.nil_append, List.length_nil, Nat.zero_add, Nat.sub_zero] at e2 l2 p2
  have l3 := l2.putHigh' (k := sr.key) (off := o2 - cfg.oklen sr.key) rfl (by omega) (by omega)
  have e3 : copyKeyFrom cfg { tmp with mem := m2, count := (Node.liveRecs (n.recs.take pos)).length, lowOff := cfg.pageSize - cfg.oklen n.low, lowLen := cfg.oklen n.low }
      g (word cfg g.mem pos) o2 = .ok ({ tmp with mem := m2.write (o2 - cfg.oklen sr.key) (C.okey sr.key), count := (Node.liveRecs (n.recs.take pos)).length, lowOff := cfg.pageSize - cfg.oklen n.low, lowLen := cfg.oklen n.low }, o2 - cfg.oklen sr.key) := by
    unfold copyKeyFrom
    rw [keyBytes_ok hl hr]
    simp only [Res.ok_bind]
    rw [put_ok (o := o2 - cfg.oklen sr.key) (by omega) (by omega) (by omega)]
  generalize hm3 : m2.write (o2 - cfg.oklen sr.key) (C.okey sr.key) = m3 at e3 l3
  have e4 : splitLow cfg (VarPage.empty cfg n.isInner junk) g { tmp with mem := m3, count := (Node.liveRecs (n.recs.take pos)).length, lowOff := cfg.pageSize - cfg.oklen n.low, lowLen := cfg.oklen n.low, highOff := o2 - cfg.oklen sr.key, highLen := (word cfg g.mem pos).keyLen }
      (word cfg g.mem pos) = .ok ({ VarPage.empty cfg n.isInner junk with mem := junk.write (cfg.pageSize - cfg.oklen sr.key) (C.okey sr.key) }, cfg.pageSize - cfg.oklen sr.key) := by
    unfold splitLow
    cases cfg.blink with
    | true =>
      simp only [if_true, copyHighKeyFrom]
      rw [copyBorder_ok (C := C) (k := sr.key) sl.klen]
      · rw [sl.klen]; rfl
      · intro hlt
        rw [sl.klen] at hlt ⊢
        cases hk : sr.key with
        | none => rw [hk] at hlt; simp [Cfg.oklen] at hlt
        | some k => rw [hk] at l3; exact (l3.highOk k rfl).2.2
      · intro hlt
        rw [sl.klen]
        omega
      · rw [sl.klen]; omega
      · exact Nat.le_refl _
    | false =>
      simp only [Bool.false_eq_true, if_false]
      unfold copyKeyFrom
      rw [keyBytes_ok hl hr]
      simp only [Res.ok_bind]
      rw [put_ok (o := cfg.pageSize - cfg.oklen sr.key) (by omega) (by omega) (by omega)]
      rfl
  have l4 : ∀ hoff, Lay C (junk.write (cfg.pageSize - cfg.oklen sr.key) (C.okey sr.key)) n.isInner [] sr.key none (cfg.oklen sr.key) hoff
      (cfg.pageSize - cfg.oklen sr.key) := by
    intro hoff
    have h0 : Lay C junk n.isInner ([] : List (Rec K V)) none none (cfg.pageSize - (cfg.pageSize - cfg.oklen sr.key)) hoff
        (cfg.pageSize - cfg.oklen sr.key) := Lay.nil C junk n.isInner hoff (by omega) (by omega)
    rw [show cfg.pageSize - (cfg.pageSize - cfg.oklen sr.key) = cfg.oklen sr.key by omega] at h0
    exact h0.putLow' (by omega)
  generalize junk.write (cfg.pageSize - cfg.oklen sr.key) (C.okey sr.key) = m4 at e4 l4
  obtain ⟨m5, e5, l5, p5⟩ := copyHigh_ok (t := { VarPage.empty cfg n.isInner junk with mem := m4 })
    h (l4 0) (off := cfg.pageSize - cfg.oklen sr.key) (by omega) (by simp only [List.length_nil]; omega)
  have etake : (n.recs.drop pos).take (n.recs.length - pos) = n.recs.drop pos := List.take_of_length_le (by simp)
  obtain ⟨m6, o6, e6, l6, p6⟩ := copyRecordsFrom_ok (low := sr.key) (high := n.high) (hoff := cfg.pageSize - cfg.oklen sr.key - cfg.oklen n.high)
    (top := cfg.pageSize - cfg.oklen sr.key) hm hp hl (n.recs.length - pos) { VarPage.empty cfg n.isInner junk with mem := m5 } [] _ pos _
    (by omega) l5 rfl p5 (by rw [etake]; simp only [List.length_nil, Nat.zero_add]; omega)
  rw [etake] at e6 l6 p6
  simp only [List.nil_append, List.length_nil, Nat.zero_add] at e6 l6 p6
  obtain ⟨m7, e7, l7⟩ := takeFrom_ok (g := g)
    (t := { tmp with mem := m3, count := (Node.liveRecs (n.recs.take pos)).length, lowOff := cfg.pageSize - cfg.oklen n.low, lowLen := cfg.oklen n.low, highOff := o2 - cfg.oklen sr.key, highLen := (word cfg g.mem pos).keyLen })
    l3 (off := o2 - cfg.oklen sr.key) (by omega)
  refine ⟨{ g with mem := m7, blk := cfg.pageSize - (o2 - cfg.oklen sr.key), del := 0, count := (Node.liveRecs (n.recs.take pos)).length, next := if cfg.blink || !g.inner then some rp else g.next, highOff := o2 - cfg.oklen sr.key, highLen := (word cfg g.mem pos).keyLen },
    { VarPage.empty cfg n.isInner junk with mem := m6, count := (Node.liveRecs (n.recs.drop pos)).length, lowOff := cfg.pageSize - cfg.oklen sr.key, lowLen := (word cfg g.mem pos).keyLen, highOff := cfg.pageSize - cfg.oklen sr.key - cfg.oklen n.high, highLen := g.highLen, blk := cfg.pageSize - o6, next := if cfg.blink || !g.inner then g.next else none },
    ?_, ?_, ?_⟩
  · simp only [Node.rc] at e2 hd
    simp only [VarPage.split, h.count, h.blk, h.del, usub_ok hd, e1, e2, rdMeta_ok (hl.metaIn hpos), e3, e4, e5, usub_ok (Nat.le_of_lt hpos), e6,
      e7, Res.ok_bind, Res.pure_eq]
    rfl
  · refine ⟨h.inner, h.removed, rfl, by dsimp only; omega, rfl, ?_, h.lowLen, h.lowOff, sl.klen, _, l7⟩
    simp only [h.inner, h.next, Node.hasNext]
    congr
  · refine ⟨rfl, rfl, rfl, by dsimp only; omega, rfl, ?_, sl.klen, rfl, h.highLen, _, l6⟩
    simp only [h.inner, h.next, Node.hasNext]
    congr

end VarRep

end BT
