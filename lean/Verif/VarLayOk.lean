import Verif.VarBytes
import Verif.FixBytesOk

/-!
# The variable-length page: what the bytes mean

`Lay C m inner recs low high blk hoff top`: the memory `m` of a page holds the records `recs` and the border keys `low` and `high`, in the
upper `blk` bytes of the page; the records and the highest key lie below `top`, the lowest key lies at the end of the page.
-/

set_option linter.unusedSectionVars false

namespace BT
variable {K V : Type} [LinearOrder K] {cfg : Cfg K} {C : Codec cfg V}

/-- The bytes of an optional key. -/
def Codec.okey (C : Codec cfg V) : Option K → List Byte
  | none => []
  | some k => C.key k

@[simp] theorem Codec.okey_len (C : Codec cfg V) (k : Option K) : (C.okey k).length = cfg.oklen k := by
  cases k with
  | none => rfl
  | some k => exact C.key_len k

/-- The bytes of a record. -/
def Codec.whole (C : Codec cfg V) (r : Rec K V) : List Byte := C.okey r.key ++ C.pay r.pay

theorem Codec.whole_len (C : Codec cfg V) {inner : Bool} {r : Rec K V} (h : r.pay.Fits inner) : (C.whole r).length = r.len cfg inner := by
  simp [Codec.whole, C.pay_len h, Rec.len]

namespace Ram

theorem bytes_append (m : Ram) (o a b : Nat) : m.bytes o (a + b) = m.bytes o a ++ m.bytes (o + a) b := by
  simp only [bytes, List.range_add, List.map_append, List.map_map]
  congr 1
  apply List.map_congr_left
  intro x _
  simp [Nat.add_assoc]

theorem bytes_write_left {m : Ram} {off : Nat} {a b : List Byte} : (m.write off (a ++ b)).bytes off a.length = a := by
  have h := bytes_write_same (m := m) (off := off) (bs := a ++ b) rfl
  rw [List.length_append, bytes_append] at h
  exact (List.append_inj h (by simp)).1

theorem write_write_adj (m : Ram) (off : Nat) (a b : List Byte) :
    (m.write (off + a.length) b).write off a = m.write off (a ++ b) := by
  funext i
  simp only [write, List.length_append]
  by_cases h1 : off ≤ i ∧ i < off + a.length
  · rw [if_pos h1, if_pos (by omega)]
    simp only [List.getD_eq_getElem?_getD]
    rw [List.getElem?_append_left (by omega)]
  · rw [if_neg h1]
    by_cases h2 : off + a.length ≤ i ∧ i < off + a.length + b.length
    · rw [if_pos h2, if_pos (by omega)]
      simp only [List.getD_eq_getElem?_getD]
      rw [List.getElem?_append_right (by omega)]
      congr 2
      omega
    · rw [if_neg h2, if_neg (by omega)]

theorem write_nil (m : Ram) (off : Nat) : m.write off [] = m := by
  funext i
  simp only [write, List.length_nil]
  rw [if_neg (by omega)]

end Ram

namespace VarPage

/-- `meta_array_[i]` in the memory `m`. -/
def word (cfg : Cfg K) (m : Ram) (i : Nat) : MetaWord := BitVec.ofNat 64 (bytesNat (m.bytes (metaOff cfg i) cfg.metaLen))

theorem metaOff_le {i j : Nat} (h : i ≤ j) : metaOff cfg i ≤ metaOff cfg j := by
  have := Nat.mul_le_mul_left cfg.metaLen h
  simp only [metaOff]; omega

theorem metaOff_succ (i : Nat) : metaOff cfg (i + 1) = metaOff cfg i + cfg.metaLen := by
  simp only [metaOff, Nat.mul_succ]; omega

theorem metaOff_add (i t : Nat) : metaOff cfg (i + t) = metaOff cfg i + cfg.metaLen * t := by
  simp only [metaOff, Nat.mul_add]; omega

theorem metaOff_lt {i j : Nat} (h : i < j) : metaOff cfg i + cfg.metaLen ≤ metaOff cfg j := by
  rw [← metaOff_succ]; exact metaOff_le h

theorem metaOff_zero : metaOff cfg 0 = cfg.headerLen := by simp [metaOff]

theorem hdr_metaOff (i : Nat) : cfg.headerLen ≤ metaOff cfg i := by simp only [metaOff]; omega

theorem word_congr {m m' : Ram} {i j : Nat} (h : m.bytes (metaOff cfg i) cfg.metaLen = m'.bytes (metaOff cfg j) cfg.metaLen) :
    word cfg m i = word cfg m' j := by
  simp only [word, h]

theorem word_write_far {m : Ram} {off i : Nat} {bs : List Byte} (h : metaOff cfg (i + 1) ≤ off) :
    word cfg (m.write off bs) i = word cfg m i := by
  apply word_congr
  rw [metaOff_succ] at h
  exact Ram.bytes_write_disj (Or.inl h)

theorem word_write_meta (hm : cfg.metaLen = 8) (m : Ram) (i j : Nat) (w : MetaWord) :
    word cfg (m.write (metaOff cfg i) (natBytes cfg.metaLen w.toNat)) j = if j = i then w else word cfg m j := by
  split
  · next h =>
    subst h
    simp only [word]
    rw [Ram.bytes_write_same (by simp), bytesNat_natBytes _ _ (by rw [hm]; exact w.isLt)]
    simp
  · next h =>
    apply word_congr
    apply Ram.bytes_write_disj
    simp only [natBytes_length]
    rcases Nat.lt_or_gt_of_ne h with h | h
    · left; exact metaOff_lt h
    · right; exact metaOff_lt h

theorem word_up (m : Ram) (p t i : Nat) : word cfg (m.move (metaOff cfg (p + 1)) (metaOff cfg p) (cfg.metaLen * t)) i
    = if p < i ∧ i ≤ p + t then word cfg m (i - 1) else word cfg m i := by
  have e1 := metaOff_add (cfg := cfg) (p + 1) t
  split
  · next h =>
    apply word_congr
    obtain ⟨j, rfl⟩ : ∃ j, i = j + 1 := ⟨i - 1, by omega⟩
    have h1 := metaOff_le (cfg := cfg) (show p + 1 ≤ j + 1 by omega)
    have h2 := metaOff_lt (cfg := cfg) (show j + 1 < p + 1 + t by omega)
    rw [Ram.bytes_move_in h1 (by omega)]
    congr 1
    have h3 := metaOff_succ (cfg := cfg) p
    have h4 := metaOff_succ (cfg := cfg) j
    have : j + 1 - 1 = j := rfl
    rw [this]
    omega
  · next h =>
    apply word_congr
    apply Ram.bytes_move_disj
    by_cases h1 : i ≤ p
    · left; exact metaOff_lt (by omega)
    · right
      rw [← e1]
      exact metaOff_le (by omega)

theorem word_dn (m : Ram) (p t i : Nat) : word cfg (m.move (metaOff cfg p) (metaOff cfg (p + 1)) (cfg.metaLen * t)) i
    = if p ≤ i ∧ i < p + t then word cfg m (i + 1) else word cfg m i := by
  have e1 := metaOff_add (cfg := cfg) p t
  split
  · next h =>
    apply word_congr
    have h1 := metaOff_le (cfg := cfg) (show p ≤ i by omega)
    have h2 := metaOff_lt (cfg := cfg) (show i < p + t by omega)
    rw [Ram.bytes_move_in h1 (by omega)]
    congr 1
    have h3 := metaOff_succ (cfg := cfg) p
    have h4 := metaOff_succ (cfg := cfg) i
    omega
  · next h =>
    apply word_congr
    apply Ram.bytes_move_disj
    by_cases h1 : i < p
    · left; exact metaOff_lt h1
    · right
      rw [← e1]
      exact metaOff_le (by omega)

end VarPage

open VarPage

/-- Two regions do not overlap. -/
def Disj (o l o' l' : Nat) : Prop := o + l ≤ o' ∨ o' + l' ≤ o

/-- The metadata word `w` describes the record `r`. -/
structure Slot (C : Codec cfg V) (m : Ram) (inner : Bool) (blk top : Nat) (w : MetaWord) (r : Rec K V) : Prop where
  mark : w.isDeleted = r.del
  klen : w.keyLen = cfg.oklen r.key
  rlen : w.recLen = r.len cfg inner
  lo : cfg.pageSize ≤ w.offset + blk
  hi : w.offset + r.len cfg inner ≤ top
  fits : r.pay.Fits inner
  bytes : m.bytes w.offset (r.len cfg inner) = C.whole r

/-- See above. -/
structure Lay (C : Codec cfg V) (m : Ram) (inner : Bool) (recs : List (Rec K V)) (low high : Option K) (blk hoff top : Nat) : Prop where
  room : metaOff cfg recs.length + blk ≤ cfg.pageSize
  top_lo : cfg.pageSize ≤ top + blk
  top_hi : top + cfg.oklen low ≤ cfg.pageSize
  lowOk : m.bytes (cfg.pageSize - cfg.oklen low) (cfg.oklen low) = C.okey low
  highOk : ∀ k, high = some k → cfg.pageSize ≤ hoff + blk ∧ hoff + cfg.klen k ≤ top ∧ m.bytes hoff (cfg.klen k) = C.key k
  slot : ∀ i r, recs[i]? = some r → Slot C m inner blk top (word cfg m i) r
  apart : ∀ i j r r', i ≠ j → recs[i]? = some r → recs[j]? = some r' →
    Disj (word cfg m i).offset (r.len cfg inner) (word cfg m j).offset (r'.len cfg inner)
  apartHigh : ∀ i r k, recs[i]? = some r → high = some k →
    Disj (word cfg m i).offset (r.len cfg inner) hoff (cfg.klen k)

namespace Lay
variable {m m' : Ram} {inner : Bool} {recs : List (Rec K V)} {low high : Option K} {blk hoff top : Nat}

/-- An empty page. -/
theorem nil (C : Codec cfg V) (m : Ram) (inner : Bool) (hoff : Nat) {top : Nat} (ht : top ≤ cfg.pageSize)
    (hr : cfg.headerLen ≤ top) : Lay C m inner [] none none (cfg.pageSize - top) hoff top where
  room := by simp only [List.length_nil, metaOff_zero]; omega
  top_lo := by omega
  top_hi := by simp [Cfg.oklen, ht]
  lowOk := by simp [Cfg.oklen, Codec.okey, Ram.bytes]
  highOk := by intro k h; cases h
  slot := by intro i r h; simp at h
  apart := by intro i j r r' _ h; simp at h
  apartHigh := by intro i r k h; simp at h

/-- Only the metadata in use and the upper `blk` bytes matter. -/
theorem frame (h : Lay C m inner recs low high blk hoff top) (hw : ∀ i, i < recs.length → word cfg m' i = word cfg m i)
    (hb : ∀ o l, cfg.pageSize ≤ o + blk → o + l ≤ cfg.pageSize → m'.bytes o l = m.bytes o l) :
    Lay C m' inner recs low high blk hoff top := by
  have hi : ∀ i r, recs[i]? = some r → i < recs.length := fun i r h => (List.getElem?_eq_some_iff.mp h).1
  have h1 := h.top_lo
  have h2 := h.top_hi
  refine ⟨h.room, h1, h2, ?_, ?_, ?_, ?_, ?_⟩
  · rw [hb _ _ (by omega) (by omega)]; exact h.lowOk
  · intro k hk
    obtain ⟨a, b, c⟩ := h.highOk k hk
    exact ⟨a, b, by rw [hb _ _ a (by omega)]; exact c⟩
  · intro i r hr
    have s := h.slot i r hr
    rw [hw i (hi i r hr)]
    have := s.hi
    exact ⟨s.mark, s.klen, s.rlen, s.lo, s.hi, s.fits, by rw [hb _ _ s.lo (by omega)]; exact s.bytes⟩
  · intro i j r r' hij hr hr'
    rw [hw i (hi i r hr), hw j (hi j r' hr')]
    exact h.apart i j r r' hij hr hr'
  · intro i r k hr hk
    rw [hw i (hi i r hr)]
    exact h.apartHigh i r k hr hk

/-- A write into the gap between metadata and records. -/
theorem write_gap (h : Lay C m inner recs low high blk hoff top) {off : Nat} {bs : List Byte} (h1 : metaOff cfg recs.length ≤ off)
    (h2 : off + bs.length + blk ≤ cfg.pageSize) : Lay C (m.write off bs) inner recs low high blk hoff top := by
  apply h.frame
  · intro i hi
    exact word_write_far (Nat.le_trans (metaOff_le hi) h1)
  · intro o l ho hl
    exact Ram.bytes_write_disj (Or.inr (by omega))

/-- The lowest key is written last (`Bulkload`) or first. -/
theorem putLow (h : Lay C m inner recs none high blk hoff top) {k : K} (hk : top + cfg.klen k ≤ cfg.pageSize) :
    Lay C (m.write (cfg.pageSize - cfg.klen k) (C.key k)) inner recs (some k) high blk hoff top := by
  have h0 := h.room
  have h1 := h.top_lo
  have hl : (C.key k).length = cfg.klen k := C.key_len k
  have hm0 := hdr_metaOff (cfg := cfg) 0
  have hwrd : ∀ i, i < recs.length → word cfg (m.write (cfg.pageSize - cfg.klen k) (C.key k)) i = word cfg m i := by
    intro i hi
    apply word_write_far
    have := metaOff_le (cfg := cfg) (show i + 1 ≤ recs.length from hi)
    omega
  have hbts : ∀ o l, o + l ≤ top → (m.write (cfg.pageSize - cfg.klen k) (C.key k)).bytes o l = m.bytes o l := by
    intro o l ho
    exact Ram.bytes_write_disj (Or.inl (by omega))
  have hi : ∀ i r, recs[i]? = some r → i < recs.length := fun i r h => (List.getElem?_eq_some_iff.mp h).1
  refine ⟨h0, h1, hk, ?_, ?_, ?_, ?_, ?_⟩
  · simp only [Cfg.oklen, Codec.okey]
    exact Ram.bytes_write_same hl
  · intro k' hk'
    obtain ⟨a, b, c⟩ := h.highOk k' hk'
    exact ⟨a, b, by rw [hbts _ _ b]; exact c⟩
  · intro i r hr
    have s := h.slot i r hr
    rw [hwrd i (hi i r hr)]
    exact ⟨s.mark, s.klen, s.rlen, s.lo, s.hi, s.fits, by rw [hbts _ _ s.hi]; exact s.bytes⟩
  · intro i j r r' hij hr hr'
    rw [hwrd i (hi i r hr), hwrd j (hi j r' hr')]
    exact h.apart i j r r' hij hr hr'
  · intro i r k hr hk
    rw [hwrd i (hi i r hr)]
    exact h.apartHigh i r k hr hk

/-- The block grows without new contents. -/
theorem grow (h : Lay C m inner recs low high blk hoff top) {blk' : Nat} (h1 : blk ≤ blk')
    (h2 : metaOff cfg recs.length + blk' ≤ cfg.pageSize) : Lay C m inner recs low high blk' hoff top := by
  have h0 := h.top_lo
  refine ⟨h2, by omega, h.top_hi, h.lowOk, ?_, ?_, h.apart, h.apartHigh⟩
  · intro k hk
    obtain ⟨a, b, c⟩ := h.highOk k hk
    exact ⟨by omega, b, c⟩
  · intro i r hr
    have s := h.slot i r hr
    have := s.lo
    exact ⟨s.mark, s.klen, s.rlen, by omega, s.hi, s.fits, s.bytes⟩

/-- The lowest key is given up. -/
theorem dropLow (h : Lay C m inner recs low high blk hoff top) : Lay C m inner recs none high blk hoff top := by
  have := h.top_hi
  exact ⟨h.room, h.top_lo, by simp [Cfg.oklen]; omega, by simp [Cfg.oklen, Codec.okey, Ram.bytes], h.highOk, h.slot, h.apart, h.apartHigh⟩

/-- A highest key is put below everything else. -/
theorem putHigh (h : Lay C m inner recs low none blk hoff top) {k : K} {blk' off : Nat} (hb : blk' = blk + cfg.klen k)
    (ho : off + blk' = cfg.pageSize)
    (hroom : metaOff cfg recs.length + blk' ≤ cfg.pageSize) :
    Lay C (m.write off (C.key k)) inner recs low (some k) blk' off top := by
  have hl : (C.key k).length = cfg.klen k := C.key_len k
  have h1 := h.top_lo
  have h' := (h.write_gap (off := off) (bs := C.key k) (by omega) (by omega)).grow (blk' := blk') (by omega) hroom
  refine ⟨h'.room, h'.top_lo, h'.top_hi, h'.lowOk, ?_, h'.slot, h'.apart, ?_⟩
  · intro k' hk'
    cases hk'
    exact ⟨by omega, by omega, Ram.bytes_write_same hl⟩
  · intro i r k' hr hk'
    cases hk'
    right
    have s := (h.write_gap (off := off) (bs := C.key k) (by omega) (by omega)).slot i r hr
    have := s.lo
    omega

/-- A new record is put below everything else, its metadata at position `pos`. -/
theorem insert (hm : cfg.metaLen = 8) (hp : cfg.pageSize < 2 ^ 16) (h : Lay C m inner recs low high blk hoff top) {pos : Nat}
    (hpos : pos ≤ recs.length) {r : Rec K V} (hfit : r.pay.Fits inner) (hdel : r.del = false) {blk' off : Nat}
    (hb : blk' = blk + r.len cfg inner) (ho : off + blk' = cfg.pageSize) (hroom : metaOff cfg (recs.length + 1) + blk' ≤ cfg.pageSize) :
    Lay C (((m.write off (C.whole r)).move (metaOff cfg (pos + 1)) (metaOff cfg pos) (cfg.metaLen * (recs.length - pos))).write
      (metaOff cfg pos) (natBytes cfg.metaLen (MetaWord.make 0 off (cfg.oklen r.key) (r.len cfg inner)).toNat))
      inner (insAt recs pos r) low high blk' hoff top := by
  have hl : (C.whole r).length = r.len cfg inner := C.whole_len hfit
  have h0 := metaOff_le (cfg := cfg) (show recs.length ≤ recs.length + 1 by omega)
  have h1 := h.top_lo
  have h2 := h.top_hi
  have hg := h.write_gap (off := off) (bs := C.whole r) (by omega) (by omega)
  have hgr := hg.grow (blk' := blk') (by omega) (by omega)
  have hkl : cfg.oklen r.key ≤ r.len cfg inner := by simp [Rec.len]
  generalize hw : MetaWord.make 0 off (cfg.oklen r.key) (r.len cfg inner) = w
  have w1 : w.offset = off := by rw [← hw, MetaWord.offset_make']; exact Nat.mod_eq_of_lt (by omega)
  have w2 : w.keyLen = cfg.oklen r.key := by rw [← hw, MetaWord.keyLen_make']; exact Nat.mod_eq_of_lt (by omega)
  have w3 : w.recLen = r.len cfg inner := by rw [← hw, MetaWord.recLen_make']; exact Nat.mod_eq_of_lt (by omega)
  have w4 : w.isDeleted = false := by rw [← hw]; simp
  have hbnew : (m.write off (C.whole r)).bytes off (r.len cfg inner) = C.whole r := Ram.bytes_write_same hl
  generalize hm1 : m.write off (C.whole r) = m1 at hg hgr hbnew
  generalize hm2 : (m1.move (metaOff cfg (pos + 1)) (metaOff cfg pos) (cfg.metaLen * (recs.length - pos))).write
      (metaOff cfg pos) (natBytes cfg.metaLen w.toNat) = m2
  have hwd : ∀ i, i ≤ recs.length → word cfg m2 i = if i < pos then word cfg m1 i else if i = pos then w else word cfg m1 (i - 1) := by
    intro i hi
    rw [← hm2, word_write_meta hm, word_up]
    by_cases c1 : i = pos
    · rw [if_pos c1, if_neg (by omega), if_pos c1]
    · rw [if_neg c1]
      by_cases c2 : i < pos
      · rw [if_neg (by omega), if_pos c2]
      · rw [if_pos (by omega), if_neg c2, if_neg c1]
  have hbt : ∀ o l, cfg.pageSize ≤ o + blk' → m2.bytes o l = m1.bytes o l := by
    intro o l ho'
    rw [← hm2, Ram.bytes_write_disj, Ram.bytes_move_disj]
    · right
      rw [← metaOff_add]
      have := metaOff_le (cfg := cfg) (show pos + 1 + (recs.length - pos) ≤ recs.length + 1 by omega)
      omega
    · right
      simp only [natBytes_length]
      have := metaOff_lt (cfg := cfg) (show pos < recs.length + 1 by omega)
      omega
  have hlen : (insAt recs pos r).length = recs.length + 1 := by simp [insAt]; omega
  have hin : ∀ i r', (insAt recs pos r)[i]? = some r' → i ≤ recs.length := by
    intro i r' hi
    have := (List.getElem?_eq_some_iff.mp hi).1
    omega
  refine ⟨by rw [hlen]; exact hroom, hgr.top_lo, h2, ?_, ?_, ?_, ?_, ?_⟩
  · rw [hbt _ _ (by omega)]; exact hgr.lowOk
  · intro k hk
    obtain ⟨a, b, c⟩ := hgr.highOk k hk
    exact ⟨a, b, by rw [hbt _ _ a]; exact c⟩
  · intro i r' hi
    rw [hwd i (hin i r' hi)]
    rw [getElem?_insAt hpos] at hi
    by_cases c1 : i < pos
    · rw [if_pos c1] at hi ⊢
      have s := hgr.slot i r' hi
      exact ⟨s.mark, s.klen, s.rlen, s.lo, s.hi, s.fits, by rw [hbt _ _ s.lo]; exact s.bytes⟩
    · rw [if_neg c1] at hi ⊢
      by_cases c2 : i = pos
      · rw [if_pos c2] at hi ⊢
        cases hi
        exact ⟨by rw [w4, hdel], w2, w3, by rw [w1]; omega, by rw [w1]; omega, hfit, by
          rw [w1, hbt _ _ (by omega)]; exact hbnew⟩
      · rw [if_neg c2] at hi ⊢
        have s := hgr.slot (i - 1) r' hi
        exact ⟨s.mark, s.klen, s.rlen, s.lo, s.hi, s.fits, by rw [hbt _ _ s.lo]; exact s.bytes⟩
  · have new : ∀ j r', recs[j]? = some r' → off + r.len cfg inner ≤ (word cfg m1 j).offset := by
      intro j r' hj
      have := (hg.slot j r' hj).lo
      omega
    intro i j r1 r2 hij hi hj
    rw [hwd i (hin i r1 hi), hwd j (hin j r2 hj)]
    rw [getElem?_insAt hpos] at hi hj
    by_cases c1 : i < pos
    · rw [if_pos c1] at hi ⊢
      by_cases d1 : j < pos
      · rw [if_pos d1] at hj ⊢
        exact hgr.apart i j r1 r2 hij hi hj
      · rw [if_neg d1] at hj ⊢
        by_cases d2 : j = pos
        · rw [if_pos d2] at hj ⊢
          cases hj
          right; rw [w1]; exact new i r1 hi
        · rw [if_neg d2] at hj ⊢
          exact hgr.apart i (j - 1) r1 r2 (by omega) hi hj
    · rw [if_neg c1] at hi ⊢
      by_cases c2 : i = pos
      · rw [if_pos c2] at hi ⊢
        cases hi
        left; rw [w1]
        by_cases d1 : j < pos
        · rw [if_pos d1] at hj ⊢
          exact new j r2 hj
        · rw [if_neg d1, if_neg (by omega)] at hj ⊢
          exact new (j - 1) r2 hj
      · rw [if_neg c2] at hi ⊢
        by_cases d1 : j < pos
        · rw [if_pos d1] at hj ⊢
          exact hgr.apart (i - 1) j r1 r2 (by omega) hi hj
        · rw [if_neg d1] at hj ⊢
          by_cases d2 : j = pos
          · rw [if_pos d2] at hj ⊢
            cases hj
            right; rw [w1]; exact new (i - 1) r1 hi
          · rw [if_neg d2] at hj ⊢
            exact hgr.apart (i - 1) (j - 1) r1 r2 (by omega) hi hj
  · intro i r' k hi hk
    rw [hwd i (hin i r' hi)]
    rw [getElem?_insAt hpos] at hi
    by_cases c1 : i < pos
    · rw [if_pos c1] at hi ⊢
      exact hgr.apartHigh i r' k hi hk
    · rw [if_neg c1] at hi ⊢
      by_cases c2 : i = pos
      · rw [if_pos c2] at hi ⊢
        cases hi
        left; rw [w1]
        have := (hg.highOk k hk).1
        omega
      · rw [if_neg c2] at hi ⊢
        exact hgr.apartHigh (i - 1) r' k hi hk

/-- The records are rearranged, or change their marks or payloads. -/
theorem renew (h : Lay C m inner recs low high blk hoff top) {recs' : List (Rec K V)} (hlen : recs'.length ≤ recs.length)
    (σ : Nat → Nat) (hinj : ∀ i j, i < recs'.length → j < recs'.length → σ i = σ j → i = j)
    (hold : ∀ i r, recs'[i]? = some r → ∃ r0, recs[σ i]? = some r0 ∧ r.key = r0.key ∧ (word cfg m' i).offset = (word cfg m (σ i)).offset ∧
      (word cfg m' i).keyLen = (word cfg m (σ i)).keyLen ∧ (word cfg m' i).recLen = (word cfg m (σ i)).recLen ∧
      (word cfg m' i).isDeleted = r.del ∧ r.pay.Fits inner ∧ m'.bytes (word cfg m' i).offset (r.len cfg inner) = C.whole r)
    (hlow : m'.bytes (cfg.pageSize - cfg.oklen low) (cfg.oklen low) = m.bytes (cfg.pageSize - cfg.oklen low) (cfg.oklen low))
    (hhigh : ∀ k, high = some k → m'.bytes hoff (cfg.klen k) = m.bytes hoff (cfg.klen k)) :
    Lay C m' inner recs' low high blk hoff top := by
  have len : ∀ {r r0 : Rec K V}, r.key = r0.key → r.len cfg inner = r0.len cfg inner := by
    intro r r0 h; simp [Rec.len, h]
  have hil : ∀ i r, recs'[i]? = some r → i < recs'.length := fun i r h => (List.getElem?_eq_some_iff.mp h).1
  refine ⟨?_, h.top_lo, h.top_hi, by rw [hlow]; exact h.lowOk, ?_, ?_, ?_, ?_⟩
  · have := metaOff_le (cfg := cfg) hlen
    have := h.room
    omega
  · intro k hk
    obtain ⟨a, b, c⟩ := h.highOk k hk
    exact ⟨a, b, by rw [hhigh k hk]; exact c⟩
  · intro i r hi
    obtain ⟨r0, a1, a2, a3, a4, a5, a6, a7, a8⟩ := hold i r hi
    have s := h.slot _ _ a1
    exact ⟨a6, by rw [a4, s.klen, a2], by rw [a5, s.rlen, len a2], by rw [a3]; exact s.lo, by rw [a3, len a2]; exact s.hi, a7, a8⟩
  · intro i j r r' hij hi hj
    obtain ⟨r0, a1, a2, a3, -⟩ := hold i r hi
    obtain ⟨r1, b1, b2, b3, -⟩ := hold j r' hj
    rw [a3, b3, len a2, len b2]
    exact h.apart _ _ _ _ (fun e => hij (hinj i j (hil i r hi) (hil j r' hj) e)) a1 b1
  · intro i r k hi hk
    obtain ⟨r0, a1, a2, a3, -⟩ := hold i r hi
    rw [a3, len a2]
    exact h.apartHigh _ _ _ a1 hk

/-- A metadata slot leaves. -/
theorem erase (h : Lay C m inner recs low high blk hoff top) {pos : Nat} (hpos : pos < recs.length) :
    Lay C (m.move (metaOff cfg pos) (metaOff cfg (pos + 1)) (cfg.metaLen * (recs.length - 1 - pos))) inner (delAt recs pos) low high blk
      hoff top := by
  have hroom := h.room
  have h1 := h.top_lo
  have h2 := h.top_hi
  have hbt : ∀ o l, cfg.pageSize ≤ o + blk →
      (m.move (metaOff cfg pos) (metaOff cfg (pos + 1)) (cfg.metaLen * (recs.length - 1 - pos))).bytes o l = m.bytes o l := by
    intro o l ho
    apply Ram.bytes_move_disj
    right
    rw [← metaOff_add]
    have := metaOff_le (cfg := cfg) (show pos + (recs.length - 1 - pos) ≤ recs.length by omega)
    omega
  have hlen : (delAt recs pos).length = recs.length - 1 := by simp [delAt]; omega
  refine h.renew (by omega) (fun i => if i < pos then i else i + 1) ?_ ?_ (hbt _ _ (by omega)) (fun k hk => hbt _ _ (h.highOk k hk).1)
  · intro i j _ _ he
    split at he <;> split at he <;> omega
  · intro i r hi
    have hil := (List.getElem?_eq_some_iff.mp hi).1
    rw [getElem?_delAt hpos] at hi
    have hwd : word cfg (m.move (metaOff cfg pos) (metaOff cfg (pos + 1)) (cfg.metaLen * (recs.length - 1 - pos))) i =
        word cfg m (if i < pos then i else i + 1) := by
      rw [word_dn]
      by_cases c : i < pos
      · rw [if_neg (by omega), if_pos c]
      · rw [if_pos (by omega), if_neg c]
    have hi' : recs[if i < pos then i else i + 1]? = some r := by
      split
      · next c => rw [if_pos c] at hi; exact hi
      · next c => rw [if_neg c] at hi; exact hi
    have s := h.slot _ _ hi'
    exact ⟨r, hi', rfl, by rw [hwd], by rw [hwd], by rw [hwd], by rw [hwd]; exact s.mark, s.fits, by
      rw [hwd, hbt _ _ s.lo]; exact s.bytes⟩

/-- The mark of a record changes. -/
theorem mark (hm : cfg.metaLen = 8) (h : Lay C m inner recs low high blk hoff top) {pos : Nat} {r : Rec K V} (hr : recs[pos]? = some r)
    (b : Bool) :
    Lay C (m.write (metaOff cfg pos) (natBytes cfg.metaLen ((word cfg m pos).setDeleted b).toNat)) inner
      (updAt recs pos { r with del := b }) low high blk hoff top := by
  have hroom := h.room
  have h1 := h.top_lo
  have h2 := h.top_hi
  have hpos : pos < recs.length := (List.getElem?_eq_some_iff.mp hr).1
  have hbt : ∀ o l, cfg.pageSize ≤ o + blk →
      (m.write (metaOff cfg pos) (natBytes cfg.metaLen ((word cfg m pos).setDeleted b).toNat)).bytes o l = m.bytes o l := by
    intro o l ho
    apply Ram.bytes_write_disj
    right
    simp only [natBytes_length]
    have := metaOff_lt (cfg := cfg) hpos
    omega
  have hlen : (updAt recs pos { r with del := b }).length = recs.length := by simp [updAt]; omega
  refine h.renew (by omega) id (fun i j _ _ h => h) ?_ (hbt _ _ (by omega)) (fun k hk => hbt _ _ (h.highOk k hk).1)
  intro i r' hi
  rw [getElem?_updAt hpos] at hi
  simp only [word_write_meta hm, id]
  by_cases c : i = pos
  · subst c
    simp only [if_true] at hi ⊢
    cases hi
    have s := h.slot _ _ hr
    exact ⟨r, hr, rfl, by simp, by simp, by simp, by simp, s.fits, by rw [MetaWord.offset_set, hbt _ _ s.lo]; exact s.bytes⟩
  · simp only [if_neg c] at hi ⊢
    have s := h.slot _ _ hi
    exact ⟨r', hi, rfl, trivial, trivial, trivial, s.mark, s.fits, by rw [hbt _ _ s.lo]; exact s.bytes⟩

/-- The payload of a record changes. -/
theorem setPay (h : Lay C m inner recs low high blk hoff top) {pos : Nat} {r : Rec K V} (hr : recs[pos]? = some r) {p : Pay V}
    (hfit : p.Fits inner) :
    Lay C (m.write ((word cfg m pos).offset + (word cfg m pos).keyLen) (C.pay p)) inner (updAt recs pos { r with pay := p }) low high blk
      hoff top := by
  have hroom := h.room
  have h1 := h.top_lo
  have h2 := h.top_hi
  have hpos : pos < recs.length := (List.getElem?_eq_some_iff.mp hr).1
  have s := h.slot _ _ hr
  have hlp : (C.pay p).length = cfg.plen inner := C.pay_len hfit
  have hlr : r.len cfg inner = cfg.oklen r.key + cfg.plen inner := rfl
  have hlo := s.lo
  have hhi := s.hi
  rw [s.klen]
  have hbt : ∀ o l, o + l ≤ (word cfg m pos).offset ∨ (word cfg m pos).offset + r.len cfg inner ≤ o →
      (m.write ((word cfg m pos).offset + cfg.oklen r.key) (C.pay p)).bytes o l = m.bytes o l := by
    intro o l ho
    apply Ram.bytes_write_disj
    omega
  have hwd : ∀ i, i < recs.length → word cfg (m.write ((word cfg m pos).offset + cfg.oklen r.key) (C.pay p)) i = word cfg m i := by
    intro i hi
    apply word_write_far
    have := metaOff_le (cfg := cfg) (show i + 1 ≤ recs.length from hi)
    omega
  have hlen : (updAt recs pos { r with pay := p }).length = recs.length := by simp [updAt]; omega
  refine h.renew (by omega) id (fun i j _ _ h => h) ?_ (hbt _ _ (Or.inr (by omega))) ?_
  · intro i r' hi
    have hil := (List.getElem?_eq_some_iff.mp hi).1
    rw [getElem?_updAt hpos] at hi
    rw [hwd i (by omega)]
    by_cases c : i = pos
    · subst c
      simp only [if_true] at hi
      cases hi
      refine ⟨r, hr, rfl, rfl, rfl, rfl, s.mark, hfit, ?_⟩
      have hl' : ({ r with pay := p } : Rec K V).len cfg inner = cfg.oklen r.key + cfg.plen inner := rfl
      rw [hl', Ram.bytes_append]
      have hb := s.bytes
      rw [hlr, Ram.bytes_append] at hb
      simp only [Codec.whole] at hb ⊢
      have hb1 := (List.append_inj hb (by simp)).1
      congr 1
      · rw [← hb1]
        exact Ram.bytes_write_disj (Or.inl (by omega))
      · exact Ram.bytes_write_same hlp
    · rw [if_neg c] at hi
      have s' := h.slot _ _ hi
      refine ⟨r', hi, rfl, rfl, rfl, rfl, s'.mark, s'.fits, ?_⟩
      rw [hbt _ _ (h.apart i pos r' r c hi hr)]
      exact s'.bytes
  · intro k hk
    rcases h.apartHigh pos r k hr hk with e | e
    · exact hbt _ _ (Or.inr e)
    · exact hbt _ _ (Or.inl e)

end Lay
end BT
