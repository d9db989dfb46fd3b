import Verif.FixBytes

/-!
# The fixed-length page: bytes against record lists

`FixRep C g n`: the bytes of page `g` hold the records of the list-level page `n`.
-/

set_option linter.unusedSectionVars false

namespace BT
variable {K V : Type} [LinearOrder K] {cfg : Cfg K} {C : Codec cfg V}

namespace FixPage

/-- The bytes of `keys_[i]`. -/
def kc (cfg : Cfg K) (m : Ram) (i : Nat) : List Byte := m.bytes (keyOff cfg i) cfg.maxKeyLen

/-- The bytes of the `i`-th payload of `w` bytes. -/
def pc (cfg : Cfg K) (w : Nat) (m : Ram) (i : Nat) : List Byte := m.bytes (cfg.pageSize - w * (i + 1)) w

theorem keyOff_le {i j : Nat} (h : i ≤ j) : keyOff cfg i ≤ keyOff cfg j := by
  have := Nat.mul_le_mul_left cfg.maxKeyLen h
  simp only [keyOff]; omega

theorem keyOff_succ (i : Nat) : keyOff cfg (i + 1) = keyOff cfg i + cfg.maxKeyLen := by
  simp only [keyOff, Nat.mul_succ]; omega

theorem keyOff_add (i t : Nat) : keyOff cfg (i + t) = keyOff cfg i + cfg.maxKeyLen * t := by
  simp only [keyOff, Nat.mul_add]; omega

theorem keyOff_lt {i j : Nat} (h : i < j) : keyOff cfg i + cfg.maxKeyLen ≤ keyOff cfg j := by
  rw [← keyOff_succ]; exact keyOff_le h

theorem hdr_le (i : Nat) : cfg.headerLen ≤ keyOff cfg i := by simp only [keyOff]; omega

theorem kc_up (m : Ram) (p t i : Nat) : kc cfg (m.move (keyOff cfg (p + 1)) (keyOff cfg p) (cfg.maxKeyLen * t)) i
    = if p < i ∧ i ≤ p + t then kc cfg m (i - 1) else kc cfg m i := by
  have e1 := keyOff_add (cfg := cfg) (p + 1) t
  simp only [kc]
  split
  · next h =>
    obtain ⟨j, rfl⟩ : ∃ j, i = j + 1 := ⟨i - 1, by omega⟩
    have h1 := keyOff_le (cfg := cfg) (show p + 1 ≤ j + 1 by omega)
    have h2 := keyOff_lt (cfg := cfg) (show j + 1 < p + 1 + t by omega)
    rw [Ram.bytes_move_in h1 (by omega)]
    congr 1
    have h3 := keyOff_succ (cfg := cfg) p
    have h4 := keyOff_succ (cfg := cfg) j
    have : j + 1 - 1 = j := rfl
    rw [this]
    omega
  · next h =>
    apply Ram.bytes_move_disj
    by_cases h1 : i ≤ p
    · left; exact keyOff_lt (by omega)
    · right
      rw [← e1]
      exact keyOff_le (by omega)

theorem kc_dn (m : Ram) (p t i : Nat) : kc cfg (m.move (keyOff cfg p) (keyOff cfg (p + 1)) (cfg.maxKeyLen * t)) i
    = if p ≤ i ∧ i < p + t then kc cfg m (i + 1) else kc cfg m i := by
  have e1 := keyOff_add (cfg := cfg) p t
  simp only [kc]
  split
  · next h =>
    have h1 := keyOff_le (cfg := cfg) (show p ≤ i by omega)
    have h2 := keyOff_lt (cfg := cfg) (show i < p + t by omega)
    rw [Ram.bytes_move_in h1 (by omega)]
    congr 1
    have h3 := keyOff_succ (cfg := cfg) p
    have h4 := keyOff_succ (cfg := cfg) i
    omega
  · next h =>
    apply Ram.bytes_move_disj
    by_cases h1 : i < p
    · left; exact keyOff_lt h1
    · right
      rw [← e1]
      exact keyOff_le (by omega)

theorem kc_wr (m : Ram) (p i : Nat) {bs : List Byte} (hb : bs.length = cfg.maxKeyLen) :
    kc cfg (m.write (keyOff cfg p) bs) i = if i = p then bs else kc cfg m i := by
  simp only [kc]
  split
  · next h => subst h; exact Ram.bytes_write_same hb
  · next h =>
    apply Ram.bytes_write_disj
    rw [hb]
    rcases Nat.lt_or_ge i p with h1 | h1
    · left; exact keyOff_lt h1
    · right; exact keyOff_lt (by omega)

theorem pc_up (m : Ram) (w pos t i : Nat) (hP : w * (pos + t + 1) ≤ cfg.pageSize) (hi : i ≤ pos + t) :
    pc cfg w (m.move (cfg.pageSize - w * (pos + t) - w) (cfg.pageSize - w * (pos + t)) (w * t)) i
    = if pos < i then pc cfg w m (i - 1) else pc cfg w m i := by
  have e0 := Nat.mul_add_one w (pos + t)
  have e1 := Nat.mul_add w pos t
  simp only [pc]
  rw [e0] at hP
  split
  · next h =>
    obtain ⟨j, rfl⟩ : ∃ j, i = j + 1 := ⟨i - 1, by omega⟩
    have a1 := Nat.mul_le_mul_left w (show j + 1 ≤ pos + t by omega)
    have a2 := Nat.mul_le_mul_left w (show pos + 1 ≤ j + 1 by omega)
    have a3 := Nat.mul_add_one w (j + 1)
    have a4 := Nat.mul_add_one w pos
    have : j + 1 - 1 = j := rfl
    rw [this]
    rw [Ram.bytes_move_in (by omega) (by omega)]
    congr 1
    omega
  · next h =>
    apply Ram.bytes_move_disj
    right
    have a1 := Nat.mul_le_mul_left w (show i + 1 ≤ pos + 1 by omega)
    have a2 := Nat.mul_add_one w pos
    omega

theorem pc_dn (m : Ram) (w pos t i : Nat) (hP : w * (pos + t + 1) ≤ cfg.pageSize) (hi : i < pos + t) :
    pc cfg w (m.move (cfg.pageSize - w * (pos + t + 1) + w) (cfg.pageSize - w * (pos + t + 1)) (w * t)) i
    = if pos ≤ i then pc cfg w m (i + 1) else pc cfg w m i := by
  have e0 := Nat.mul_add_one w (pos + t)
  have e1 := Nat.mul_add w pos t
  simp only [pc]
  rw [e0] at hP ⊢
  split
  · next h =>
    have a1 := Nat.mul_le_mul_left w (show i + 1 ≤ pos + t by omega)
    have a2 := Nat.mul_le_mul_left w (show pos + 1 ≤ i + 1 by omega)
    have a3 := Nat.mul_add_one w (i + 1)
    have a4 := Nat.mul_add_one w pos
    rw [Ram.bytes_move_in (by omega) (by omega)]
    congr 1
    omega
  · next h =>
    apply Ram.bytes_move_disj
    right
    have a1 := Nat.mul_le_mul_left w (show i + 1 ≤ pos by omega)
    omega

theorem pc_wr (m : Ram) (w p i : Nat) {bs : List Byte} (hb : bs.length = w) (hp : w * (p + 1) ≤ cfg.pageSize)
    (hi : w * (i + 1) ≤ cfg.pageSize) :
    pc cfg w (m.write (cfg.pageSize - w * (p + 1)) bs) i = if i = p then bs else pc cfg w m i := by
  simp only [pc]
  split
  · next h => subst h; exact Ram.bytes_write_same hb
  · next h =>
    apply Ram.bytes_write_disj
    rw [hb]
    have a3 := Nat.mul_add_one w (i + 1)
    have a4 := Nat.mul_add_one w (p + 1)
    rcases Nat.lt_or_ge i p with h1 | h1
    · right
      have a1 := Nat.mul_le_mul_left w (show i + 1 + 1 ≤ p + 1 by omega)
      omega
    · left
      have a1 := Nat.mul_le_mul_left w (show p + 1 + 1 ≤ i + 1 by omega)
      omega

/-- A key cell below the payloads does not see a write or move in the payload area. -/
theorem kc_above_wr (m : Ram) {off : Nat} {bs : List Byte} {i : Nat} (h : keyOff cfg (i + 1) ≤ off) :
    kc cfg (m.write off bs) i = kc cfg m i := by
  rw [keyOff_succ] at h
  exact Ram.bytes_write_disj (Or.inl h)

theorem kc_above_mv (m : Ram) {dst src len : Nat} {i : Nat} (h : keyOff cfg (i + 1) ≤ dst) :
    kc cfg (m.move dst src len) i = kc cfg m i := by
  rw [keyOff_succ] at h
  exact Ram.bytes_move_disj (Or.inl h)

theorem pc_below_wr (m : Ram) {w off : Nat} {bs : List Byte} {i : Nat} (h : off + bs.length ≤ cfg.pageSize - w * (i + 1)) :
    pc cfg w (m.write off bs) i = pc cfg w m i := Ram.bytes_write_disj (Or.inr h)

theorem pc_below_mv (m : Ram) {w dst src len : Nat} {i : Nat} (h : dst + len ≤ cfg.pageSize - w * (i + 1)) :
    pc cfg w (m.move dst src len) i = pc cfg w m i := Ram.bytes_move_disj (Or.inr h)

end FixPage

/-- The bytes of `g` hold the list-level page `n`. -/
structure FixRep (C : Codec cfg V) (g : FixPage) (n : Node K V) : Prop where
  inner : g.inner = n.isInner
  removed : g.removed = n.removed
  count : g.count = n.recs.length
  payLen : g.payLen = cfg.plen n.isInner
  blk : g.blk = cfg.plen n.isInner * n.recs.length
  block : n.block = g.blk
  next : g.next = n.next
  hasLow : g.hasLow = n.low.isSome
  hasHigh : g.hasHigh = n.high.isSome
  fits : FixPage.keyOff cfg (n.recs.length + n.borders) + cfg.plen n.isInner * n.recs.length ≤ cfg.pageSize
  keys : ∀ i k, n.keyArray[i]? = some (some k) → FixPage.kc cfg g.mem i = C.key k
  pays : ∀ i r, n.recs[i]? = some r → FixPage.pc cfg (cfg.plen n.isInner) g.mem i = C.pay r.pay
  kinds : ∀ r ∈ n.recs, r.pay.Fits n.isInner
  live : ∀ r ∈ n.recs, r.del = false

theorem getElem?_insAt {α : Type} {l : List α} {p : Nat} (hp : p ≤ l.length) (x : α) (i : Nat) :
    (insAt l p x)[i]? = if i < p then l[i]? else if i = p then some x else l[i - 1]? := by
  simp only [insAt, List.getElem?_append, List.length_take, Nat.min_eq_left hp]
  split
  · next h => rw [List.getElem?_take, if_pos h]
  · next h =>
    split
    · next h2 => simp [h2]
    · next h2 =>
      obtain ⟨j, hj⟩ : ∃ j, i - p = j + 1 := ⟨i - p - 1, by omega⟩
      rw [hj, List.getElem?_cons_succ, List.getElem?_drop]
      congr 1
      omega

theorem getElem?_delAt {α : Type} {l : List α} {p : Nat} (hp : p < l.length) (i : Nat) :
    (delAt l p)[i]? = if i < p then l[i]? else l[i + 1]? := by
  simp only [delAt, List.getElem?_append, List.length_take, Nat.min_eq_left hp.le]
  split
  · next h => rw [List.getElem?_take, if_pos h]
  · next h =>
    rw [List.getElem?_drop]
    congr 1
    omega

theorem getElem?_updAt {α : Type} {l : List α} {p : Nat} (hp : p < l.length) (x : α) (i : Nat) :
    (updAt l p x)[i]? = if i = p then some x else l[i]? := by
  simp only [updAt, List.getElem?_append, List.length_take, Nat.min_eq_left hp.le]
  split
  · next h => rw [List.getElem?_take, if_pos h, if_neg (by omega)]
  · next h =>
    split
    · next h2 => simp [h2]
    · next h2 =>
      obtain ⟨j, hj⟩ : ∃ j, i - p = j + 1 := ⟨i - p - 1, by omega⟩
      rw [hj, List.getElem?_cons_succ, List.getElem?_drop]
      congr 1
      omega

namespace Node
variable {n : Node K V}

/-- The border keys as they stand behind the slot keys. -/
def tailKeys (n : Node K V) : List (Option K) :=
  (if n.high.isSome then [n.high] else []) ++ (if n.low.isSome then [n.low] else [])

theorem keyArray_eq (n : Node K V) : n.keyArray = n.recs.map Rec.key ++ n.tailKeys := by
  simp [keyArray, tailKeys]

theorem tailKeys_length (n : Node K V) : n.tailKeys.length = n.borders := by
  simp only [tailKeys, borders, List.length_append]
  cases n.high <;> cases n.low <;> simp

theorem keyArray_length (n : Node K V) : n.keyArray.length = n.recs.length + n.borders := by
  rw [keyArray_eq]; simp [tailKeys_length]

end Node

namespace FixPage
variable {g : FixPage}

theorem rd_ok {off len : Nat} (h1 : cfg.headerLen ≤ off) (h2 : off + len ≤ cfg.pageSize) : g.rd cfg off len = .ok (g.mem.bytes off len) :=
  if_pos ⟨h1, h2⟩

theorem wr_ok {off : Nat} {bs : List Byte} (h1 : cfg.headerLen ≤ off) (h2 : off + bs.length ≤ cfg.pageSize) :
    g.wr cfg off bs = .ok { g with mem := g.mem.write off bs } := if_pos ⟨h1, h2⟩

theorem mv_ok {dst src len : Nat} (h1 : cfg.headerLen ≤ dst) (h2 : dst + len ≤ cfg.pageSize) (h3 : cfg.headerLen ≤ src)
    (h4 : src + len ≤ cfg.pageSize) : g.mv cfg dst src len = .ok { g with mem := g.mem.move dst src len } := if_pos ⟨h1, h2, h3, h4⟩

theorem rdKey_ok {i : Nat} (h : keyOff cfg (i + 1) ≤ cfg.pageSize) : g.rdKey cfg i = .ok (kc cfg g.mem i) :=
  rd_ok (hdr_le i) (by rw [keyOff_succ] at h; exact h)

theorem wrKey_ok {i : Nat} {bs : List Byte} (hb : bs.length = cfg.maxKeyLen) (h : keyOff cfg (i + 1) ≤ cfg.pageSize) :
    g.wrKey cfg i bs = .ok { g with mem := g.mem.write (keyOff cfg i) bs } :=
  wr_ok (hdr_le i) (by rw [keyOff_succ] at h; rw [hb]; exact h)

end FixPage

theorem Codec.key_len_fix (C : Codec cfg V) (hf : cfg.layout = .fix) (k : K) : (C.key k).length = cfg.maxKeyLen := by
  rw [C.key_len]; simp [Cfg.klen, hf]

namespace FixRep
open FixPage
variable {g : FixPage} {n n' : Node K V}

theorem borders (h : FixRep C g n) : g.borders = n.borders := by
  simp only [FixPage.borders, Node.borders, h.hasLow, h.hasHigh]
  cases n.low <;> cases n.high <;> rfl

theorem keyArray_ins {pos : Nat} {r : Rec K V} {b : Nat} (hp : pos ≤ n.recs.length) :
    ({ n with recs := insAt n.recs pos r, block := b } : Node K V).keyArray = insAt n.keyArray pos r.key := by
  simp only [Node.keyArray_eq, Node.tailKeys, insAt, List.map_append, List.map_cons, List.map_take, List.map_drop]
  rw [List.take_append_of_le_length (by simpa using hp), List.drop_append_of_le_length (by simpa using hp)]
  simp

/-- The two array shifts of an insertion, in either order. -/
theorem ins_cells {m : Ram} {c b w pos : Nat} {key pay : List Byte} (hk : key.length = cfg.maxKeyLen) (hw : pay.length = w)
    (hpos : pos ≤ c) (hfit : keyOff cfg (c + b + 1) + w * (c + 1) ≤ cfg.pageSize) (m' : Ram)
    (hm : m' = (((m.move (keyOff cfg (pos + 1)) (keyOff cfg pos) (cfg.maxKeyLen * (c - pos + b))).write (keyOff cfg pos) key).move
        (cfg.pageSize - w * c - w) (cfg.pageSize - w * c) (w * (c - pos))).write (cfg.pageSize - w * (pos + 1)) pay) :
    (∀ i, i ≤ c + b → kc cfg m' i = if i < pos then kc cfg m i else if i = pos then key else kc cfg m (i - 1)) ∧
    (∀ i, i ≤ c → pc cfg w m' i = if i < pos then pc cfg w m i else if i = pos then pay else pc cfg w m (i - 1)) := by
  obtain ⟨t, rfl⟩ : ∃ t, c = pos + t := ⟨c - pos, by omega⟩
  have e0 := Nat.mul_add_one w (pos + t)
  have e1 := Nat.mul_add w pos t
  have e2 := Nat.mul_add_one w pos
  have et : pos + t - pos = t := by omega
  rw [et] at hm
  subst hm
  constructor
  · intro i hi
    have h1 := keyOff_le (cfg := cfg) (show i + 1 ≤ pos + t + b + 1 by omega)
    rw [kc_above_wr _ (by omega), kc_above_mv _ (by omega), kc_wr _ _ _ hk, kc_up]
    by_cases c1 : i < pos
    · rw [if_neg (by omega), if_neg (by omega), if_pos c1]
    · rw [if_neg c1]
      by_cases c2 : i = pos
      · rw [if_pos c2, if_pos c2]
      · rw [if_neg c2, if_neg c2, if_pos (by omega)]
  · intro i hi
    have a1 := Nat.mul_le_mul_left w (show i + 1 ≤ pos + t + 1 by omega)
    have low : ∀ j, j < pos + t → pc cfg w ((m.move (keyOff cfg (pos + 1)) (keyOff cfg pos) (cfg.maxKeyLen * (t + b))).write
        (keyOff cfg pos) key) j = pc cfg w m j := by
      intro j hj
      have a2 := Nat.mul_le_mul_left w (show j + 1 ≤ pos + t by omega)
      have a3 := keyOff_le (cfg := cfg) (show pos + 1 ≤ pos + t + b + 1 by omega)
      have a4 := keyOff_succ (cfg := cfg) pos
      have a5 := keyOff_add (cfg := cfg) (pos + 1) (t + b)
      have a6 : pos + 1 + (t + b) = pos + t + b + 1 := by omega
      rw [a6] at a5
      rw [pc_below_wr _ (by rw [hk]; omega), pc_below_mv _ (by omega)]
    rw [pc_wr _ _ _ _ hw (by omega) (by omega)]
    by_cases c2 : i = pos
    · rw [if_pos c2, if_neg (by omega), if_pos c2]
    · rw [if_neg c2, pc_up _ _ _ _ _ (by omega) (by omega)]
      by_cases c1 : i < pos
      · rw [if_neg (by omega), if_pos c1, low _ (by omega)]
      · rw [if_pos (by omega), if_neg c1, if_neg c2, low _ (by omega)]

/-- What an insertion of a record does to the representation, whatever the way the bytes were moved. -/
theorem ins_rep (h : FixRep C g n) {k : K} {pay : Pay V} {pos : Nat} (hpos : pos ≤ n.recs.length)
    (hpay : pay.Fits n.isInner)
    (hfit : keyOff cfg (n.recs.length + n.borders + 1) + cfg.plen n.isInner * (n.recs.length + 1) ≤ cfg.pageSize) {m' : Ram}
    (hk : ∀ i, i ≤ n.recs.length + n.borders →
      kc cfg m' i = if i < pos then kc cfg g.mem i else if i = pos then C.key k else kc cfg g.mem (i - 1))
    (hp : ∀ i, i ≤ n.recs.length → pc cfg (cfg.plen n.isInner) m' i = if i < pos then pc cfg (cfg.plen n.isInner) g.mem i
      else if i = pos then C.pay pay else pc cfg (cfg.plen n.isInner) g.mem (i - 1)) :
    FixRep C { g with mem := m', count := g.count + 1, blk := g.blk + cfg.plen n.isInner }
      { n with recs := insAt n.recs pos ⟨some k, pay, false⟩, block := n.block + cfg.plen n.isInner } := by
  have hlen : (insAt n.recs pos (⟨some k, pay, false⟩ : Rec K V)).length = n.recs.length + 1 := by
    simp [insAt]; omega
  have hmem : ∀ r, r ∈ insAt n.recs pos (⟨some k, pay, false⟩ : Rec K V) → r = ⟨some k, pay, false⟩ ∨ r ∈ n.recs := by
    intro r hr
    simp only [insAt, List.mem_append, List.mem_cons] at hr
    rcases hr with hr | hr | hr
    · exact Or.inr (List.mem_of_mem_take hr)
    · exact Or.inl hr
    · exact Or.inr (List.mem_of_mem_drop hr)
  refine ⟨h.inner, h.removed, ?_, h.payLen, ?_, ?_, h.next, h.hasLow, h.hasHigh, ?_, ?_, ?_, ?_, ?_⟩
  · simp only [hlen, h.count]
  · simp only [hlen, h.blk, Nat.mul_add_one]
  · simp only [h.block]
  · simp only [hlen]
    have e : n.recs.length + 1 + n.borders = n.recs.length + n.borders + 1 := by omega
    have e' : ({ n with recs := insAt n.recs pos ⟨some k, pay, false⟩, block := n.block + cfg.plen n.isInner } : Node K V).borders
      = n.borders := rfl
    rw [e', e]
    exact hfit
  · intro i k' hi
    rw [keyArray_ins hpos] at hi
    have hil : i < n.recs.length + n.borders + 1 := by
      have := (List.getElem?_eq_some_iff.1 hi).1
      have e : (insAt n.keyArray pos (some k)).length = n.keyArray.length + 1 := by
        have := n.keyArray_length
        simp [insAt]; omega
      rw [e, Node.keyArray_length] at this
      exact this
    rw [getElem?_insAt (by rw [Node.keyArray_length]; omega)] at hi
    dsimp only at hi ⊢
    rw [hk i (by omega)]
    by_cases c1 : i < pos
    · rw [if_pos c1] at hi ⊢; exact h.keys i k' hi
    · rw [if_neg c1] at hi ⊢
      by_cases c2 : i = pos
      · rw [if_pos c2] at hi ⊢
        simp only [Option.some.injEq] at hi
        rw [hi]
      · rw [if_neg c2] at hi ⊢
        exact h.keys (i - 1) k' hi
  · intro i r hi
    dsimp only at hi ⊢
    have hil := (List.getElem?_eq_some_iff.1 hi).1
    rw [hlen] at hil
    rw [getElem?_insAt hpos] at hi
    rw [hp i (by omega)]
    by_cases c1 : i < pos
    · rw [if_pos c1] at hi ⊢; exact h.pays i r hi
    · rw [if_neg c1] at hi ⊢
      by_cases c2 : i = pos
      · rw [if_pos c2] at hi ⊢
        simp only [Option.some.injEq] at hi
        rw [← hi]
      · rw [if_neg c2] at hi ⊢
        exact h.pays (i - 1) r hi
  · intro r hr
    rcases hmem r hr with rfl | hr
    · exact hpay
    · exact h.kinds r hr
  · intro r hr
    rcases hmem r hr with rfl | hr
    · rfl
    · exact h.live r hr

theorem insertRecord_fit (hf : cfg.layout = .fix) (h : FixRep C g n) {k : K} {pay : Pay V} {pos : Nat}
    (hn : n.insertRecord cfg k pay pos = .ok n') :
    keyOff cfg (n.recs.length + n.borders + 1) + cfg.plen n.isInner * (n.recs.length + 1) ≤ cfg.pageSize ∧
    n' = { n with recs := insAt n.recs pos ⟨some k, pay, false⟩, block := n.block + cfg.plen n.isInner } := by
  have hfit := h.fits
  have hhdr := hdr_le (cfg := cfg) (n.recs.length + n.borders)
  simp only [Node.insertRecord, hf, Node.fitsOne, decide_eq_true_eq, Node.rc] at hn
  split at hn
  · next hc =>
    simp only [Res.ok.injEq] at hn
    refine ⟨?_, hn.symm⟩
    rw [h.block, h.blk] at hc
    simp only [Cfg.cap] at hc
    rw [keyOff_succ, Nat.mul_add_one]
    have := hdr_le (cfg := cfg) 0
    simp only [keyOff] at hfit hhdr ⊢
    omega
  · cases hn

/-- `InsertRecord` on the bytes does what it does on the list. -/
theorem insertRecord (hf : cfg.layout = .fix) (h : FixRep C g n) {k : K} {pay : Pay V} {pos : Nat} (hpos : pos ≤ n.recs.length)
    (hpay : pay.Fits n.isInner) (hn : n.insertRecord cfg k pay pos = .ok n') :
    ∃ g', g.insertRecord cfg (C.key k) (C.pay pay) pos = .ok g' ∧ FixRep C g' n' := by
  obtain ⟨hfit, rfl⟩ := h.insertRecord_fit hf hn
  have hkl := C.key_len_fix hf k
  have hpl := C.pay_len hpay
  obtain ⟨hk, hp⟩ := ins_cells (m := g.mem) (pos := pos) hkl hpl hpos hfit _ rfl
  refine ⟨_, ?_, h.ins_rep hpos hpay hfit hk hp⟩
  have e0 := Nat.mul_add_one (cfg.plen n.isInner) n.recs.length
  have e1 := Nat.mul_add_one (cfg.plen n.isInner) pos
  have e2 := Nat.mul_add (cfg.plen n.isInner) pos (n.recs.length - pos)
  have e3 : pos + (n.recs.length - pos) = n.recs.length := by omega
  rw [e3] at e2
  have k1 := keyOff_add (cfg := cfg) (pos + 1) (n.recs.length - pos + n.borders)
  have k2 := keyOff_succ (cfg := cfg) pos
  have k3 := keyOff_le (cfg := cfg) (show pos + 1 ≤ n.recs.length + n.borders + 1 by omega)
  have k4 : pos + 1 + (n.recs.length - pos + n.borders) = n.recs.length + n.borders + 1 := by omega
  have k5 := hdr_le (cfg := cfg) pos
  have k6 := hdr_le (cfg := cfg) (n.recs.length + n.borders + 1)
  rw [k4] at k1
  unfold FixPage.insertRecord
  rw [usub_ok (by rw [h.count]; exact hpos)]
  simp only [Res.ok_bind]
  rw [mv_ok (by omega) (by rw [h.borders, h.count]; omega) (by omega) (by rw [h.borders, h.count]; omega)]
  simp only [Res.ok_bind]
  rw [wrKey_ok hkl (by omega)]
  simp only [Res.ok_bind]
  rw [usub_ok (by rw [h.blk]; omega)]
  simp only [Res.ok_bind]
  rw [usub_ok (by rw [h.blk, h.payLen]; omega)]
  simp only [Res.ok_bind]
  rw [mv_ok (by rw [h.blk, h.payLen]; omega) (by rw [h.blk, h.payLen, h.count]; omega) (by rw [h.blk]; omega)
    (by rw [h.blk, h.payLen, h.count]; omega)]
  simp only [Res.ok_bind, FixPage.setPayload]
  rw [usub_ok (by rw [h.blk, h.payLen, h.count]; omega)]
  simp only [Res.ok_bind]
  rw [wr_ok (by rw [h.blk, h.payLen, h.count]; omega) (by rw [hpl, h.blk, h.payLen, h.count]; omega)]
  have e4 : cfg.pageSize - cfg.plen n.isInner * n.recs.length + cfg.plen n.isInner * (n.recs.length - pos) - cfg.plen n.isInner
    = cfg.pageSize - cfg.plen n.isInner * (pos + 1) := by omega
  simp only [Res.ok_bind, Res.pure_eq, h.count, h.borders, h.blk, h.payLen, e4]

/-- `ins_cells` for the order of `InsertChild`: payloads first. -/
theorem ins_cells' {m : Ram} {c b w pos : Nat} {key pay : List Byte} (hk : key.length = cfg.maxKeyLen) (hw : pay.length = w)
    (hpos : pos ≤ c) (hfit : keyOff cfg (c + b + 1) + w * (c + 1) ≤ cfg.pageSize) (m' : Ram)
    (hm : m' = (((m.move (cfg.pageSize - w * c - w) (cfg.pageSize - w * c) (w * (c - pos))).write (cfg.pageSize - w * (pos + 1)) pay).move
        (keyOff cfg (pos + 1)) (keyOff cfg pos) (cfg.maxKeyLen * (c - pos + b))).write (keyOff cfg pos) key) :
    (∀ i, i ≤ c + b → kc cfg m' i = if i < pos then kc cfg m i else if i = pos then key else kc cfg m (i - 1)) ∧
    (∀ i, i ≤ c → pc cfg w m' i = if i < pos then pc cfg w m i else if i = pos then pay else pc cfg w m (i - 1)) := by
  obtain ⟨t, rfl⟩ : ∃ t, c = pos + t := ⟨c - pos, by omega⟩
  have e0 := Nat.mul_add_one w (pos + t)
  have e1 := Nat.mul_add w pos t
  have e2 := Nat.mul_add_one w pos
  have et : pos + t - pos = t := by omega
  rw [et] at hm
  subst hm
  constructor
  · intro i hi
    have low : ∀ j, j ≤ pos + t + b → kc cfg ((m.move (cfg.pageSize - w * (pos + t) - w) (cfg.pageSize - w * (pos + t)) (w * t)).write
        (cfg.pageSize - w * (pos + 1)) pay) j = kc cfg m j := by
      intro j hj
      have h1 := keyOff_le (cfg := cfg) (show j + 1 ≤ pos + t + b + 1 by omega)
      rw [kc_above_wr _ (by omega), kc_above_mv _ (by omega)]
    rw [kc_wr _ _ _ hk, kc_up]
    by_cases c1 : i < pos
    · rw [if_neg (by omega), if_neg (by omega), if_pos c1, low _ hi]
    · rw [if_neg c1]
      by_cases c2 : i = pos
      · rw [if_pos c2, if_pos c2]
      · rw [if_neg c2, if_neg c2, if_pos (by omega), low _ (by omega)]
  · intro i hi
    have a1 := Nat.mul_le_mul_left w (show i + 1 ≤ pos + t + 1 by omega)
    have a3 := keyOff_le (cfg := cfg) (show pos + 1 ≤ pos + t + b + 1 by omega)
    have a4 := keyOff_succ (cfg := cfg) pos
    have a5 := keyOff_add (cfg := cfg) (pos + 1) (t + b)
    have a6 : pos + 1 + (t + b) = pos + t + b + 1 := by omega
    rw [a6] at a5
    rw [pc_below_wr _ (by rw [hk]; omega), pc_below_mv _ (by omega), pc_wr _ _ _ _ hw (by omega) (by omega)]
    by_cases c2 : i = pos
    · rw [if_pos c2, if_neg (by omega), if_pos c2]
    · rw [if_neg c2, pc_up _ _ _ _ _ (by omega) (by omega)]
      by_cases c1 : i < pos
      · rw [if_neg (by omega), if_pos c1]
      · rw [if_pos (by omega), if_neg c1, if_neg c2]

/-- `InsertChild` on the bytes does what it does on the list. -/
theorem insertChild (hf : cfg.layout = .fix) (h : FixRep C g n) {k : K} {q : Ptr} {pos : Nat} (hpos : pos < n.recs.length)
    (hin : n.isInner = true) (hn : n.placeChild cfg (some k) q pos = .ok n') :
    ∃ g', g.insertChild cfg (C.key k) (C.pay (.ptr q)) pos = .ok g' ∧ FixRep C g' n' := by
  simp only [Node.placeChild] at hn
  have hpay : (Pay.ptr q : Pay V).Fits n.isInner := hin
  obtain ⟨hfit, rfl⟩ := h.insertRecord_fit hf hn
  have hkl := C.key_len_fix hf k
  have hpl := C.pay_len hpay
  have hw : cfg.plen n.isInner = cfg.ptrLen := by simp [Cfg.plen, hin]
  obtain ⟨hk, hp⟩ := ins_cells' (m := g.mem) (pos := pos + 1) hkl hpl (by omega) hfit _ rfl
  refine ⟨_, ?_, h.ins_rep (by omega) hpay hfit hk hp⟩
  have e0 := Nat.mul_add_one (cfg.plen n.isInner) n.recs.length
  have e1 := Nat.mul_add_one (cfg.plen n.isInner) (pos + 1)
  have e2 := Nat.mul_add (cfg.plen n.isInner) (pos + 1) (n.recs.length - (pos + 1))
  have e3 : pos + 1 + (n.recs.length - (pos + 1)) = n.recs.length := by omega
  rw [e3] at e2
  have k1 := keyOff_add (cfg := cfg) (pos + 1 + 1) (n.recs.length - (pos + 1) + n.borders)
  have k2 := keyOff_succ (cfg := cfg) (pos + 1)
  have k3 := keyOff_le (cfg := cfg) (show pos + 1 + 1 ≤ n.recs.length + n.borders + 1 by omega)
  have k4 : pos + 1 + 1 + (n.recs.length - (pos + 1) + n.borders) = n.recs.length + n.borders + 1 := by omega
  have k5 := hdr_le (cfg := cfg) (pos + 1)
  have k6 := hdr_le (cfg := cfg) (n.recs.length + n.borders + 1)
  rw [k4] at k1
  have e5 : n.recs.length - 1 - pos = n.recs.length - (pos + 1) := by omega
  unfold FixPage.insertChild
  rw [usub_ok (by rw [h.count]; omega)]
  simp only [Res.ok_bind]
  rw [usub_ok (by rw [h.blk]; omega)]
  simp only [Res.ok_bind, ← hw]
  rw [usub_ok (by rw [h.blk]; omega)]
  simp only [Res.ok_bind]
  rw [mv_ok (by rw [h.blk]; omega) (by rw [h.blk, h.count, e5]; omega) (by rw [h.blk]; omega)
    (by rw [h.blk, h.count, e5]; omega)]
  simp only [Res.ok_bind, FixPage.setPayload]
  rw [usub_ok (by rw [h.blk, h.payLen, h.count, e5]; omega)]
  simp only [Res.ok_bind]
  rw [wr_ok (by rw [h.blk, h.payLen, h.count, e5]; omega) (by rw [hpl, h.blk, h.payLen, h.count, e5]; omega)]
  simp only [Res.ok_bind, Res.pure_eq]
  have hb : ∀ m : Ram, FixPage.borders { g with mem := m } = n.borders := fun m => h.borders
  have k7 : pos + 2 = pos + 1 + 1 := rfl
  rw [k7, mv_ok (by omega) (by rw [hb, h.count, e5]; omega) (by omega) (by rw [hb, h.count, e5]; omega)]
  simp only [Res.ok_bind]
  rw [wrKey_ok hkl (by omega)]
  have e4 : cfg.pageSize - cfg.plen n.isInner * n.recs.length + cfg.plen n.isInner * (n.recs.length - (pos + 1)) - cfg.plen n.isInner
    = cfg.pageSize - cfg.plen n.isInner * (pos + 1 + 1) := by omega
  simp only [Res.ok_bind, hb]
  simp only [h.count, h.blk, h.payLen, e5, e4]

theorem keyArray_del {pos : Nat} {b : Nat} (hp : pos < n.recs.length) :
    ({ n with recs := delAt n.recs pos, block := b } : Node K V).keyArray = delAt n.keyArray pos := by
  simp only [Node.keyArray_eq, Node.tailKeys, delAt, List.map_append, List.map_take, List.map_drop]
  rw [List.take_append_of_le_length (by simp; omega), List.drop_append_of_le_length (by simp; omega)]
  simp

/-- The two array shifts of a removal. -/
theorem del_cells {m : Ram} {c b w pos : Nat} (hpos : pos < c) (hfit : keyOff cfg (c + b) + w * c ≤ cfg.pageSize) (m' : Ram)
    (hm : m' = (m.move (keyOff cfg pos) (keyOff cfg (pos + 1)) (cfg.maxKeyLen * (c - 1 - pos + b))).move
        (cfg.pageSize - w * c + w) (cfg.pageSize - w * c) (w * (c - 1 - pos))) :
    (∀ i, i + 1 < c + b → kc cfg m' i = if i < pos then kc cfg m i else kc cfg m (i + 1)) ∧
    (∀ i, i + 1 < c → pc cfg w m' i = if i < pos then pc cfg w m i else pc cfg w m (i + 1)) := by
  obtain ⟨t, rfl⟩ : ∃ t, c = pos + t + 1 := ⟨c - pos - 1, by omega⟩
  have e0 := Nat.mul_add_one w (pos + t)
  have e1 := Nat.mul_add w pos t
  have et : pos + t + 1 - 1 - pos = t := by omega
  rw [et] at hm
  subst hm
  constructor
  · intro i hi
    have h1 := keyOff_le (cfg := cfg) (show i + 1 ≤ pos + t + 1 + b by omega)
    rw [kc_above_mv _ (by omega), kc_dn]
    by_cases c1 : i < pos
    · rw [if_neg (by omega), if_pos c1]
    · rw [if_neg c1, if_pos (by omega)]
  · intro i hi
    have low : ∀ j, j < pos + t + 1 → pc cfg w (m.move (keyOff cfg pos) (keyOff cfg (pos + 1)) (cfg.maxKeyLen * (t + b))) j
        = pc cfg w m j := by
      intro j hj
      have a2 := Nat.mul_le_mul_left w (show j + 1 ≤ pos + t + 1 by omega)
      have a3 := keyOff_le (cfg := cfg) (show pos + (t + b) ≤ pos + t + 1 + b by omega)
      have a5 := keyOff_add (cfg := cfg) pos (t + b)
      rw [pc_below_mv _ (by omega)]
    rw [pc_dn _ _ _ _ _ (by omega) (by omega)]
    by_cases c1 : i < pos
    · rw [if_neg (by omega), if_pos c1, low _ (by omega)]
    · rw [if_pos (by omega), if_neg c1, low _ (by omega)]

theorem del_rep (h : FixRep C g n) {pos : Nat} (hpos : pos < n.recs.length) {m' : Ram}
    (hk : ∀ i, i + 1 < n.recs.length + n.borders → kc cfg m' i = if i < pos then kc cfg g.mem i else kc cfg g.mem (i + 1))
    (hp : ∀ i, i + 1 < n.recs.length → pc cfg (cfg.plen n.isInner) m' i = if i < pos then pc cfg (cfg.plen n.isInner) g.mem i
      else pc cfg (cfg.plen n.isInner) g.mem (i + 1)) :
    FixRep C { g with mem := m', count := g.count - 1, blk := g.blk - cfg.plen n.isInner }
      { n with recs := delAt n.recs pos, block := n.block - cfg.plen n.isInner } := by
  have hlen : (delAt n.recs pos).length = n.recs.length - 1 := by
    simp [delAt]; omega
  have hfit := h.fits
  have hmem : ∀ r, r ∈ delAt n.recs pos → r ∈ n.recs := by
    intro r hr
    simp only [delAt, List.mem_append] at hr
    rcases hr with hr | hr
    · exact List.mem_of_mem_take hr
    · exact List.mem_of_mem_drop hr
  refine ⟨h.inner, h.removed, ?_, h.payLen, ?_, ?_, h.next, h.hasLow, h.hasHigh, ?_, ?_, ?_, ?_, ?_⟩
  · simp only [hlen, h.count]
  · simp only [hlen, h.blk, Nat.mul_sub_one]
  · simp only [h.block]
  · simp only [hlen]
    have a1 := keyOff_le (cfg := cfg) (show n.recs.length - 1 + n.borders ≤ n.recs.length + n.borders by omega)
    have a2 := Nat.mul_le_mul_left (cfg.plen n.isInner) (show n.recs.length - 1 ≤ n.recs.length by omega)
    have e' : ({ n with recs := delAt n.recs pos, block := n.block - cfg.plen n.isInner } : Node K V).borders
      = n.borders := rfl
    rw [e']
    omega
  · intro i k' hi
    rw [keyArray_del hpos] at hi
    have hkl := n.keyArray_length
    have hil : i + 1 < n.recs.length + n.borders := by
      have := (List.getElem?_eq_some_iff.1 hi).1
      have e : (delAt n.keyArray pos).length = n.keyArray.length - 1 := by
        simp [delAt]; omega
      omega
    rw [getElem?_delAt (by omega)] at hi
    dsimp only
    rw [hk i hil]
    by_cases c1 : i < pos
    · rw [if_pos c1] at hi ⊢; exact h.keys i k' hi
    · rw [if_neg c1] at hi ⊢; exact h.keys (i + 1) k' hi
  · intro i r hi
    dsimp only at hi ⊢
    have hil := (List.getElem?_eq_some_iff.1 hi).1
    rw [hlen] at hil
    rw [getElem?_delAt hpos] at hi
    rw [hp i (by omega)]
    by_cases c1 : i < pos
    · rw [if_pos c1] at hi ⊢; exact h.pays i r hi
    · rw [if_neg c1] at hi ⊢; exact h.pays (i + 1) r hi
  · intro r hr
    exact h.kinds r (hmem r hr)
  · intro r hr
    exact h.live r (hmem r hr)

/-- `Delete` on the bytes does what it does on the list. -/
theorem removeRecord (hf : cfg.layout = .fix) (h : FixRep C g n) {pos : Nat} (hn : n.removeRecord cfg pos = .ok n') :
    ∃ g', g.removeRecord cfg pos = .ok g' ∧ FixRep C g' n' := by
  have hpos : pos < n.recs.length := by
    rcases Nat.lt_or_ge pos n.recs.length with hp | hp
    · exact hp
    · simp [Node.removeRecord, List.getElem?_eq_none hp] at hn
  have hn' : n' = { n with recs := delAt n.recs pos, block := n.block - cfg.plen n.isInner } := by
    simp only [Node.removeRecord, List.getElem?_eq_getElem hpos, hf, Res.ok.injEq] at hn
    exact hn.symm
  subst hn'
  have hfit := h.fits
  obtain ⟨hk, hp⟩ := del_cells (m := g.mem) hpos hfit _ rfl
  refine ⟨_, ?_, h.del_rep hpos hk hp⟩
  have e0 := Nat.mul_sub_one (cfg.plen n.isInner) n.recs.length
  have e1 := Nat.mul_add (cfg.plen n.isInner) (pos + 1) (n.recs.length - 1 - pos)
  have e2 := Nat.mul_add_one (cfg.plen n.isInner) pos
  have e3 : pos + 1 + (n.recs.length - 1 - pos) = n.recs.length := by omega
  rw [e3] at e1
  have k1 := keyOff_add (cfg := cfg) (pos + 1) (n.recs.length - 1 - pos + n.borders)
  have k2 := keyOff_succ (cfg := cfg) pos
  have k4 : pos + 1 + (n.recs.length - 1 - pos + n.borders) = n.recs.length + n.borders := by omega
  have k5 := hdr_le (cfg := cfg) pos
  have k6 := hdr_le (cfg := cfg) (n.recs.length + n.borders)
  rw [k4] at k1
  unfold FixPage.removeRecord
  rw [usub_ok (by rw [h.count]; omega)]
  simp only [Res.ok_bind]
  rw [mv_ok (by omega) (by rw [h.borders, h.count]; omega) (by omega) (by rw [h.borders, h.count]; omega)]
  simp only [Res.ok_bind]
  rw [usub_ok (by rw [h.blk]; omega)]
  simp only [Res.ok_bind]
  rw [mv_ok (by rw [h.blk, h.payLen]; omega) (by rw [h.blk, h.payLen, h.count]; omega) (by rw [h.blk]; omega)
    (by rw [h.blk, h.payLen, h.count]; omega)]
  simp only [Res.ok_bind, Res.pure_eq, h.count, h.borders, h.blk, h.payLen]

/-- `DeleteChild` on the bytes does what it does on the list. -/
theorem deleteChild (hf : cfg.layout = .fix) (h : FixRep C g n) (hin : n.isInner = true) {pos : Nat}
    (hn : n.dropChild cfg pos = .ok n') : ∃ g', g.deleteChild cfg pos = .ok g' ∧ FixRep C g' n' := by
  have hw : cfg.ptrLen = g.payLen := by rw [h.payLen]; simp [Cfg.plen, hin]
  have e : g.deleteChild cfg pos = g.removeRecord cfg pos := by
    simp only [FixPage.deleteChild, FixPage.removeRecord, hw]
    congr 1; funext num
    simp only [FixPage.mv]
    split
    · simp only [Res.ok_bind]
      cases usub cfg.pageSize g.blk with
      | ub => rfl
      | fuel => rfl
      | ok top =>
        simp only [Res.ok_bind]
        split <;> rfl
    · rfl
  rw [e]
  apply h.removeRecord hf
  rw [← hn]
  simp only [Node.removeRecord, Node.dropChild, hf]

/-- Overwriting a payload. -/
theorem setVal (h : FixRep C g n) (hin : n.isInner = false) {pos : Nat} {v : V} (hn : n.setPayload pos v = .ok n') :
    ∃ g', g.setVal cfg pos (C.val v) = .ok g' ∧ FixRep C g' n' := by
  have hpos : pos < n.recs.length := by
    rcases Nat.lt_or_ge pos n.recs.length with hp | hp
    · exact hp
    · simp [Node.setPayload, List.getElem?_eq_none hp] at hn
  simp only [Node.setPayload, List.getElem?_eq_getElem hpos, Res.ok.injEq] at hn
  subst hn
  have hpl : (C.pay (.val v)).length = cfg.plen n.isInner := C.pay_len hin
  have hfit := h.fits
  have a1 := Nat.mul_le_mul_left (cfg.plen n.isInner) (show pos + 1 ≤ n.recs.length by omega)
  have k6 := hdr_le (cfg := cfg) (n.recs.length + n.borders)
  have hlen : (updAt n.recs pos { n.recs[pos] with pay := .val v }).length = n.recs.length := by
    simp [updAt]; omega
  have hkeys : (updAt n.recs pos { n.recs[pos] with pay := .val v }).map Rec.key = n.recs.map Rec.key := by
    apply List.ext_getElem?
    intro i
    rw [List.getElem?_map, getElem?_updAt hpos, List.getElem?_map]
    split
    · next e => subst e; simp [List.getElem?_eq_getElem hpos]
    · rfl
  have e1 : g.setVal cfg pos (C.val v) = .ok { g with mem := g.mem.write (cfg.pageSize - cfg.plen n.isInner * (pos + 1)) (C.pay (.val v)) } := by
    unfold FixPage.setVal
    rw [h.payLen, Nat.mul_comm (pos + 1), usub_ok (by omega)]
    simp only [Res.ok_bind]
    have : C.val v = C.pay (.val v) := rfl
    have a3 := Nat.mul_add_one (cfg.plen n.isInner) pos
    rw [this, wr_ok (by omega) (by omega)]
    rw [← h.payLen]
  refine ⟨_, e1, h.inner, h.removed, ?_, h.payLen, ?_, h.block, h.next, h.hasLow, h.hasHigh, ?_, ?_, ?_, ?_, ?_⟩
  · simp only [hlen, h.count]
  · simp only [hlen, h.blk]
  · simp only [hlen]; exact hfit
  · intro i k hi
    have hi' : n.keyArray[i]? = some (some k) := by
      simp only [Node.keyArray_eq, Node.tailKeys, hkeys] at hi ⊢
      exact hi
    have hil := (List.getElem?_eq_some_iff.1 hi').1
    rw [Node.keyArray_length] at hil
    have a2 := keyOff_le (cfg := cfg) (show i + 1 ≤ n.recs.length + n.borders by omega)
    dsimp only
    rw [kc_above_wr _ (by omega)]
    exact h.keys i k hi'
  · intro i r hi
    have hil := (List.getElem?_eq_some_iff.1 hi).1
    rw [hlen] at hil
    have a2 := Nat.mul_le_mul_left (cfg.plen n.isInner) (show i + 1 ≤ n.recs.length by omega)
    dsimp only at hi ⊢
    rw [getElem?_updAt hpos] at hi
    rw [pc_wr _ _ _ _ hpl (by omega) (by omega)]
    by_cases c1 : i = pos
    · rw [if_pos c1] at hi ⊢
      simp only [Option.some.injEq] at hi
      rw [← hi]
    · rw [if_neg c1] at hi ⊢
      exact h.pays i r hi
  · intro r hr
    obtain ⟨i, hi⟩ := List.getElem?_of_mem hr
    dsimp only at hi ⊢
    rw [getElem?_updAt hpos] at hi
    by_cases c1 : i = pos
    · rw [if_pos c1] at hi
      simp only [Option.some.injEq] at hi
      rw [← hi]; exact hin
    · rw [if_neg c1] at hi
      exact h.kinds r (List.mem_of_getElem? hi)
  · intro r hr
    obtain ⟨i, hi⟩ := List.getElem?_of_mem hr
    dsimp only at hi
    rw [getElem?_updAt hpos] at hi
    by_cases c1 : i = pos
    · rw [if_pos c1] at hi
      simp only [Option.some.injEq] at hi
      rw [← hi]
      exact h.live n.recs[pos] (List.getElem_mem hpos)
    · rw [if_neg c1] at hi
      exact h.live r (List.mem_of_getElem? hi)

end FixRep

end BT
