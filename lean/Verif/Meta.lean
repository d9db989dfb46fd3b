import Mathlib.Data.List.OfFn

/-!
# Slot metadata: `component/metadata.hpp`

A `Metadata` object is 8 bytes: `uint32_t is_deleted : 1`, `uint32_t offset : 31`, `uint16_t key_len`, `uint16_t rec_len`.
Simplification: the layout of bit fields is that of the x86-64 ABI (lowest bit first, little-endian words); the C++ standard
leaves it to the implementation.
-/

namespace BT

/-- The object as one little-endian word. -/
abbrev MetaWord := BitVec 64

/-- Read the `len` bits that start at bit `lo`. -/
def bitsGet (lo len : Nat) (w : MetaWord) : BitVec len := w.extractLsb' lo len

/-- Overwrite them. -/
def bitsSet (lo len : Nat) (w : MetaWord) (v : BitVec len) : MetaWord :=
  (w &&& ~~~((BitVec.allOnes len).setWidth 64 <<< lo)) ||| (v.setWidth 64 <<< lo)

theorem bitsGet_set {lo len : Nat} (h : lo + len ≤ 64) (w : MetaWord) (v : BitVec len) : bitsGet lo len (bitsSet lo len w v) = v := by
  apply BitVec.eq_of_getLsbD_eq
  intro i hi
  have h1 : lo + i < 64 := by omega
  have h3 : ¬ (lo + i < lo) := by omega
  simp [bitsGet, bitsSet, hi, h1, h3]

theorem bitsGet_set_other {lo len lo' len' : Nat} (h : lo' + len' ≤ lo ∨ lo + len ≤ lo') (w : MetaWord) (v : BitVec len) :
    bitsGet lo' len' (bitsSet lo len w v) = bitsGet lo' len' w := by
  apply BitVec.eq_of_getLsbD_eq
  intro i hi
  simp only [bitsGet, bitsSet, BitVec.getLsbD_extractLsb', hi, decide_true, Bool.true_and, BitVec.getLsbD_or, BitVec.getLsbD_and,
    BitVec.getLsbD_not, BitVec.getLsbD_shiftLeft, BitVec.getLsbD_setWidth, BitVec.getLsbD_allOnes]
  rcases h with h | h
  · have h3 : lo' + i < lo := by omega
    simp [h3]
    intro hh
    exact BitVec.lt_of_getLsbD hh
  · have h3 : ¬ (lo' + i - lo < len) := by omega
    have h4 : v.getLsbD (lo' + i - lo) = false := BitVec.getLsbD_of_ge _ _ (by omega)
    simp [h3, h4]
    intro hh
    exact BitVec.lt_of_getLsbD hh

namespace MetaWord

/-! The members: metadata.hpp:106-116. -/
def isDeleted (w : MetaWord) : Bool := decide (bitsGet 0 1 w = 1#1)
def offset (w : MetaWord) : Nat := (bitsGet 1 31 w).toNat
def keyLen (w : MetaWord) : Nat := (bitsGet 32 16 w).toNat
def recLen (w : MetaWord) : Nat := (bitsGet 48 16 w).toNat

/-- `meta.is_deleted = b`: e.g. pml/node_varlen.hpp:643, 1187. -/
def setDeleted (w : MetaWord) (b : Bool) : MetaWord := bitsSet 0 1 w (if b then 1#1 else 0#1)

/-- The constructor: metadata.hpp:45-55.  `w` is what was in the memory before; the casts drop high bits. -/
def make (w : MetaWord) (offset keyLen recLen : Nat) : MetaWord :=
  let w := bitsSet 0 1 w 0#1
  let w := bitsSet 1 31 w ((BitVec.ofNat 32 offset).setWidth 31)
  let w := bitsSet 32 16 w (BitVec.ofNat 16 keyLen)
  bitsSet 48 16 w (BitVec.ofNat 16 recLen)

/-- `operator==`: metadata.hpp:81-88. -/
def eqv (a b : MetaWord) : Bool := decide (a.offset = b.offset) && decide (a.keyLen = b.keyLen) && decide (a.recLen = b.recLen)

variable (w : MetaWord)

@[simp] theorem isDeleted_set (b : Bool) : (w.setDeleted b).isDeleted = b := by
  unfold isDeleted setDeleted
  rw [bitsGet_set (by omega)]
  cases b <;> decide
@[simp] theorem offset_set (b : Bool) : (w.setDeleted b).offset = w.offset := by
  unfold offset setDeleted; rw [bitsGet_set_other (by omega)]
@[simp] theorem keyLen_set (b : Bool) : (w.setDeleted b).keyLen = w.keyLen := by
  unfold keyLen setDeleted; rw [bitsGet_set_other (by omega)]
@[simp] theorem recLen_set (b : Bool) : (w.setDeleted b).recLen = w.recLen := by
  unfold recLen setDeleted; rw [bitsGet_set_other (by omega)]

variable (o k r : Nat)

@[simp] theorem isDeleted_make : (make w o k r).isDeleted = false := by
  unfold isDeleted make
  rw [bitsGet_set_other (by omega), bitsGet_set_other (by omega), bitsGet_set_other (by omega), bitsGet_set (by omega)]
  decide
theorem offset_make' : (make w o k r).offset = o % 2 ^ 31 := by
  unfold offset make
  rw [bitsGet_set_other (by omega), bitsGet_set_other (by omega), bitsGet_set (by omega), BitVec.toNat_setWidth, BitVec.toNat_ofNat]
  omega
theorem keyLen_make' : (make w o k r).keyLen = k % 2 ^ 16 := by
  unfold keyLen make
  rw [bitsGet_set_other (by omega), bitsGet_set (by omega), BitVec.toNat_ofNat]
theorem recLen_make' : (make w o k r).recLen = r % 2 ^ 16 := by
  unfold recLen make
  rw [bitsGet_set (by omega), BitVec.toNat_ofNat]

theorem offset_lt : w.offset < 2 ^ 31 := (bitsGet 1 31 w).isLt
theorem keyLen_lt : w.keyLen < 2 ^ 16 := (bitsGet 32 16 w).isLt
theorem recLen_lt : w.recLen < 2 ^ 16 := (bitsGet 48 16 w).isLt

end MetaWord

/-! ## The eight bytes -/

abbrev Byte := BitVec 8

/-- The bytes of the word, lowest first. -/
def MetaWord.byte (w : MetaWord) (i : Nat) : Byte := w.extractLsb' (8 * i) 8

/-- The word of eight bytes. -/
def MetaWord.ofBytes (f : Nat → Byte) : MetaWord :=
  BitVec.ofNat 64 ((f 0).toNat + 2 ^ 8 * (f 1).toNat + 2 ^ 16 * (f 2).toNat + 2 ^ 24 * (f 3).toNat + 2 ^ 32 * (f 4).toNat +
    2 ^ 40 * (f 5).toNat + 2 ^ 48 * (f 6).toNat + 2 ^ 56 * (f 7).toNat)

theorem MetaWord.ofBytes_byte (w : MetaWord) : MetaWord.ofBytes w.byte = w := by
  apply BitVec.eq_of_toNat_eq
  simp only [MetaWord.ofBytes, MetaWord.byte, BitVec.toNat_ofNat, BitVec.extractLsb'_toNat, Nat.shiftRight_eq_div_pow]
  have := w.isLt
  omega

theorem MetaWord.ofBytes_congr {f g : Nat → Byte} (h : ∀ i, i < 8 → f i = g i) : MetaWord.ofBytes f = MetaWord.ofBytes g := by
  unfold MetaWord.ofBytes
  rw [h 0 (by omega), h 1 (by omega), h 2 (by omega), h 3 (by omega), h 4 (by omega), h 5 (by omega), h 6 (by omega), h 7 (by omega)]

end BT
