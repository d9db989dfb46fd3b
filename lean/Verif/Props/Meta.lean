import Verif.Meta

/-!
# C38: slot metadata survives packing
-/

namespace BT

/-- **C38.** Whatever was in the memory, a metadata object built from an offset below 2^31 and lengths below 2^16 gives the three numbers back,
is not marked as deleted, and still does after its eight bytes have been stored and loaded. -/
theorem C38_metadata_roundtrip (junk : MetaWord) {offset keyLen recLen : Nat} (ho : offset < 2 ^ 31) (hk : keyLen < 2 ^ 16)
    (hr : recLen < 2 ^ 16) :
    let w := MetaWord.ofBytes (MetaWord.make junk offset keyLen recLen).byte
    w.offset = offset ∧ w.keyLen = keyLen ∧ w.recLen = recLen ∧ w.isDeleted = false := by
  intro w
  have hw : w = MetaWord.make junk offset keyLen recLen := MetaWord.ofBytes_byte _
  rw [hw]
  exact ⟨(MetaWord.offset_make' ..).trans (Nat.mod_eq_of_lt ho), (MetaWord.keyLen_make' ..).trans (Nat.mod_eq_of_lt hk),
    (MetaWord.recLen_make' ..).trans (Nat.mod_eq_of_lt hr), MetaWord.isDeleted_make ..⟩

example : (let w := MetaWord.ofBytes (MetaWord.make 0xdeadbeefcafe1235#64 1016 8 264).byte
    w.offset = 1016 ∧ w.keyLen = 8 ∧ w.recLen = 264 ∧ w.isDeleted = false) :=
  C38_metadata_roundtrip _ (by decide) (by decide) (by decide)

/-- The bounds are needed: longer numbers lose their high bits (a record of 65536 + 8 bytes is taken for one of 8). -/
theorem C38_metadata_truncates (junk : MetaWord) (offset keyLen recLen : Nat) :
    (MetaWord.make junk offset keyLen recLen).offset = offset % 2 ^ 31 ∧
    (MetaWord.make junk offset keyLen recLen).keyLen = keyLen % 2 ^ 16 ∧
    (MetaWord.make junk offset keyLen recLen).recLen = recLen % 2 ^ 16 :=
  ⟨MetaWord.offset_make' .., MetaWord.keyLen_make' .., MetaWord.recLen_make' ..⟩

example : (MetaWord.make 0 16 8 65544).recLen = 8 := by decide +kernel

/-- **C38.** Setting or clearing the deletion mark changes none of the numbers, and can be read back. -/
theorem C38_mark_keeps_numbers (w : MetaWord) (b : Bool) :
    (w.setDeleted b).isDeleted = b ∧ (w.setDeleted b).offset = w.offset ∧ (w.setDeleted b).keyLen = w.keyLen ∧
    (w.setDeleted b).recLen = w.recLen :=
  ⟨MetaWord.isDeleted_set w b, MetaWord.offset_set w b, MetaWord.keyLen_set w b, MetaWord.recLen_set w b⟩

example : ((MetaWord.make 0 1016 8 264).setDeleted true).isDeleted = true ∧
    ((MetaWord.make 0 1016 8 264).setDeleted true) ≠ MetaWord.make 0 1016 8 264 := by decide +kernel

/-- **C38.** Slot equality compares the three numbers, so it ignores the deletion mark. -/
theorem C38_equality (a b : MetaWord) :
    (a.eqv b = true ↔ a.offset = b.offset ∧ a.keyLen = b.keyLen ∧ a.recLen = b.recLen) ∧
    ∀ c, (a.setDeleted c).eqv b = a.eqv b := by
  refine ⟨by simp [MetaWord.eqv, and_assoc], fun c => by simp [MetaWord.eqv]⟩

/-- Equal slots with equal marks are the same eight bytes. -/
theorem C38_equality_exact (a b : MetaWord) (h : a.eqv b = true) (hd : a.isDeleted = b.isDeleted) : a = b := by
  rw [(C38_equality a b).1] at h
  obtain ⟨h1, h2, h3⟩ := h
  have e1 : bitsGet 1 31 a = bitsGet 1 31 b := BitVec.eq_of_toNat_eq h1
  have e2 : bitsGet 32 16 a = bitsGet 32 16 b := BitVec.eq_of_toNat_eq h2
  have e3 : bitsGet 48 16 a = bitsGet 48 16 b := BitVec.eq_of_toNat_eq h3
  have e0 : bitsGet 0 1 a = bitsGet 0 1 b := by
    unfold MetaWord.isDeleted at hd
    generalize bitsGet 0 1 a = x at hd ⊢
    generalize bitsGet 0 1 b = y at hd ⊢
    revert x y; decide
  apply BitVec.eq_of_getLsbD_eq
  intro i hi
  have key : ∀ lo len, lo ≤ i → i < lo + len → bitsGet lo len a = bitsGet lo len b → a.getLsbD i = b.getLsbD i := by
    intro lo len g1 g2 e
    have := congrArg (fun x => BitVec.getLsbD x (i - lo)) e
    simp only [bitsGet, BitVec.getLsbD_extractLsb'] at this
    rw [show lo + (i - lo) = i by omega] at this
    simpa [show i - lo < len by omega] using this
  by_cases c0 : i < 1
  · exact key 0 1 (by omega) (by omega) e0
  by_cases c1 : i < 32
  · exact key 1 31 (by omega) (by omega) e1
  by_cases c2 : i < 48
  · exact key 32 16 (by omega) (by omega) e2
  · exact key 48 16 (by omega) (by omega) e3

end BT
