import Verif.Meta
import Verif.Node

/-!
# Memory as bytes

`memcpy` and `memmove` on the bytes of a page.
-/

namespace BT

/-- The bytes of a page, by offset from its start. -/
abbrev Ram := Nat → Byte

namespace Ram

/-- The `len` bytes from `off` on. -/
def bytes (m : Ram) (off len : Nat) : List Byte := (List.range len).map (fun j => m (off + j))

/-- `memcpy(ShiftAddr(this, off), src, bs.length)` where `src` points to the bytes `bs`. -/
def write (m : Ram) (off : Nat) (bs : List Byte) : Ram := fun i => if off ≤ i ∧ i < off + bs.length then bs.getD (i - off) 0 else m i

/-- `memmove(ShiftAddr(this, dst), ShiftAddr(this, src), len)`: the regions may overlap. -/
def move (m : Ram) (dst src len : Nat) : Ram := fun i => if dst ≤ i ∧ i < dst + len then m (src + (i - dst)) else m i

@[simp] theorem bytes_length (m : Ram) (off len : Nat) : (m.bytes off len).length = len := by simp [bytes]

theorem bytes_congr {m m' : Ram} {off off' len : Nat} (h : ∀ j < len, m (off + j) = m' (off' + j)) :
    m.bytes off len = m'.bytes off' len := by
  simp only [bytes, List.map_inj_left, List.mem_range]
  exact h

theorem bytes_eq {m : Ram} {off : Nat} {bs : List Byte} (h : ∀ j, (hj : j < bs.length) → m (off + j) = bs[j]) :
    m.bytes off bs.length = bs := by
  apply List.ext_getElem
  · simp
  · intro i h1 h2
    simp only [bytes, List.getElem_map, List.getElem_range]
    exact h i h2

theorem byte_of_bytes {m m' : Ram} {off off' len : Nat} (h : m.bytes off len = m'.bytes off' len) {j : Nat} (hj : j < len) :
    m (off + j) = m' (off' + j) := by
  simp only [bytes, List.map_inj_left, List.mem_range] at h
  exact h j hj

theorem bytes_write_same {m : Ram} {off len : Nat} {bs : List Byte} (h : bs.length = len) : (m.write off bs).bytes off len = bs := by
  subst h
  apply bytes_eq
  intro j hj
  have : off + j - off = j := by omega
  simp only [write, this]
  rw [if_pos (by omega)]
  simp [List.getD, hj]

theorem bytes_write_disj {m : Ram} {off o l : Nat} {bs : List Byte} (h : o + l ≤ off ∨ off + bs.length ≤ o) :
    (m.write off bs).bytes o l = m.bytes o l := by
  apply bytes_congr
  intro j hj
  simp only [write]
  rw [if_neg (by omega)]

theorem bytes_move_in {m : Ram} {dst src len o l : Nat} (h1 : dst ≤ o) (h2 : o + l ≤ dst + len) :
    (m.move dst src len).bytes o l = m.bytes (src + (o - dst)) l := by
  apply bytes_congr
  intro j hj
  simp only [move]
  rw [if_pos (by omega)]
  congr 1
  omega

theorem bytes_move_disj {m : Ram} {dst src len o l : Nat} (h : o + l ≤ dst ∨ dst + len ≤ o) :
    (m.move dst src len).bytes o l = m.bytes o l := by
  apply bytes_congr
  intro j hj
  simp only [move]
  rw [if_neg (by omega)]

end Ram

/-- Unsigned subtraction; a wrap-around would be used as a position or a length, which is undefined behaviour. -/
def usub (a b : Nat) : Res Nat := if b ≤ a then .ok (a - b) else .ub

theorem usub_ok {a b : Nat} (h : b ≤ a) : usub a b = .ok (a - b) := if_pos h

/-- The `len` bytes of a number, lowest byte first (x86-64). -/
def natBytes : Nat → Nat → List Byte
  | 0, _ => []
  | len + 1, n => BitVec.ofNat 8 n :: natBytes len (n / 256)

/-- The number with these bytes. -/
def bytesNat : List Byte → Nat
  | [] => 0
  | b :: bs => b.toNat + 256 * bytesNat bs

@[simp] theorem natBytes_length : ∀ (len n : Nat), (natBytes len n).length = len
  | 0, _ => rfl
  | len + 1, n => by simp [natBytes, natBytes_length len]

theorem bytesNat_natBytes : ∀ (len n : Nat), n < 256 ^ len → bytesNat (natBytes len n) = n
  | 0, n, h => by simp at h; simp [h, natBytes, bytesNat]
  | len + 1, n, h => by
    have h' : n / 256 < 256 ^ len := by
      rw [Nat.pow_succ] at h
      exact Nat.div_lt_of_lt_mul (by omega)
    simp only [natBytes, bytesNat, bytesNat_natBytes len _ h', BitVec.toNat_ofNat]
    omega

/-- How keys and payloads are stored.  They are copied byte by byte (`memcpy`), `cfg.klen k` bytes for the key `k` and `cfg.payLen`
bytes for a payload; reading the bytes back gives the value. -/
structure Codec {K : Type} (cfg : Cfg K) (V : Type) where
  key : K → List Byte
  val : V → List Byte
  getKey : List Byte → Option K
  getVal : List Byte → Option V
  key_len : ∀ k, (key k).length = cfg.klen k
  val_len : ∀ v, (val v).length = cfg.payLen
  key_get : ∀ k, getKey (key k) = some k
  val_get : ∀ v, getVal (val v) = some v

/-- The bytes of a payload field: a user payload or the address of a child. -/
def Codec.pay {K V : Type} {cfg : Cfg K} (C : Codec cfg V) : Pay V → List Byte
  | .val v => C.val v
  | .ptr p => natBytes cfg.ptrLen p

/-- The payload field has the kind that the page stores. -/
def Pay.Fits {V : Type} (inner : Bool) : Pay V → Prop
  | .val _ => inner = false
  | .ptr _ => inner = true

theorem Codec.pay_len {K V : Type} {cfg : Cfg K} (C : Codec cfg V) {inner : Bool} {x : Pay V} (h : x.Fits inner) :
    (C.pay x).length = cfg.plen inner := by
  cases x with
  | val v => simp only [Pay.Fits] at h; subst h; simp [Codec.pay, C.val_len, Cfg.plen]
  | ptr p => simp only [Pay.Fits] at h; subst h; simp [Codec.pay, Cfg.plen]

end BT
