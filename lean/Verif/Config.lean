import Verif.NodeOk

/-!
# Concrete configurations

Used to show that the hypotheses of the theorems are met by the configurations the library ships with.
`sizeof(Node)` is 32 in all eight node classes: 4 (flags, `block_size_`) + 2 + 2 + 8 (lock) + 8 (`next_`) + 8.
Page constants: `utility.hpp:113-131` with the default `B_TREE_PAGE_SIZE` 1024.
-/

namespace BT

/-- 8-byte keys and payloads, fixed-length layout, default page. -/
def fixCfg (blink : Bool) : Cfg Nat where
  layout := .fix
  blink := blink
  pageSize := 1024
  headerLen := 32
  minFree := 128
  minUsed := 64
  maxDeleted := 256
  metaLen := 8
  ptrLen := 8
  payLen := 8
  maxKeyLen := 8
  keyLen := fun _ => 8

/-- Variable-length keys of 1 to 108 bytes, 8-byte payloads, default page and default
`kMaxVarLenDataSize` 128. -/
def varCfg (blink : Bool) : Cfg Nat where
  layout := .var
  blink := blink
  pageSize := 1024
  headerLen := 32
  minFree := 128
  minUsed := 64
  maxDeleted := 256
  metaLen := 8
  ptrLen := 8
  payLen := 8
  maxKeyLen := 128
  keyLen := fun k => 1 + k % 108

theorem fixCfg_roomy (b : Bool) : Roomy (fixCfg b) 8 where
  key _ := by simp [Cfg.klen, fixCfg]
  le := by simp [fixCfg]
  fixL _ := by simp [fixCfg]
  meta_pos := by simp [fixCfg]
  hdr := by simp [fixCfg]
  var1 h := by simp [fixCfg] at h
  var2 h := by simp [fixCfg] at h
  fix1 _ := by simp [fixCfg, Cfg.maxRecLen, Cfg.maxPayLen, Cfg.mlen, Cfg.cap]

theorem varCfg_roomy (b : Bool) : Roomy (varCfg b) 108 where
  key k := by
    simp only [Cfg.klen, varCfg]
    omega
  le := by simp [varCfg]
  fixL h := by simp [varCfg] at h
  meta_pos := by simp [varCfg]
  hdr := by simp [varCfg]
  var1 _ := by simp [varCfg, Cfg.maxPayLen, Cfg.cap]
  var2 _ := by simp [varCfg, Cfg.maxRecLen, Cfg.maxPayLen, Cfg.mlen, Cfg.cap]
  fix1 h := by simp [varCfg] at h

end BT
