import Verif.Bytes
import Verif.NodeOk

/-!
# The fixed-length page as bytes

`component/*/node_fixlen.hpp`: an array of keys grows from the header upwards (the keys of the records, then the highest key, then the
lowest key), an array of payloads grows from the end of the page downwards.  Accesses outside the data block of the page are undefined
behaviour.  The header fields are kept as fields; their widths (16 bits for `record_count_` and `pay_len_`, 30 bits for `block_size_`)
are not modelled: pages are smaller than 64 KiB.
-/

set_option linter.unusedSectionVars false

namespace BT
variable {K V : Type} [LinearOrder K]

/-- `NodeFixLen`: the members (pml/node_fixlen.hpp:1110-1140; osl 1349-1380) and the bytes of the page. -/
structure FixPage where
  inner : Bool
  removed : Bool
  blk : Nat
  count : Nat
  payLen : Nat
  next : Option Ptr
  hasLow : Bool
  hasHigh : Bool
  mem : Ram

namespace FixPage

/-- `has_low_key_ + has_high_key_` -/
def borders (g : FixPage) : Nat := g.hasLow.toNat + g.hasHigh.toNat

/-- The offset of `keys_[i]`. -/
def keyOff (cfg : Cfg K) (i : Nat) : Nat := cfg.headerLen + cfg.maxKeyLen * i

/-- Read `len` bytes of the data block. -/
def rd (cfg : Cfg K) (g : FixPage) (off len : Nat) : Res (List Byte) :=
  if cfg.headerLen ≤ off ∧ off + len ≤ cfg.pageSize then .ok (g.mem.bytes off len) else .ub

/-- Write bytes into the data block. -/
def wr (cfg : Cfg K) (g : FixPage) (off : Nat) (bs : List Byte) : Res FixPage :=
  if cfg.headerLen ≤ off ∧ off + bs.length ≤ cfg.pageSize then .ok { g with mem := g.mem.write off bs } else .ub

/-- `memmove` inside the data block. -/
def mv (cfg : Cfg K) (g : FixPage) (dst src len : Nat) : Res FixPage :=
  if cfg.headerLen ≤ dst ∧ dst + len ≤ cfg.pageSize ∧ cfg.headerLen ≤ src ∧ src + len ≤ cfg.pageSize then
    .ok { g with mem := g.mem.move dst src len }
  else .ub

/-- The bytes of `keys_[i]`. -/
def rdKey (cfg : Cfg K) (g : FixPage) (i : Nat) : Res (List Byte) := g.rd cfg (keyOff cfg i) cfg.maxKeyLen

/-- `keys_[i] = ...` -/
def wrKey (cfg : Cfg K) (g : FixPage) (i : Nat) (bs : List Byte) : Res FixPage := g.wr cfg (keyOff cfg i) bs

/-- The bytes at `GetPayloadAddr(i)`: osl/node_fixlen.hpp:1222-1226 and copies. -/
def rdPay (cfg : Cfg K) (g : FixPage) (i : Nat) : Res (List Byte) := do
  let off ← usub cfg.pageSize ((i + 1) * g.payLen)
  g.rd cfg off g.payLen

/-- `GetKey(i)`: osl/node_fixlen.hpp:262-267 and copies. -/
def getKey {cfg : Cfg K} (C : Codec cfg V) (g : FixPage) (i : Nat) : Res K := do
  let bs ← g.rdKey cfg i
  match C.getKey bs with
  | some k => .ok k
  | none => .ub

/-- `GetPayload<Payload>(i)`: osl/node_fixlen.hpp:274-282 and copies. -/
def getVal {cfg : Cfg K} (C : Codec cfg V) (g : FixPage) (i : Nat) : Res V := do
  let bs ← g.rdPay cfg i
  match C.getVal bs with
  | some v => .ok v
  | none => .ub

/-- `GetPayload<Node *>(i)`. -/
def getChild (cfg : Cfg K) (g : FixPage) (i : Nat) : Res Ptr := do
  let bs ← g.rdPay cfg i
  return bytesNat bs

/-- `GetHighKey`: osl/node_fixlen.hpp:225-230 and copies. -/
def getHigh {cfg : Cfg K} (C : Codec cfg V) (g : FixPage) : Res K := g.getKey C g.count

/-- The lowest key: `GetSeparatorKey(false)`, osl/node_fixlen.hpp:237-245. -/
def getLow {cfg : Cfg K} (C : Codec cfg V) (g : FixPage) : Res K := g.getKey C (g.count + g.hasHigh.toNat)

/-- The loop of `SearchRecord` on the key array; `e` is `end_pos + 1`. -/
def searchLoop {cfg : Cfg K} (C : Codec cfg V) (g : FixPage) (k : K) : Nat → Nat → Nat → Res (NodeRC × Nat)
  | 0, _, _ => .fuel
  | f + 1, b, e =>
    if b < e then do
      let pos := (b + e - 1) / 2
      let ik ← g.getKey C pos
      if k < ik then g.searchLoop C k f b pos
      else if ik < k then g.searchLoop C k f (pos + 1) e
      else .ok (.keyAlreadyInserted, pos)
    else .ok (.keyNotInserted, b)

/-- `SearchRecord`: pml/node_fixlen.hpp:434-453; psl 388-408; oml 469-489; osl 420-440. -/
def searchRecord {cfg : Cfg K} (C : Codec cfg V) (g : FixPage) (k : K) : Res (NodeRC × Nat) :=
  match g.searchLoop C k (g.count + 1) (if g.inner then 1 else 0) g.count with
  | .ok (.keyNotInserted, b) => .ok (.keyNotInserted, b - (if g.inner then 1 else 0))
  | r => r

/-- `CompHighKey`: pml/node_fixlen.hpp:944-948; psl 1046; oml 1218; osl 1210-1214. -/
def compHighKey {cfg : Cfg K} (C : Codec cfg V) (g : FixPage) (k : K) : Res Bool :=
  if g.hasHigh = false then .ok true
  else do
    let h ← g.getHigh C
    return decide (k < h)

/-- `SetPayload`: osl/node_fixlen.hpp:1235-1244 and copies.  Returns the new offset. -/
def setPayload (cfg : Cfg K) (g : FixPage) (off : Nat) (bs : List Byte) : Res (FixPage × Nat) := do
  let off ← usub off g.payLen
  let g ← g.wr cfg off bs
  return (g, off)

/-- `InsertRecord`: pml/node_fixlen.hpp:995-1015; psl 1099-1126 (behind the room test); oml 1325-1346; osl 731-760. -/
def insertRecord (cfg : Cfg K) (g : FixPage) (key pay : List Byte) (pos : Nat) : Res FixPage := do
  let num ← usub g.count pos
  let g ← g.mv cfg (keyOff cfg (pos + 1)) (keyOff cfg pos) (cfg.maxKeyLen * (num + g.borders))
  let g ← g.wrKey cfg pos key
  let top ← usub cfg.pageSize g.blk
  let dst ← usub top g.payLen
  let g ← g.mv cfg dst top (g.payLen * num)
  let (g, _) ← g.setPayload cfg (top + g.payLen * num) pay
  return { g with count := g.count + 1, blk := g.blk + g.payLen }

/-- `memcpy(GetPayloadAddr(pos), payload, pay_len_)`: pml/node_fixlen.hpp:540, 602 and copies (`Write` and `Update` of an existing
record). -/
def setVal (cfg : Cfg K) (g : FixPage) (pos : Nat) (pay : List Byte) : Res FixPage := do
  let off ← usub cfg.pageSize ((pos + 1) * g.payLen)
  g.wr cfg off pay

/-- The removal in `Delete`: pml/node_fixlen.hpp:634-643; psl 672-680; oml 866-874; osl 831-842. -/
def removeRecord (cfg : Cfg K) (g : FixPage) (pos : Nat) : Res FixPage := do
  let num ← usub (g.count - 1) pos
  let g ← g.mv cfg (keyOff cfg pos) (keyOff cfg (pos + 1)) (cfg.maxKeyLen * (num + g.borders))
  let top ← usub cfg.pageSize g.blk
  let g ← g.mv cfg (top + g.payLen) top (g.payLen * num)
  return { g with count := g.count - 1, blk := g.blk - g.payLen }

/-- `InsertChild`: pml/node_fixlen.hpp:662-684; psl 722-738; oml 898-922; osl 888-906. The new child goes behind slot `pos`. -/
def insertChild (cfg : Cfg K) (g : FixPage) (key child : List Byte) (pos : Nat) : Res FixPage := do
  let num ← usub (g.count - 1) pos
  let top ← usub cfg.pageSize g.blk
  let dst ← usub top cfg.ptrLen
  let g ← g.mv cfg dst top (cfg.ptrLen * num)
  let (g, _) ← g.setPayload cfg (top + cfg.ptrLen * num) child
  let g ← g.mv cfg (keyOff cfg (pos + 2)) (keyOff cfg (pos + 1)) (cfg.maxKeyLen * (num + g.borders))
  let g ← g.wrKey cfg (pos + 1) key
  return { g with count := g.count + 1, blk := g.blk + cfg.ptrLen }

/-- `DeleteChild` (removal of slot `pos`): psl/node_fixlen.hpp:775-787; osl 939-951; pml 692-709 and oml 931-949 with `pos` one
smaller. -/
def deleteChild (cfg : Cfg K) (g : FixPage) (pos : Nat) : Res FixPage := do
  let num ← usub (g.count - 1) pos
  let g ← g.mv cfg (keyOff cfg pos) (keyOff cfg (pos + 1)) (cfg.maxKeyLen * (num + g.borders))
  let top ← usub cfg.pageSize g.blk
  let g ← g.mv cfg (top + cfg.ptrLen) top (cfg.ptrLen * num)
  return { g with count := g.count - 1, blk := g.blk - cfg.ptrLen }

/-- `CopyRecordFrom`: pml/node_fixlen.hpp:1027-1040 and copies (osl 1258-1270). Returns the new offset. -/
def copyRecordFrom (cfg : Cfg K) (g src : FixPage) (pos off : Nat) : Res (FixPage × Nat) := do
  let key ← src.rdKey cfg pos
  let g ← g.wrKey cfg g.count key
  let off ← usub off g.payLen
  let from_ ← usub cfg.pageSize ((pos + 1) * src.payLen)
  let pay ← src.rd cfg from_ g.payLen
  let g ← g.wr cfg off pay
  return ({ g with count := g.count + 1 }, off)

/-- `CopyRecordsFrom` for `m` records from `pos` on: pml/node_fixlen.hpp:1050-1063 and copies (osl 1281-1294). -/
def copyRecordsFrom (cfg : Cfg K) (g src : FixPage) : Nat → Nat → Nat → Res (FixPage × Nat)
  | 0, _, off => .ok (g, off)
  | m + 1, pos, off => do
    let (g, off) ← g.copyRecordFrom cfg src pos off
    g.copyRecordsFrom cfg src m (pos + 1) off

/-- `Split`: psl/node_fixlen.hpp:806-840; osl 970-1004; with `blink = false` the order of pml 720-755 and oml 961-995, where
`record_count_` and `has_high_key_` change before the lowest key is moved. `r` is the right page as constructed, `rp` its address. -/
def split (cfg : Cfg K) (g r : FixPage) (rp : Ptr) : Res (FixPage × FixPage) := do
  let lc := g.count / 2
  let rc := g.count - lc
  let r := { r with payLen := g.payLen }
  let (r, roff) ← r.copyRecordsFrom cfg g rc lc cfg.pageSize
  let r ← r.wrKey cfg rc (← g.rdKey cfg g.count)
  let sep ← r.rdKey cfg 0
  let r ← r.wrKey cfg (rc + g.hasHigh.toNat) sep
  let links := cfg.blink || !g.inner
  let r := { r with
    blk := cfg.pageSize - roff
    next := if links then g.next else r.next
    hasLow := true
    hasHigh := g.hasHigh }
  if cfg.blink then
    let low ← g.rdKey cfg (g.count + g.hasHigh.toNat)
    let g ← g.wrKey cfg (lc + g.hasLow.toNat) low
    let sep ← r.rdKey cfg 0
    let g ← g.wrKey cfg lc sep
    let blk ← usub g.blk r.blk
    return ({ g with count := lc, blk := blk, next := some rp, hasHigh := true }, r)
  else
    let blk ← usub g.blk r.blk
    let g := { g with count := lc, blk := blk, next := if links then some rp else g.next, hasHigh := true }
    let low ← g.rdKey cfg (g.count + g.hasHigh.toNat)
    let g ← g.wrKey cfg (lc + g.hasLow.toNat) low
    let sep ← r.rdKey cfg 0
    let g ← g.wrKey cfg lc sep
    return (g, r)

/-- The position of the lowest key in `Merge`: psl/node_fixlen.hpp:853, osl 1017 (`record_count_ + 1`); pml 769, oml 1009
(`record_count_ - 1 + has_high_key_ + has_low_key_`). -/
def mergeLowPos (cfg : Cfg K) (g : FixPage) : Res Nat :=
  if cfg.blink then .ok (g.count + 1) else usub (g.count + g.hasHigh.toNat + g.hasLow.toNat) 1

/-- `Merge`, effect on the left page: psl/node_fixlen.hpp:848-866; osl 1012-1030; with `blink = false` pml 763-786 and oml 1003-1022,
which compute the position of the lowest key differently. -/
def merge (cfg : Cfg K) (g r : FixPage) : Res FixPage := do
  let lowPos ← g.mergeLowPos cfg
  let low ← g.rdKey cfg lowPos
  let top ← usub cfg.pageSize g.blk
  let (g, off) ← g.copyRecordsFrom cfg r r.count 0 top
  let g ← if r.hasHigh then do
      let h ← r.rdKey cfg r.count
      g.wrKey cfg g.count h
    else .ok g
  let g ← if g.hasLow then g.wrKey cfg (g.count + r.hasHigh.toNat) low else .ok g
  return { g with
    blk := cfg.pageSize - off
    next := if cfg.blink || !g.inner then r.next else g.next
    hasHigh := r.hasHigh }

/-- The constructor of an empty page on memory that may hold anything: pml/node_fixlen.hpp:66-70 and copies; `SetPayloadLength`. -/
def empty (cfg : Cfg K) (inner : Bool) (junk : Ram) : FixPage :=
  ⟨inner, false, 0, 0, cfg.plen inner, none, false, false, junk⟩

/-- The constructor of a new root: pml/node_fixlen.hpp:81-89; psl 81-96; oml 81-94; osl 81-96. -/
def newRoot (cfg : Cfg K) (key l r : List Byte) (junk : Ram) : Res FixPage := do
  let g : FixPage := ⟨true, false, 2 * cfg.ptrLen, 2, cfg.ptrLen, none, false, false, junk⟩
  let g ← g.wrKey cfg 1 key
  let (g, _) ← g.setPayload cfg cfg.pageSize l
  let off ← usub cfg.pageSize cfg.ptrLen
  let (g, _) ← g.setPayload cfg off r
  return g

/-- The loop of `Bulkload` for the entries that are taken (`bulkFill` decides how many): osl/node_fixlen.hpp:1091-1100 and copies. -/
def bulkFill (cfg : Cfg K) (g : FixPage) : List (List Byte × List Byte) → Nat → Res (FixPage × Nat)
  | [], off => .ok (g, off)
  | (key, pay) :: es, off => do
    let (g, off) ← g.setPayload cfg off pay
    let g ← g.wrKey cfg g.count key
    ({ g with count := g.count + 1 }).bulkFill cfg es off

/-- `Bulkload` of a node: osl/node_fixlen.hpp:1091-1113 and copies. -/
def bulkload (cfg : Cfg K) (g : FixPage) (es : List (List Byte × List Byte)) : Res FixPage := do
  let (g, off) ← g.bulkFill cfg es cfg.pageSize
  let g := { g with blk := cfg.pageSize - off, hasLow := true }
  g.wrKey cfg g.count (← g.rdKey cfg 0)

/-- `LinkNext`: osl/node_fixlen.hpp:1332-1343 and copies (pml 1096-1107: sibling link in leaves only). -/
def linkNext (cfg : Cfg K) (g r : FixPage) (rp : Ptr) : Res FixPage := do
  let g := { g with hasHigh := true }
  let g ← g.wrKey cfg (g.count + 1) (← g.rdKey cfg g.count)
  let g ← g.wrKey cfg g.count (← r.rdKey cfg 0)
  return { g with next := if cfg.blink || !g.inner then some rp else g.next }

end FixPage
end BT
