import Verif.Bytes
import Verif.NodeOk

/-!
# The variable-length page as bytes

`component/*/node_varlen.hpp`: an array of 8-byte metadata words grows from the header upwards, records (key, then payload) and the two
border keys are put from the end of the page downwards.  Accesses outside the data block of the page are undefined behaviour.  The header
fields are kept as fields; their widths (16 bits for `deleted_size_`, `record_count_` and the offsets and lengths of the border keys, 30
bits for `block_size_`) are not modelled: pages are smaller than 64 KiB.  The metadata words are modelled bit by bit (`Meta.lean`).
-/

set_option linter.unusedSectionVars false

namespace BT
variable {K V : Type} [LinearOrder K]

/-- `NodeVarLen`: the members (pml/node_varlen.hpp:1371-1406; psl 1574-1611; oml 1746-1784; osl 1711-1749) and the bytes of the page. -/
structure VarPage where
  inner : Bool
  removed : Bool
  blk : Nat
  del : Nat
  count : Nat
  next : Option Ptr
  lowOff : Nat
  lowLen : Nat
  highOff : Nat
  highLen : Nat
  mem : Ram

namespace VarPage

/-- The offset of `meta_array_[i]`. -/
def metaOff (cfg : Cfg K) (i : Nat) : Nat := cfg.headerLen + cfg.metaLen * i

/-- Read `len` bytes of the data block. -/
def rd (cfg : Cfg K) (g : VarPage) (off len : Nat) : Res (List Byte) :=
  if cfg.headerLen ≤ off ∧ off + len ≤ cfg.pageSize then .ok (g.mem.bytes off len) else .ub

/-- Write bytes into the data block. -/
def wr (cfg : Cfg K) (g : VarPage) (off : Nat) (bs : List Byte) : Res VarPage :=
  if cfg.headerLen ≤ off ∧ off + bs.length ≤ cfg.pageSize then .ok { g with mem := g.mem.write off bs } else .ub

/-- `memmove` inside the data block. -/
def mv (cfg : Cfg K) (g : VarPage) (dst src len : Nat) : Res VarPage :=
  if cfg.headerLen ≤ dst ∧ dst + len ≤ cfg.pageSize ∧ cfg.headerLen ≤ src ∧ src + len ≤ cfg.pageSize then
    .ok { g with mem := g.mem.move dst src len }
  else .ub

/-- `meta_array_[i]` as a value: a little-endian word. -/
def rdMeta (cfg : Cfg K) (g : VarPage) (i : Nat) : Res MetaWord := do
  let bs ← g.rd cfg (metaOff cfg i) cfg.metaLen
  return BitVec.ofNat 64 (bytesNat bs)

/-- `meta_array_[i] = w` -/
def wrMeta (cfg : Cfg K) (g : VarPage) (i : Nat) (w : MetaWord) : Res VarPage := g.wr cfg (metaOff cfg i) (natBytes cfg.metaLen w.toNat)

/-- The bytes at `GetKeyAddr(meta)`: osl/node_varlen.hpp:1411-1441 and copies.  (For keys of fixed size the code reads `sizeof(Key)` bytes,
which is the length stored in the metadata of every record that has a key.) -/
def keyBytes (cfg : Cfg K) (g : VarPage) (w : MetaWord) : Res (List Byte) := g.rd cfg w.offset w.keyLen

/-- `GetKey(i)`: osl/node_varlen.hpp:294-299 and copies. -/
def getKey {cfg : Cfg K} (C : Codec cfg V) (g : VarPage) (i : Nat) : Res K := do
  let w ← g.rdMeta cfg i
  let bs ← g.keyBytes cfg w
  match C.getKey bs with
  | some k => .ok k
  | none => .ub

/-- `GetPayload<Payload>(i)`: osl/node_varlen.hpp:317-323, 1443-1463 and copies. -/
def getVal {cfg : Cfg K} (C : Codec cfg V) (g : VarPage) (i : Nat) : Res V := do
  let w ← g.rdMeta cfg i
  let bs ← g.rd cfg (w.offset + w.keyLen) cfg.payLen
  match C.getVal bs with
  | some v => .ok v
  | none => .ub

/-- `GetPayload<Node *>(i)`. -/
def getChild (cfg : Cfg K) (g : VarPage) (i : Nat) : Res Ptr := do
  let w ← g.rdMeta cfg i
  let bs ← g.rd cfg (w.offset + w.keyLen) cfg.ptrLen
  return bytesNat bs

/-- `RecordIsDeleted(i)`: osl/node_varlen.hpp:352-357 and copies. -/
def isDeleted (cfg : Cfg K) (g : VarPage) (i : Nat) : Res Bool := do
  let w ← g.rdMeta cfg i
  return w.isDeleted

/-- `GetHighKey`: osl/node_varlen.hpp:233-249 and copies. -/
def getHigh {cfg : Cfg K} (C : Codec cfg V) (g : VarPage) : Res K := do
  let bs ← g.rd cfg g.highOff g.highLen
  match C.getKey bs with
  | some k => .ok k
  | none => .ub

/-- The lowest key: `GetSeparatorKey(false)`, osl/node_varlen.hpp:256-284. -/
def getLow {cfg : Cfg K} (C : Codec cfg V) (g : VarPage) : Res K := do
  let bs ← g.rd cfg g.lowOff g.lowLen
  match C.getKey bs with
  | some k => .ok k
  | none => .ub

/-- The loop of `SearchRecord` on the metadata array; `e` is `end_pos + 1`. -/
def searchLoop {cfg : Cfg K} (C : Codec cfg V) (g : VarPage) (k : K) : Nat → Nat → Nat → Res (NodeRC × Nat)
  | 0, _, _ => .fuel
  | f + 1, b, e =>
    if b < e then do
      let pos := (b + e - 1) / 2
      let ik ← g.getKey C pos
      if k < ik then g.searchLoop C k f b pos
      else if ik < k then g.searchLoop C k f (pos + 1) e
      else do
        let d ← g.isDeleted cfg pos
        return (if d then .keyAlreadyDeleted else .keyAlreadyInserted, pos)
    else .ok (.keyNotInserted, b)

/-- `SearchRecord`: pml/node_varlen.hpp:432-453; psl 411-433; oml 487-509; osl 454-476. -/
def searchRecord {cfg : Cfg K} (C : Codec cfg V) (g : VarPage) (k : K) : Res (NodeRC × Nat) :=
  match g.searchLoop C k (g.count + 1) (if g.inner then 1 else 0) g.count with
  | .ok (.keyNotInserted, b) => .ok (.keyNotInserted, b - (if g.inner then 1 else 0))
  | r => r

/-- `CompHighKey`: pml/node_varlen.hpp:1009-1026; psl 1209; oml 1299; osl 1382-1401. -/
def compHighKey {cfg : Cfg K} (C : Codec cfg V) (g : VarPage) (k : K) : Res Bool :=
  if g.highLen = 0 then .ok true
  else do
    let h ← g.getHigh C
    return decide (k < h)

/-- `SetKey`, `SetPayload`: osl/node_varlen.hpp:1473-1508 and copies.  Returns the new offset. -/
def put (cfg : Cfg K) (g : VarPage) (off : Nat) (bs : List Byte) : Res (VarPage × Nat) := do
  let off ← usub off bs.length
  let g ← g.wr cfg off bs
  return (g, off)

/-- `InsertRecord`: pml/node_varlen.hpp:1151-1170; psl 1353-1379 (behind the room test); oml 1526-1546; osl 788-815. -/
def insertRecord (cfg : Cfg K) (g : VarPage) (key pay : List Byte) (pos : Nat) : Res VarPage := do
  let off ← usub cfg.pageSize g.blk
  let (g, off) ← g.put cfg off pay
  let (g, off) ← g.put cfg off key
  let num ← usub g.count pos
  let g ← g.mv cfg (metaOff cfg (pos + 1)) (metaOff cfg pos) (cfg.metaLen * num)
  let g ← g.wrMeta cfg pos (MetaWord.make 0 off key.length (key.length + pay.length))
  return { g with count := g.count + 1, blk := g.blk + (key.length + pay.length) }

/-- `memcpy(GetPayloadAddr(meta_array_[pos]), payload, pay_len)`: pml/node_varlen.hpp:558, 616 and copies (`Write` and `Update` of a live
record). -/
def setVal (cfg : Cfg K) (g : VarPage) (pos : Nat) (pay : List Byte) : Res VarPage := do
  let w ← g.rdMeta cfg pos
  g.wr cfg (w.offset + w.keyLen) pay

/-- `ReuseRecord`: pml/node_varlen.hpp:1180-1192; psl 1389-1402; oml 1555-1567; osl 1522-1541. -/
def reuseRecord (cfg : Cfg K) (g : VarPage) (pay : List Byte) (pos : Nat) : Res VarPage := do
  let w ← g.rdMeta cfg pos
  let g ← g.wrMeta cfg pos (w.setDeleted false)
  let g ← g.wr cfg (w.offset + w.keyLen) pay
  let del ← usub g.del (w.recLen + cfg.metaLen)
  return { g with del := del }

/-- The removal in `Delete`: pml/node_varlen.hpp:643-644; psl 716-717; oml 893-894; osl 890-891. -/
def removeRecord (cfg : Cfg K) (g : VarPage) (pos : Nat) : Res VarPage := do
  let w ← g.rdMeta cfg pos
  let g ← g.wrMeta cfg pos (w.setDeleted true)
  return { g with del := g.del + (w.recLen + cfg.metaLen) }

/-- `InsertChild`: psl/node_varlen.hpp:763-772; osl 935-947; pml 660-680 and oml 915-936 shift the metadata first, which gives the same
page.  The new child goes behind slot `pos`. -/
def insertChild (cfg : Cfg K) (g : VarPage) (key child : List Byte) (pos : Nat) : Res VarPage := do
  let off ← usub cfg.pageSize g.blk
  let (g, off) ← g.put cfg off child
  let (g, off) ← g.put cfg off key
  let num ← usub (g.count - 1) pos
  let g ← g.mv cfg (metaOff cfg (pos + 2)) (metaOff cfg (pos + 1)) (cfg.metaLen * num)
  let g ← g.wrMeta cfg (pos + 1) (MetaWord.make 0 off key.length (key.length + child.length))
  return { g with count := g.count + 1, blk := g.blk + (key.length + child.length) }

/-- `DeleteChild` (removal of slot `pos`): psl/node_varlen.hpp:808-814; osl 986-993; pml 688-700 and oml 945-960 with `pos` one smaller. -/
def deleteChild (cfg : Cfg K) (g : VarPage) (pos : Nat) : Res VarPage := do
  let w ← g.rdMeta cfg pos
  let num ← usub (g.count - 1) pos
  let g ← g.mv cfg (metaOff cfg pos) (metaOff cfg (pos + 1)) (cfg.metaLen * num)
  return { g with count := g.count - 1, del := g.del + w.recLen }

/-- `CopyKeyFrom`: osl/node_varlen.hpp:1576-1589 and copies. -/
def copyKeyFrom (cfg : Cfg K) (g src : VarPage) (w : MetaWord) (off : Nat) : Res (VarPage × Nat) := do
  let bs ← src.keyBytes cfg w
  g.put cfg off bs

/-- `if (key_len > 0) { offset -= key_len; memcpy(…) }` for a border key of `src`. -/
def copyBorder (cfg : Cfg K) (g src : VarPage) (from_ len off : Nat) : Res (VarPage × Nat) :=
  if 0 < len then do
    let bs ← src.rd cfg from_ len
    g.put cfg off bs
  else .ok (g, off)

/-- `CopyLowKeyFrom`: osl/node_varlen.hpp:1597-1612 and copies. -/
def copyLowKeyFrom (cfg : Cfg K) (g src : VarPage) : Res (VarPage × Nat) := do
  let (g, off) ← g.copyBorder cfg src src.lowOff src.lowLen cfg.pageSize
  return ({ g with lowOff := off, lowLen := src.lowLen }, off)

/-- `CopyHighKeyFrom`: osl/node_varlen.hpp:1620-1633 and copies. -/
def copyHighKeyFrom (cfg : Cfg K) (g src : VarPage) (off : Nat) : Res (VarPage × Nat) :=
  g.copyBorder cfg src src.highOff src.highLen off

/-- `CopyRecordFrom`: osl/node_varlen.hpp:1643-1659 and copies. -/
def copyRecordFrom (cfg : Cfg K) (g src : VarPage) (w : MetaWord) (off : Nat) : Res (VarPage × Nat) := do
  let bs ← src.rd cfg w.offset w.recLen
  let (g, off) ← g.put cfg off bs
  let g ← g.wrMeta cfg g.count (MetaWord.make 0 off w.keyLen w.recLen)
  return ({ g with count := g.count + 1 }, off)

/-- `CopyRecordsFrom` for the `m` slots from `pos` on: osl/node_varlen.hpp:1670-1687 and copies. -/
def copyRecordsFrom (cfg : Cfg K) (g src : VarPage) : Nat → Nat → Nat → Res (VarPage × Nat)
  | 0, _, off => .ok (g, off)
  | m + 1, pos, off => do
    let w ← src.rdMeta cfg pos
    let (g, off) ← if w.isDeleted then .ok (g, off) else g.copyRecordFrom cfg src w off
    g.copyRecordsFrom cfg src m (pos + 1) off

/-- `memcpy(meta_array_, temp_node_->meta_array_, kMetaLen * record_count_)` and
`memcpy(ShiftAddr(this, offset), ShiftAddr(temp_node_, offset), kPageSize - offset)`. -/
def takeFrom (cfg : Cfg K) (g tmp : VarPage) (count off : Nat) : Res VarPage := do
  let ms ← tmp.rd cfg cfg.headerLen (cfg.metaLen * count)
  let g ← g.wr cfg cfg.headerLen ms
  let len ← usub cfg.pageSize off
  let bs ← tmp.rd cfg off len
  g.wr cfg off bs

/-- `CleanUp`: pml/node_varlen.hpp:1199-1218; psl 1408-1430; oml 1574-1596; osl 1545-1568.  (PML and OML assign `h_key_offset_` before they
copy the records; it is not read in between.)  `tmp` is `temp_node_`, whose `record_count_` is zero between calls. -/
def cleanUp (cfg : Cfg K) (g tmp : VarPage) : Res VarPage := do
  let (tmp, off) ← tmp.copyLowKeyFrom cfg g
  let (tmp, hoff) ← tmp.copyHighKeyFrom cfg g off
  let (tmp, off) ← tmp.copyRecordsFrom cfg g g.count 0 hoff
  let g ← g.takeFrom cfg tmp tmp.count off
  return { g with blk := cfg.pageSize - off, del := 0, count := tmp.count, highOff := hoff }

/-- The copying loop of `Split`: pml/node_varlen.hpp:720-727; psl 847-854; oml 979-986; osl 1025-1032.  The loop has no other bound than
the size copied; `fuel` counts the turns. -/
def splitLoop (cfg : Cfg K) (tmp src : VarPage) (half : Nat) : Nat → Nat → Nat → Nat → Res (VarPage × Nat × Nat)
  | 0, _, _, _ => .fuel
  | f + 1, used, pos, off =>
    if used < half then do
      let w ← src.rdMeta cfg pos
      if w.isDeleted then tmp.splitLoop cfg src half f used (pos + 1) off
      else do
        let (tmp, off) ← tmp.copyRecordFrom cfg src w off
        tmp.splitLoop cfg src half f (used + (w.recLen + cfg.metaLen)) (pos + 1) off
    else .ok (tmp, pos, off)

/-- The lowest key of the right page in `Split`: psl/node_varlen.hpp:867 and osl 1045 take the copy in `temp_node_`, pml 732 and oml 992 the
key in the page. -/
def splitLow (cfg : Cfg K) (r g tmp : VarPage) (w : MetaWord) : Res (VarPage × Nat) :=
  if cfg.blink then r.copyHighKeyFrom cfg tmp cfg.pageSize else r.copyKeyFrom cfg g w cfg.pageSize

/-- `Split`: pml/node_varlen.hpp:712-768; psl 834-905; oml 971-1024; osl 1012-1083.  `r` is the right page as constructed, `rp` its
address. -/
def split (cfg : Cfg K) (g r tmp : VarPage) (rp : Ptr) : Res (VarPage × VarPage) := do
  let sum ← usub (cfg.metaLen * g.count + g.blk) g.del
  let (tmp, off) ← tmp.copyLowKeyFrom cfg g
  let (tmp, pos, off) ← tmp.splitLoop cfg g (sum / 2) (g.count + 1) 0 0 off
  let w ← g.rdMeta cfg pos
  let (tmp, off) ← tmp.copyKeyFrom cfg g w off
  let tmp := { tmp with highOff := off, highLen := w.keyLen }
  let (r, lowOff) ← r.splitLow cfg g tmp w
  let (r, highOff) ← r.copyHighKeyFrom cfg g lowOff
  let num ← usub g.count pos
  let (r, roff) ← r.copyRecordsFrom cfg g num pos highOff
  let links := cfg.blink || !g.inner
  let r := { r with
    lowOff := lowOff
    lowLen := w.keyLen
    highOff := highOff
    highLen := g.highLen
    blk := cfg.pageSize - roff
    next := if links then g.next else r.next }
  let g ← g.takeFrom cfg tmp tmp.count off
  let g := { g with
    blk := cfg.pageSize - off
    del := 0
    count := tmp.count
    next := if links then some rp else g.next
    highOff := off
    highLen := w.keyLen }
  return (g, r)

/-- `Merge`, effect on the left page: pml/node_varlen.hpp:776-806; psl 912-951; oml 1032-1074; osl 1090-1129.  (PML and OML assign
`h_key_offset_` and `h_key_len_` before they copy the records; these are not read in between.) -/
def merge (cfg : Cfg K) (g r tmp : VarPage) : Res VarPage := do
  let (tmp, off) ← tmp.copyLowKeyFrom cfg g
  let (tmp, hoff) ← tmp.copyHighKeyFrom cfg r off
  let (tmp, off) ← tmp.copyRecordsFrom cfg g g.count 0 hoff
  let g ← g.takeFrom cfg tmp tmp.count off
  let g := { g with count := tmp.count, highOff := hoff, highLen := r.highLen }
  let (g, off) ← g.copyRecordsFrom cfg r r.count 0 off
  return { g with
    blk := cfg.pageSize - off
    del := 0
    next := if cfg.blink || !g.inner then r.next else g.next }

/-- The constructor of an empty page on memory that may hold anything: pml/node_varlen.hpp:66-70 and copies. -/
def empty (cfg : Cfg K) (inner : Bool) (junk : Ram) : VarPage :=
  ⟨inner, false, 0, 0, 0, none, cfg.pageSize, 0, cfg.pageSize, 0, junk⟩

/-- The constructor of a new root: pml/node_varlen.hpp:79-96; psl 83-101; oml 82-99; osl 83-101. -/
def newRoot (cfg : Cfg K) (key l r : List Byte) (junk : Ram) : Res VarPage := do
  let g := empty cfg true junk
  let (g, off) ← g.put cfg cfg.pageSize l
  let g ← g.wrMeta cfg 0 (MetaWord.make 0 off 0 cfg.ptrLen)
  let (g, off) ← g.put cfg off r
  let (g, off) ← g.put cfg off key
  let g ← g.wrMeta cfg 1 (MetaWord.make 0 off key.length (key.length + cfg.ptrLen))
  return { g with count := 2, blk := cfg.pageSize - off }

/-- The loop of `Bulkload` for the entries that are taken (`bulkFill` of `Bulk.lean` decides how many): osl/node_varlen.hpp:1187-1200 and
copies. -/
def bulkFill (cfg : Cfg K) (g : VarPage) : List (List Byte × List Byte) → Nat → Res (VarPage × Nat)
  | [], off => .ok (g, off)
  | (key, pay) :: es, off => do
    let (g, off) ← g.put cfg off pay
    let (g, off) ← g.put cfg off key
    let g ← g.wrMeta cfg g.count (MetaWord.make 0 off key.length (key.length + pay.length))
    ({ g with count := g.count + 1 }).bulkFill cfg es off

/-- `Bulkload` of a node whose leftmost key is `low`: osl/node_varlen.hpp:1168-1215 and copies. -/
def bulkload (cfg : Cfg K) (g : VarPage) (low : List Byte) (es : List (List Byte × List Byte)) : Res VarPage := do
  let off ← usub cfg.pageSize cfg.maxKeyLen
  let (g, off) ← g.bulkFill cfg es off
  let g := { g with blk := cfg.pageSize - off }
  let (g, off) ← g.put cfg cfg.pageSize low
  return { g with lowOff := off, lowLen := low.length }

/-- The length of the highest key in `LinkNext`: psl/node_varlen.hpp:1561 and osl 1700 take that of the right page's lowest key, pml 1352 and
oml 1727 that of the right page's first record. -/
def linkLen (cfg : Cfg K) (r : VarPage) (w : MetaWord) : Nat := if cfg.blink then r.lowLen else w.keyLen

/-- `LinkNext`: pml/node_varlen.hpp:1348-1365; psl 1557-1568; oml 1723-1740; osl 1695-1706.  `GetKey` gives the bytes of the first key;
copying more bytes than it has reads memory outside the key. -/
def linkNext (cfg : Cfg K) (g r : VarPage) (rp : Ptr) : Res VarPage := do
  let w ← r.rdMeta cfg 0
  let bs ← r.keyBytes cfg w
  let len := linkLen cfg r w
  if bs.length < len then .ub
  else do
    let off ← usub cfg.pageSize g.blk
    let (g, off) ← g.put cfg off (bs.take len)
    return { g with
      highLen := len
      highOff := off
      blk := g.blk + len
      next := if cfg.blink || !g.inner then some rp else g.next }

/-- What `RemoveLeftmostKeys` does to an inner root: osl/node_varlen.hpp:1262-1264 and copies. -/
def strip (cfg : Cfg K) (g : VarPage) : VarPage := { g with lowLen := 0, lowOff := cfg.pageSize }

end VarPage
end BT
