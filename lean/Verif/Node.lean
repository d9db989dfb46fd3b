import Verif.Basic

/-!
# Page-level functions, shared by the four variants

Every definition cites the lines it models.  Lock calls are dropped here: this file describes
what happens to a page between acquiring and releasing its lock.  Where the four variants have
textually equal bodies up to lock calls, all places are cited and one definition is used.
-/

namespace BT
variable {K V : Type} [LinearOrder K]

/-- `memmove` + store: insert `r` at position `i`. -/
def insAt {α : Type} (l : List α) (i : Nat) (r : α) : List α := l.take i ++ r :: l.drop i
/-- overwrite position `i` -/
def updAt {α : Type} (l : List α) (i : Nat) (r : α) : List α := l.take i ++ r :: l.drop (i + 1)
/-- `memmove`: remove position `i` -/
def delAt {α : Type} (l : List α) (i : Nat) : List α := l.take i ++ l.drop (i + 1)

/-- `meta.rec_len`: key length plus payload length. -/
def Rec.len (cfg : Cfg K) (isInner : Bool) (r : Rec K V) : Nat := cfg.oklen r.key + cfg.plen isInner

namespace Node

/-- `record_count_` -/
def rc (n : Node K V) : Nat := n.recs.length

/-- `has_low_key_ + has_high_key_` of node_fixlen.hpp -/
def borders (n : Node K V) : Nat :=
  (if n.low.isSome then 1 else 0) + (if n.high.isSome then 1 else 0)

/-- `GetUsedSize`: pml/node_varlen.hpp:955-959, pml/node_fixlen.hpp:922-926; psl varlen 1177-1181,
fixlen 1034-1038; oml varlen 1245-1249, fixlen 1195-1199; osl varlen 1351-1355, fixlen 1198-1202. -/
def usedSize (cfg : Cfg K) (n : Node K V) : Nat :=
  match cfg.layout with
  | .var => cfg.metaLen * n.rc + n.block - n.dead
  | .fix => cfg.maxKeyLen * (n.rc + n.borders) + n.block

/-- `GetNodeUsage`: pml/node_varlen.hpp:183-187, pml/node_fixlen.hpp:173-177 and the copies in
psl, oml and osl. -/
def nodeUsage (cfg : Cfg K) (n : Node K V) : Nat :=
  match cfg.layout with
  | .var => cfg.headerLen + n.rc * cfg.metaLen + n.block
  | .fix => cfg.headerLen + n.rc * cfg.maxKeyLen + n.block

/-- Does the page have room for one more slot with a record of `len` bytes?  Not a function of the
code: it is the condition under which the writes of `InsertRecord`/`InsertChild` stay inside the
free gap between the slot area and the record area. -/
def fitsOne (cfg : Cfg K) (n : Node K V) (len : Nat) : Bool :=
  match cfg.layout with
  | .var => decide (cfg.metaLen * (n.rc + 1) + n.block + len ≤ cfg.cap)
  | .fix => decide (cfg.maxKeyLen * (n.rc + n.borders) + n.block + len ≤ cfg.cap)

/-- Does the page as a whole respect its borders?  Used as the safety condition of the code that
rebuilds pages (split, merge, clean-up, bulkload, root construction). -/
def fits (cfg : Cfg K) (n : Node K V) : Bool :=
  match cfg.layout with
  | .var => decide (cfg.metaLen * n.rc + n.block ≤ cfg.cap)
  | .fix => decide (cfg.maxKeyLen * (n.rc + n.borders) + n.block ≤ cfg.cap)

/-- Turn a page that does not respect its borders into undefined behaviour. -/
def checked (cfg : Cfg K) (n : Node K V) : Res (Node K V) := if n.fits cfg then .ok n else .ub

/-- `CompHighKey`: pml/node_varlen.hpp:1009-1026, pml/node_fixlen.hpp:944-948 and copies
(psl varlen 1209, fixlen 1046; oml varlen 1299, fixlen 1218; osl varlen 1383, fixlen 1210). -/
def compHighKey (n : Node K V) (k : K) : Bool :=
  match n.high with
  | none => true
  | some h => decide (k < h)

/-- The loop of `SearchRecord`.  `e` is `end_pos + 1`.  Reading a slot outside the page or a blank key
is undefined behaviour. -/
def searchLoop (recs : List (Rec K V)) (k : K) : Nat → Nat → Nat → Res (NodeRC × Nat)
  | 0, _, _ => .fuel
  | f + 1, b, e =>
    if b < e then
      let pos := (b + e - 1) / 2
      match recs[pos]? with
      | none => .ub
      | some r =>
        match r.key with
        | none => .ub
        | some ik =>
          if k < ik then searchLoop recs k f b pos
          else if ik < k then searchLoop recs k f (pos + 1) e
          else .ok (if r.del then .keyAlreadyDeleted else .keyAlreadyInserted, pos)
    else .ok (.keyNotInserted, b)

/-- `SearchRecord`: pml/node_varlen.hpp:432-453, pml/node_fixlen.hpp:434-453; psl varlen 411-433,
fixlen 388-408; oml varlen 487-509, fixlen 469-489; osl varlen 454-476, fixlen 420-440.
(The fixed-length copies have no deletion mark; their pages never contain marked slots.) -/
def searchRecord (n : Node K V) (k : K) : Res (NodeRC × Nat) :=
  match searchLoop n.recs k (n.rc + 1) (if n.isInner then 1 else 0) n.rc with
  | .ok (.keyNotInserted, b) => .ok (.keyNotInserted, b - (if n.isInner then 1 else 0))
  | r => r

/-- `GetPayload<Payload>(pos)` in a leaf. -/
def getVal (n : Node K V) (pos : Nat) : Res V :=
  match n.recs[pos]? with
  | some ⟨_, .val v, _⟩ => .ok v
  | _ => .ub

/-- `GetPayload<Node *>(pos)`: using a user payload as a pointer is undefined. -/
def getChild (n : Node K V) (pos : Nat) : Res Ptr :=
  match n.recs[pos]? with
  | some ⟨_, .ptr p, _⟩ => .ok p
  | _ => .ub

/-- `Read` of a leaf: pml varlen 494-509, fixlen 494-508; psl varlen 549-564, fixlen 525-540.
(The optimistic variants additionally re-check the version, see Oml/Osl.) -/
def read (n : Node K V) (k : K) : Res (Option V) := do
  let (ex, pos) ← n.searchRecord k
  if ex = .keyAlreadyInserted then
    let v ← n.getVal pos
    return some v
  else return none

/-- `InsertRecord`: pml varlen 1151-1170, fixlen 995-1015; psl varlen 1353-1379, fixlen 1099-1126
(their `kNeedSplit` test is modelled in Psl); oml varlen 1526-1546, fixlen 1325-1346;
osl varlen 789-815, fixlen 731-760.  Writing into occupied bytes is undefined. -/
def insertRecord (cfg : Cfg K) (n : Node K V) (k : K) (pay : Pay V) (pos : Nat) : Res (Node K V) :=
  let r : Rec K V := ⟨some k, pay, false⟩
  if n.fitsOne cfg (match cfg.layout with
      | .var => r.len cfg n.isInner
      | .fix => cfg.maxKeyLen + cfg.plen n.isInner) then
    .ok { n with
      recs := insAt n.recs pos r
      block := n.block + (match cfg.layout with
        | .var => r.len cfg n.isInner
        | .fix => cfg.plen n.isInner) }
  else .ub

/-- `memcpy(GetPayloadAddr(pos), payload, pay_len)` on an existing slot. -/
def setPayload (n : Node K V) (pos : Nat) (v : V) : Res (Node K V) :=
  match n.recs[pos]? with
  | some r => .ok { n with recs := updAt n.recs pos { r with pay := .val v } }
  | none => .ub

/-- `ReuseRecord`: pml varlen 1180-1192; psl varlen 1389-1402; oml varlen 1555-1567;
osl varlen 1523-1541 (variable-length layout only). -/
def reuseRecord (cfg : Cfg K) (n : Node K V) (pos : Nat) (v : V) : Res (Node K V) :=
  match n.recs[pos]? with
  | some r => .ok { n with
      recs := updAt n.recs pos { r with pay := .val v, del := false }
      dead := n.dead - (r.len cfg n.isInner + cfg.metaLen) }
  | none => .ub

/-- Physical removal of a record: the deletion branch of `Delete`, pml varlen 643-644 (mark the slot and
account its bytes as dead), pml fixlen 637-646 (shift keys and payloads); psl varlen 716-717,
fixlen 672-680; oml varlen 893-894, fixlen 866-874; osl varlen 890-891, fixlen 834-842. -/
def removeRecord (cfg : Cfg K) (n : Node K V) (pos : Nat) : Res (Node K V) :=
  match n.recs[pos]? with
  | none => .ub
  | some r =>
    match cfg.layout with
    | .var => .ok { n with
        recs := updAt n.recs pos { r with del := true }
        dead := n.dead + (r.len cfg n.isInner + cfg.metaLen) }
    | .fix => .ok { n with
        recs := delAt n.recs pos
        block := n.block - cfg.plen n.isInner }

/-- Live slots, in order: what `CopyRecordsFrom` copies (pml varlen 1323-1339 and copies; in the
fixed-length layout, pml fixlen 1050-1064 and copies, every slot is live). -/
def liveRecs (recs : List (Rec K V)) : List (Rec K V) := recs.filter (fun r => !r.del)

/-- Bytes taken from the record area by copying `recs`. -/
def recBytes (cfg : Cfg K) (isInner : Bool) (recs : List (Rec K V)) : Nat :=
  (recs.map (fun r => r.len cfg isInner)).sum

/-- `CleanUp`: pml varlen 1199-1218; psl varlen 1408-1430; oml varlen 1574-1596;
osl varlen 1546-1568. -/
def cleanUp (cfg : Cfg K) (n : Node K V) : Res (Node K V) :=
  let live := liveRecs n.recs
  checked cfg { n with
    recs := live
    block := cfg.oklen n.low + cfg.oklen n.high + recBytes cfg n.isInner live
    dead := 0 }

/-! ### Splitting -/

/-- The copying loop of the variable-length `Split` (pml varlen 720-727; psl 847-854; oml 979-986;
osl 1025-1032): advance until the copied live records occupy at least `half` bytes.  Returns the
position after the last visited slot.  Running past the slot array is undefined. -/
def splitLoop (cfg : Cfg K) (isInner : Bool) (half : Nat) :
    List (Rec K V) → Nat → Nat → Res Nat
  | recs, used, pos =>
    if used < half then
      match recs with
      | [] => .ub
      | r :: rs =>
        splitLoop cfg isInner half rs
          (if r.del then used else used + (r.len cfg isInner + cfg.metaLen)) (pos + 1)
    else .ok pos
  termination_by structural recs => recs

/-- `next_` is maintained on every level by PSL/OSL and on the leaf level only by PML/OML
(`if (!is_inner_)` in pml varlen 743,755,798 and copies). -/
def hasNext (cfg : Cfg K) (n : Node K V) : Bool := cfg.blink || !n.isInner

/-- Variable-length `Split`: pml varlen 712-768; psl 835-905; oml 971-1024; osl 1013-1083.
`r` is the address of the (empty) right node.  Returns the new left and right pages.
Reading the separator behind the last slot is undefined. -/
def splitVar (cfg : Cfg K) (n : Node K V) (r : Ptr) : Res (Node K V × Node K V) := do
  let half := (cfg.metaLen * n.rc + n.block - n.dead) / 2
  let pos ← splitLoop cfg n.isInner half n.recs 0 0
  match n.recs[pos]? with
  | none => .ub
  | some sepRec =>
    let sep := sepRec.key
    let l := liveRecs (n.recs.take pos)
    let rr := liveRecs (n.recs.drop pos)
    let left : Node K V := { n with
      recs := l
      high := sep
      next := if n.hasNext cfg then some r else n.next
      block := cfg.oklen n.low + recBytes cfg n.isInner l + cfg.oklen sep
      dead := 0 }
    let right : Node K V := {
      isInner := n.isInner
      recs := rr
      low := sep
      high := n.high
      next := if n.hasNext cfg then n.next else none
      block := cfg.oklen sep + cfg.oklen n.high + recBytes cfg n.isInner rr
      dead := 0 }
    let left ← checked cfg left
    let right ← checked cfg right
    return (left, right)

/-- The key array of a fixed-length page: slot keys, then the highest key, then the lowest key. -/
def keyArray (n : Node K V) : List (Option K) :=
  n.recs.map Rec.key ++ (if n.high.isSome then [n.high] else []) ++
    (if n.low.isSome then [n.low] else [])

/-- Fixed-length `Split`: pml fixlen 720-755; psl 806-840; oml 961-995; osl 970-1004.
PML and OML update `record_count_`/`has_high_key_` before they move the lowest key, so the left page
ends up with the stale entry `keys_[l_count + 1]` as its lowest key; PSL and OSL keep it. -/
def splitFix (cfg : Cfg K) (n : Node K V) (r : Ptr) : Res (Node K V × Node K V) := do
  let lcount := n.rc / 2
  match n.recs[lcount]? with
  | none => .ub
  | some sepRec =>
    let sep := sepRec.key
    let left : Node K V := { n with
      recs := n.recs.take lcount
      low := if n.low.isSome then (if cfg.blink then n.low else (n.keyArray[lcount + 1]?).join)
             else none
      high := sep
      next := if n.hasNext cfg then some r else n.next
      block := n.block - cfg.plen n.isInner * (n.rc - lcount) }
    let right : Node K V := {
      isInner := n.isInner
      recs := n.recs.drop lcount
      low := sep
      high := n.high
      next := if n.hasNext cfg then n.next else none
      block := cfg.plen n.isInner * (n.rc - lcount) }
    let left ← checked cfg left
    let right ← checked cfg right
    return (left, right)

/-- `Split` of either layout. -/
def split (cfg : Cfg K) (n : Node K V) (r : Ptr) : Res (Node K V × Node K V) :=
  match cfg.layout with
  | .var => n.splitVar cfg r
  | .fix => n.splitFix cfg r

/-! ### Merging -/

/-- `Merge`: pml varlen 776-806, fixlen 763-786; psl varlen 913-951, fixlen 848-875;
oml varlen 1032-1074, fixlen 1003-1036; osl varlen 1091-1129, fixlen 1012-1039.
Effect on the left page. -/
def merge (cfg : Cfg K) (l r : Node K V) : Res (Node K V) :=
  match cfg.layout with
  | .var =>
    let recs := liveRecs l.recs ++ liveRecs r.recs
    checked cfg { l with
      recs := recs
      high := r.high
      next := if l.hasNext cfg then r.next else l.next
      block := cfg.oklen l.low + cfg.oklen r.high + recBytes cfg l.isInner recs
      dead := 0 }
  | .fix =>
    checked cfg { l with
      recs := l.recs ++ r.recs
      high := r.high
      next := if l.hasNext cfg then r.next else l.next
      block := l.block + cfg.plen l.isInner * r.rc }

/-- The test of `GetMergeableRightChild`/`CanMerge`/`GetMergeableSiblingNode`:
pml varlen 316, fixlen 153-157; psl varlen 211, fixlen 206; oml varlen 343, fixlen 327;
osl varlen 221, fixlen 216. -/
def canMerge (cfg : Cfg K) (l r : Node K V) : Bool :=
  decide (l.usedSize cfg + r.usedSize cfg < cfg.maxUsed)

/-! ### Inner nodes -/

/-- Physical insertion of a child behind slot `pos`: the body of `InsertChild`, pml varlen 660-680,
fixlen 662-684; psl varlen 763-772, fixlen 722-738; oml varlen 915-936, fixlen 898-922;
osl varlen 935-947, fixlen 888-906.  `sep` must be a real key. -/
def placeChild (cfg : Cfg K) (n : Node K V) (sep : Option K) (r : Ptr) (pos : Nat) :
    Res (Node K V) :=
  match sep with
  | none => .ub
  | some k => n.insertRecord cfg k (.ptr r) (pos + 1)

/-- Physical removal of slot `pos`: the body of `DeleteChild`, pml varlen 688-700, fixlen 692-709 (with
`pos + 1`); psl varlen 808-814, fixlen 775-787; oml varlen 945-960, fixlen 931-949 (with `pos + 1`);
osl varlen 986-993, fixlen 939-951.  The variable-length layout only accounts the record bytes as dead
(the slot itself disappears). -/
def dropChild (cfg : Cfg K) (n : Node K V) (pos : Nat) : Res (Node K V) :=
  match n.recs[pos]? with
  | none => .ub
  | some r =>
    match cfg.layout with
    | .var => .ok { n with
        recs := delAt n.recs pos
        dead := n.dead + r.len cfg n.isInner }
    | .fix => .ok { n with
        recs := delAt n.recs pos
        block := n.block - cfg.plen n.isInner }

/-- Constructor of a new root over two children: pml varlen 79-96, fixlen 81-89;
psl varlen 83-101, fixlen 81-96; oml varlen 82-99, fixlen 81-94; osl varlen 83-101, fixlen 81-96.
The key of slot 0 is blank (varlen) or uninitialised (fixlen). -/
def newRoot (cfg : Cfg K) (sep : Option K) (l r : Ptr) : Res (Node K V) :=
  match sep with
  | none => .ub
  | some k => checked cfg {
      isInner := true
      recs := [⟨none, .ptr l, false⟩, ⟨some k, .ptr r, false⟩]
      block := match cfg.layout with
        | .var => cfg.ptrLen + (cfg.klen k + cfg.ptrLen)
        | .fix => 2 * cfg.ptrLen }

/-- The empty leaf every tree starts with (constructor `Node_t{kLeafFlag}`). -/
def emptyLeaf : Node K V := { isInner := false, recs := [] }

/-! ### Scanning -/

/-- `IsRightmostOf`: pml varlen 943-949, fixlen 910-916 and copies (psl varlen 1115, fixlen 1022;
oml varlen 1233, fixlen 1183; osl varlen 1293, fixlen 1186). -/
def isRightmostOf (n : Node K V) (e : ScanKey K) : Bool :=
  match n.next with
  | none => true
  | some _ =>
    match e with
    | none => false
    | some (k, _) => n.compHighKey k

/-- `SearchEndPositionFor`: pml varlen 463-477, fixlen 463-477 and copies (psl varlen 460,
fixlen 436; oml varlen 597, fixlen 577; osl varlen 515, fixlen 479). -/
def searchEndPositionFor (n : Node K V) (e : ScanKey K) : Res (Bool × Nat) :=
  let isEnd := n.isRightmostOf e
  match isEnd, e with
  | true, some (k, closed) => do
    let (rc, pos) ← n.searchRecord k
    return (isEnd, if rc = .keyAlreadyInserted ∧ closed = true then pos + 1 else pos)
  | _, _ => return (isEnd, n.rc)

end Node
end BT
