import Verif.Frame

/-!
# Bulkloading

The four trees have the same code here (`Bulkload`, `BulkloadWithSingleThread`, `ConstructSingleLayer` of `b_tree.hpp`, and
`Bulkload`, `LinkNext`, `LinkVerticalBorderNodes`, `RemoveLeftmostKeys` of the node classes); the only difference is on which
levels `LinkNext` sets the sibling link, which `Cfg.blink` decides.

Simplification: the worker threads of a parallel bulkload run one after the other.  They only write pages that they have
allocated themselves, and the caller waits for all of them (`future.get()`) before it uses a result.
-/

set_option linter.unusedSectionVars false

namespace BT
variable {K V : Type} [LinearOrder K]

/-- `kNodeCapacityForBulkLoading` (common.hpp:56) and `kInnerNodeCap` (pml/b_tree.hpp:393, psl 450, oml 408, osl 439). -/
structure BulkCfg where
  cap : Nat
  innerCap : Nat

/-- What `node_size` grows by for one entry: pml varlen 843-846 (`rec_len + sizeof(Metadata)`), pml fixlen 810, 817
(`rec_len`), and copies. -/
def bulkRec (cfg : Cfg K) (inner : Bool) (k : K) : Nat := cfg.klen k + cfg.plen inner + cfg.mlen

/-- Initial value of `node_size`: pml varlen 839, pml fixlen 814, and copies. -/
def bulkBase (cfg : Cfg K) : Nat :=
  match cfg.layout with
  | .var => cfg.headerLen + cfg.maxKeyLen
  | .fix => cfg.headerLen

/-- What the capacity test adds to `node_size`: pml varlen 847, pml fixlen 818, and copies. -/
def bulkReserve (cfg : Cfg K) : Nat :=
  match cfg.layout with
  | .var => cfg.maxKeyLen
  | .fix => 2 * cfg.maxKeyLen

/-- The loop of a node's `Bulkload`: pml varlen 840-853, fixlen 815-824; psl varlen 1009-1022, fixlen 927-936;
oml varlen 1108-1121, fixlen 1066-1075; osl varlen 1187-1200, fixlen 1091-1100.  Returns the filled slots and the entries left. -/
def bulkFill (cfg : Cfg K) (bc : BulkCfg) (inner : Bool) :
    Nat → List (K × Pay V) → List (Rec K V) × List (K × Pay V)
  | _, [] => ([], [])
  | size, (k, pay) :: es =>
    if bc.cap < size + bulkRec cfg inner k + bulkReserve cfg then ([], (k, pay) :: es)
    else
      let r := bulkFill cfg bc inner (size + bulkRec cfg inner k) es
      (⟨some k, pay, false⟩ :: r.1, r.2)

/-- The page a node's `Bulkload` leaves (before it is linked): pml varlen 855-859 (the space of the lowest key is `kMaxKeyLen`
bytes), fixlen 826-835, and copies. -/
def bulkNode (cfg : Cfg K) (inner : Bool) (k : K) (recs : List (Rec K V)) : Node K V where
  isInner := inner
  recs := recs
  low := some k
  block := match cfg.layout with
    | .var => cfg.maxKeyLen + Node.recBytes cfg inner recs
    | .fix => cfg.plen inner * recs.length

/-- `LinkNext`: pml varlen 1348-1365, fixlen 1096-1107; psl varlen 1558-1568, fixlen 1208-1217; oml varlen 1723-1740,
fixlen 1426-1437; osl varlen 1696-1713, fixlen 1332-1343.  The left page takes the key of the right page's first slot as its
highest key.  (PSL and OSL take the length of that key from the right page's lowest key, which `Bulkload` has set to the same
key.)  An empty right page, or a left page whose bytes overflow, is undefined behaviour. -/
def linkNext (cfg : Cfg K) (l r : Ptr) : M K V Unit := do
  let ln ← M.load l
  let rn ← M.load r
  match hdKey rn.recs none with
  | none => M.ub
  | some k =>
    let ln' ← M.lift (Node.checked cfg { ln with
      high := some k
      next := if ln.hasNext cfg then some r else ln.next
      block := match cfg.layout with
        | .var => ln.block + cfg.klen k
        | .fix => ln.block })
    M.store l ln'

/-- `if (prev_node != nullptr) prev_node->LinkNext(this)`: pml varlen 862-864, fixlen 829-831, and copies. -/
def linkPrev (cfg : Cfg K) (prev : Option Ptr) (p : Ptr) : M K V Unit :=
  match prev with
  | none => pure ()
  | some l => linkNext cfg l p

/-- `ConstructSingleLayer`: pml/b_tree.hpp:724-748, psl 905-929, oml 804-828, osl 878-902, with the node's `Bulkload` (pml varlen
822-866, fixlen 802-838 and copies) inlined.  A page that overflows is undefined behaviour; so is a fixed-length page that
receives no entry (its `keys_[0]` is read uninitialised), while a variable-length page that receives none makes the loop start
over with the same entry. -/
def constructLayer (cfg : Cfg K) (bc : BulkCfg) (inner : Bool) :
    Nat → List (K × Pay V) → Option Ptr → M K V (List (K × Ptr))
  | 0, _, _ => M.outOfFuel
  | _ + 1, [], _ => return []
  | f + 1, (k, pay) :: es, prev => do
    let (recs, rest) := bulkFill cfg bc inner (bulkBase cfg) ((k, pay) :: es)
    let n ← M.lift (if cfg.layout = .fix ∧ recs = [] then .ub else Node.checked cfg (bulkNode cfg inner k recs))
    let p ← M.alloc n
    linkPrev cfg prev p
    let nodes ← constructLayer cfg bc inner f rest (some p)
    return (k, p) :: nodes

/-- The nodes of a layer as the entries of the next one. -/
def nodeEntries (nodes : List (K × Ptr)) : List (K × Pay V) := nodes.map (fun x => (x.1, .ptr x.2))

/-- The loop of `BulkloadWithSingleThread`, pml/b_tree.hpp:705-709; psl 886-890; oml 785-789; osl 859-863. -/
def bulkRaise (cfg : Cfg K) (bc : BulkCfg) : Nat → Nat → List (K × Ptr) → M K V (Nat × List (K × Ptr))
  | 0, _, _ => M.outOfFuel
  | f + 1, height, nodes =>
    if bc.innerCap < nodes.length then do
      let nodes ← constructLayer cfg bc true (f + 1) (nodeEntries nodes) none
      bulkRaise cfg bc f (height + 1) nodes
    else return (height, nodes)

/-- `BulkloadWithSingleThread`: pml/b_tree.hpp:696-713; psl 877-894; oml 776-793; osl 850-867. -/
def bulkSingle (cfg : Cfg K) (bc : BulkCfg) (fuel : Nat) (es : List (K × V)) : M K V (Nat × List (K × Ptr)) := do
  let nodes ← constructLayer cfg bc false fuel (es.map (fun e => (e.1, .val e.2))) none
  bulkRaise cfg bc fuel 1 nodes

/-- Number of entries of worker `i` out of `t`: pml/b_tree.hpp:286; psl 344; oml 302; osl 333. -/
def chunkSize (n t i : Nat) : Nat := (n + i) / t

/-- The entries handed to the workers: `iter` moves on by each worker's count (pml/b_tree.hpp:282-291 and copies).  Simplification:
a worker whose range went past the end would get the entries up to the end only; `C18_partition` shows that this does not happen. -/
def chunksFrom {α : Type} (n t : Nat) : Nat → Nat → List α → List (List α)
  | 0, _, _ => []
  | j + 1, i, es => es.take (chunkSize n t i) :: chunksFrom n t j (i + 1) (es.drop (chunkSize n t i))

/-- The ranges of the `t` workers, in order. -/
def chunks {α : Type} (t : Nat) (es : List α) : List (List α) := chunksFrom es.length t t 0 es

/-- The worker threads: pml/b_tree.hpp:272-301; psl 330-359; oml 288-317; osl 319-348. -/
def bulkWorkers (cfg : Cfg K) (bc : BulkCfg) (fuel : Nat) :
    List (List (K × V)) → M K V (List (Nat × List (K × Ptr)))
  | [] => return []
  | c :: cs => do
    let r ← bulkSingle cfg bc fuel c
    let rs ← bulkWorkers cfg bc fuel cs
    return r :: rs

/-- `height`: pml/b_tree.hpp:296-301 and copies. -/
def maxHeight (parts : List (Nat × List (K × Ptr))) : Nat := parts.foldl (fun h x => if h < x.1 then x.1 else h) 1

/-- `while (p_height < height)`: pml/b_tree.hpp:307-310; psl 365-368; oml 323-326; osl 354-357. -/
def bulkAlign (cfg : Cfg K) (bc : BulkCfg) : Nat → Nat → List (K × Ptr) → M K V (List (K × Ptr))
  | _, 0, nodes => return nodes
  | fuel, j + 1, nodes => do
    let nodes ← constructLayer cfg bc true fuel (nodeEntries nodes) none
    bulkAlign cfg bc fuel j nodes

/-- `LinkVerticalBorderNodes`: pml varlen 873-888, fixlen 846-861; psl varlen 1042-1057, fixlen 958-973; oml varlen 1141-1156,
fixlen 1097-1112; osl varlen 1220-1235, fixlen 1122-1137. -/
def linkVertical (cfg : Cfg K) : Nat → Ptr → Ptr → M K V Unit
  | 0, _, _ => M.outOfFuel
  | f + 1, l, r => do
    linkNext cfg l r
    let ln ← M.load l
    if ln.isInner then
      let l' ← M.lift (ln.getChild (ln.rc - 1))
      let rn ← M.load r
      let r' ← M.lift (rn.getChild 0)
      linkVertical cfg f l' r'
    else return ()

/-- `if (prev_node != nullptr) LinkVerticalBorderNodes(prev_node, p_nodes.front())`: pml/b_tree.hpp:314-316 and copies;
`front()` of an empty vector is undefined. -/
def linkParts (cfg : Cfg K) (fuel : Nat) (prev : Option Ptr) (nodes : List (K × Ptr)) : M K V Unit :=
  match prev, nodes with
  | none, _ => pure ()
  | some l, r :: _ => linkVertical cfg fuel l r.2
  | some _, [] => M.ub

/-- The loop that aligns and links the partial trees: pml/b_tree.hpp:305-318; psl 363-376; oml 321-334; osl 352-365.
`back()` of an empty vector is undefined. -/
def bulkJoin (cfg : Cfg K) (bc : BulkCfg) (fuel : Nat) (height : Nat) :
    List (Nat × List (K × Ptr)) → Option Ptr → M K V (List (K × Ptr))
  | [], _ => return []
  | (h, nodes) :: ps, prev => do
    let nodes ← bulkAlign cfg bc fuel (height - h) nodes
    linkParts cfg fuel prev nodes
    match nodes.getLast? with
    | none => M.ub
    | some x =>
      let rest ← bulkJoin cfg bc fuel height ps (some x.2)
      return nodes ++ rest

/-- `while (nodes.size() > 1)` and `root_ = nodes.front()`: pml/b_tree.hpp:322-325; psl 380-383; oml 338-341; osl 369-372. -/
def bulkTop (cfg : Cfg K) (bc : BulkCfg) : Nat → List (K × Ptr) → M K V Ptr
  | 0, _ => M.outOfFuel
  | _ + 1, [] => M.ub
  | _ + 1, [x] => return x.2
  | f + 1, x :: y :: nodes => do
    let nodes ← constructLayer cfg bc true (f + 1) (nodeEntries (x :: y :: nodes)) none
    bulkTop cfg bc f nodes

/-- `RemoveLeftmostKeys`: pml varlen 894-914, fixlen 867-882; psl varlen 1063-1083, fixlen 979-994; oml varlen 1162-1182,
fixlen 1118-1133; osl varlen 1241-1261, fixlen 1143-1158.  The loop condition is `!node->IsInner()`: an inner root is
only stripped of its lowest key, whereas a leaf root is treated as an inner node, i.e. the payload of its first record is
followed as a pointer (`getChild` of a payload is undefined behaviour). -/
def removeLeftmostKeys : Nat → Ptr → M K V Unit
  | 0, _ => M.outOfFuel
  | f + 1, p => do
    let n ← M.load p
    if n.isInner then M.store p { n with low := none }
    else
      match n.recs with
      | [] => M.ub
      | r :: rs =>
        M.store p { n with recs := { r with key := none } :: rs, low := none }
        let c ← M.lift (n.getChild 0)
        removeLeftmostKeys f c

/-- The two ways to build the lower layers: pml/b_tree.hpp:265-319; psl 323-377; oml 281-335; osl 312-366. -/
def bulkNodes (cfg : Cfg K) (bc : BulkCfg) (fuel : Nat) (es : List (K × V)) (threads : Nat) : M K V (List (K × Ptr)) :=
  if threads ≤ 1 ∨ es.length < threads then do
    let r ← bulkSingle cfg bc fuel es
    return r.2
  else do
    let parts ← bulkWorkers cfg bc fuel (chunks threads es)
    bulkJoin cfg bc fuel (maxHeight parts) parts none

/-- `Bulkload`: pml/b_tree.hpp:258-329; psl 316-387; oml 274-345; osl 305-376.  The pages of the tree that was there before are not
released. -/
def bulkload (cfg : Cfg K) (bc : BulkCfg) (fuel : Nat) (es : List (K × V)) (threads : Nat) : M K V RC :=
  if es = [] then return .success
  else do
    let nodes ← bulkNodes cfg bc fuel es threads
    let root ← bulkTop cfg bc fuel nodes
    M.setRoot root
    removeLeftmostKeys fuel root
    return .success

end BT
