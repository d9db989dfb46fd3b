import Verif.NodeInv
import Verif.Pml
import Mathlib.Tactic.Ring
import Mathlib.Tactic.Linarith

/-!
# The page invariant and the page-level operations that keep it
-/

set_option linter.unusedSectionVars false

namespace BT
variable {K V : Type} [LinearOrder K]

/-- The configuration gives pages enough room.  `L` bounds the length of all keys in use
(`L = kMaxKeyLen` always qualifies if the inequalities hold with it).  These inequalities are what the
code's `static_assert` ought to check; see `DESIGN.md`. -/
structure Roomy (cfg : Cfg K) (L : Nat) : Prop where
  key : ∀ k, cfg.klen k ≤ L
  le : L ≤ cfg.maxKeyLen
  fixL : cfg.layout = .fix → L = cfg.maxKeyLen
  meta_pos : 0 < cfg.metaLen
  hdr : cfg.headerLen + cfg.minFree ≤ cfg.pageSize
  var1 : cfg.layout = .var → 4 * L + 4 * (L + cfg.maxPayLen + cfg.metaLen) ≤ cfg.cap
  var2 : cfg.layout = .var →
    cfg.minFree + cfg.maxRecLen + 2 * (L + cfg.maxPayLen + cfg.metaLen) + 2 * cfg.maxKeyLen + 2 * L
      ≤ cfg.cap
  fix1 : cfg.layout = .fix → 3 * cfg.maxRecLen + 3 * cfg.maxKeyLen ≤ cfg.cap

/-- Live pairs of a leaf, in slot order. -/
def Rec.pair (r : Rec K V) : Option (K × V) :=
  if r.del then none else
    match r.key, r.pay with
    | some k, .val v => some (k, v)
    | _, _ => none

/-- Live pairs of a slot list. -/
def pairs (recs : List (Rec K V)) : List (K × V) := recs.filterMap Rec.pair

@[simp] theorem pairs_nil : pairs ([] : List (Rec K V)) = [] := rfl
@[simp] theorem pairs_append (A B : List (Rec K V)) : pairs (A ++ B) = pairs A ++ pairs B := by
  simp [pairs]
theorem pairs_cons (r : Rec K V) (B : List (Rec K V)) : pairs (r :: B) = r.pair.toList ++ pairs B := by
  cases h : r.pair <;> simp [pairs, h]
@[simp] theorem pairs_live (recs : List (Rec K V)) : pairs (Node.liveRecs recs) = pairs recs := by
  induction recs with
  | nil => rfl
  | cons r rs ih =>
    cases h : r.del
    · simp [Node.liveRecs, h, pairs_cons] at ih ⊢
      exact ih
    · simp [Node.liveRecs, h, pairs_cons, Rec.pair] at ih ⊢
      exact ih

/-- Pointer stored in a slot of an inner node. -/
def Rec.toPtr (r : Rec K V) : Ptr := match r.pay with | .ptr p => p | .val _ => 0

/-- Children of an inner page with their upper border keys, left to right. -/
def slots : List (Rec K V) → Option K → List (Ptr × Option K)
  | [], _ => []
  | [r], hi => [(r.toPtr, hi)]
  | r :: r' :: rs, hi => (r.toPtr, r'.key) :: slots (r' :: rs) hi

/-- key of the first slot, or the high key -/
def hdKey : List (Rec K V) → Option K → Option K
  | [], hi => hi
  | r :: _, _ => r.key

@[simp] theorem slots_nil (hi : Option K) : slots ([] : List (Rec K V)) hi = [] := rfl
theorem slots_cons (r : Rec K V) (rs : List (Rec K V)) (hi : Option K) :
    slots (r :: rs) hi = (r.toPtr, hdKey rs hi) :: slots rs hi := by
  cases rs <;> rfl
theorem slots_append (A B : List (Rec K V)) (hi : Option K) :
    slots (A ++ B) hi = slots A (hdKey B hi) ++ slots B hi := by
  induction A with
  | nil => simp
  | cons r rs ih =>
    simp only [List.cons_append, slots_cons, ih]
    congr 2
    cases rs <;> rfl
@[simp] theorem slots_length (A : List (Rec K V)) (hi : Option K) : (slots A hi).length = A.length := by
  induction A with
  | nil => rfl
  | cons r rs ih => simp [slots_cons, ih]
theorem slots_eq_nil {A : List (Rec K V)} {hi : Option K} : slots A hi = [] ↔ A = [] := by
  rw [← List.length_eq_zero_iff, slots_length, List.length_eq_zero_iff]
theorem slots_getLast {A : List (Rec K V)} {hi : Option K} (h : A ≠ []) :
    ∃ X p, slots A hi = X ++ [(p, hi)] := by
  obtain ⟨A', r, rfl⟩ : ∃ A' r, A = A' ++ [r] := ⟨A.dropLast, A.getLast h, (List.dropLast_append_getLast h).symm⟩
  exact ⟨slots A' r.key, r.toPtr, by simp [slots_append, slots_cons, hdKey]⟩

/-- Bytes of the live slots of a variable-length page, metadata included. -/
def lsize (cfg : Cfg K) (inner : Bool) (recs : List (Rec K V)) : Nat :=
  (recs.map (fun r => if r.del then 0 else r.len cfg inner + cfg.metaLen)).sum

@[simp] theorem lsize_nil (cfg : Cfg K) (b : Bool) : lsize cfg b ([] : List (Rec K V)) = 0 := rfl
theorem lsize_cons (cfg : Cfg K) (b : Bool) (r : Rec K V) (rs) :
    lsize cfg b (r :: rs) = (if r.del then 0 else r.len cfg b + cfg.metaLen) + lsize cfg b rs := rfl
@[simp] theorem lsize_append (cfg : Cfg K) (b : Bool) (A B : List (Rec K V)) :
    lsize cfg b (A ++ B) = lsize cfg b A + lsize cfg b B := by simp [lsize]
theorem lsize_live (cfg : Cfg K) (b : Bool) (recs : List (Rec K V)) :
    Node.recBytes cfg b (Node.liveRecs recs) + cfg.metaLen * (Node.liveRecs recs).length
      = lsize cfg b recs := by
  induction recs with
  | nil => simp [Node.recBytes, Node.liveRecs]
  | cons r rs ih =>
    cases h : r.del
    · simp [Node.liveRecs, Node.recBytes, h, lsize_cons, Nat.mul_add] at ih ⊢
      omega
    · simp [Node.liveRecs, Node.recBytes, h, lsize_cons] at ih ⊢
      omega
theorem lsize_liveRecs (cfg : Cfg K) (b : Bool) (recs : List (Rec K V)) :
    lsize cfg b (Node.liveRecs recs) = lsize cfg b recs := by
  induction recs with
  | nil => rfl
  | cons r rs ih =>
    cases h : r.del
    · simp [Node.liveRecs, h, lsize_cons] at ih ⊢
      exact ih
    · simp [Node.liveRecs, h, lsize_cons] at ih ⊢
      exact ih

/-- Bytes of the deleted slots of a variable-length page, metadata included. -/
def dsize (cfg : Cfg K) (inner : Bool) (recs : List (Rec K V)) : Nat :=
  (recs.map (fun r => if r.del then r.len cfg inner + cfg.metaLen else 0)).sum

@[simp] theorem dsize_nil (cfg : Cfg K) (b : Bool) : dsize cfg b ([] : List (Rec K V)) = 0 := rfl
theorem dsize_cons (cfg : Cfg K) (b : Bool) (r : Rec K V) (rs) :
    dsize cfg b (r :: rs) = (if r.del then r.len cfg b + cfg.metaLen else 0) + dsize cfg b rs := rfl
@[simp] theorem dsize_append (cfg : Cfg K) (b : Bool) (A B : List (Rec K V)) :
    dsize cfg b (A ++ B) = dsize cfg b A + dsize cfg b B := by simp [dsize]
theorem dsize_liveRecs (cfg : Cfg K) (b : Bool) (recs : List (Rec K V)) :
    dsize cfg b (Node.liveRecs recs) = 0 := by
  induction recs with
  | nil => rfl
  | cons r rs ih =>
    cases h : r.del
    · simp [Node.liveRecs, h, dsize_cons] at ih ⊢
      exact ih
    · simp [Node.liveRecs, h] at ih ⊢
      exact ih

/-- Space accounting of a page. -/
def SizeOk (cfg : Cfg K) (n : Node K V) : Prop :=
  match cfg.layout with
  | .var =>
    n.dead + cfg.oklen n.low + cfg.oklen n.high + lsize cfg n.isInner n.recs
        ≤ cfg.metaLen * n.recs.length + n.block ∧
    cfg.metaLen * n.recs.length + n.block
        ≤ n.dead + cfg.maxKeyLen + cfg.oklen n.high + lsize cfg n.isInner n.recs ∧
    cfg.metaLen * n.recs.length + n.block ≤ cfg.cap ∧
    dsize cfg n.isInner n.recs ≤ n.dead
  | .fix =>
    n.dead = 0 ∧ n.block = cfg.plen n.isInner * n.recs.length ∧
    cfg.maxKeyLen * (n.recs.length + n.borders) + n.block ≤ cfg.cap ∧ ∀ r ∈ n.recs, r.del = false

/-- Slots of a leaf covering `[lo, hi)`. -/
structure LeafOk (lo hi : Bd K) (recs : List (Rec K V)) : Prop where
  sorted : KSorted recs
  keyed : ∀ r ∈ recs, ∃ a, r.key = some a ∧ lo.leKey a ∧ hi.gtKey a
  vals : ∀ r ∈ recs, ∃ v, r.pay = .val v

/-- Slots of an inner page covering `[lo, hi)`.  The key of slot 0 is significant only if the page is not
the leftmost one of its level. -/
structure InnerOk (lo hi : Bd K) (recs : List (Rec K V)) : Prop where
  ne : recs ≠ []
  sorted : KSorted recs.tail
  keyed : ∀ r ∈ recs.tail, ∃ a, r.key = some a ∧ lo.lt (.key a) ∧ hi.gtKey a
  head : ∀ k, lo = .key k → ∃ r rs, recs = r :: rs ∧ r.key = some k
  ptrs : ∀ r ∈ recs, ∃ p, r.pay = .ptr p
  live : ∀ r ∈ recs, r.del = false

/-- The page invariant: `n` is a page of the given kind covering `[lo, hiB n.high)`. -/
structure NodeOk (cfg : Cfg K) (inner : Bool) (lo : Bd K) (n : Node K V) : Prop where
  kind : n.isInner = inner
  notRemoved : n.removed = false
  lt : lo.lt (hiB n.high)
  slots : if inner then InnerOk lo (hiB n.high) n.recs else LeafOk lo (hiB n.high) n.recs
  size : SizeOk cfg n

/-- The page has room for one more record or child. -/
def Room (cfg : Cfg K) (L : Nat) (n : Node K V) : Prop :=
  match cfg.layout with
  | .var => cfg.metaLen * n.recs.length + n.block + (L + cfg.maxPayLen + cfg.metaLen) ≤ cfg.cap
  | .fix => cfg.maxKeyLen * (n.recs.length + n.borders) + n.block + (cfg.maxKeyLen + cfg.maxPayLen)
      ≤ cfg.cap

/-- The page is so full that splitting it is safe. -/
def Big (cfg : Cfg K) (n : Node K V) : Prop :=
  match cfg.layout with
  | .var => cfg.maxUsed < cfg.metaLen * n.recs.length + n.block + cfg.maxRecLen - n.dead
  | .fix => cfg.cap < cfg.maxKeyLen * (n.recs.length + n.borders) + n.block
      + (cfg.maxKeyLen + cfg.maxPayLen)

theorem NodeOk.leaf {cfg : Cfg K} {lo : Bd K} {n : Node K V} (h : NodeOk cfg false lo n) :
    LeafOk lo (hiB n.high) n.recs := by simpa using h.slots
theorem NodeOk.inner {cfg : Cfg K} {lo : Bd K} {n : Node K V} (h : NodeOk cfg true lo n) :
    InnerOk lo (hiB n.high) n.recs := by simpa using h.slots

theorem fitsOne_var {cfg : Cfg K} (hl : cfg.layout = .var) (n : Node K V) (len : Nat) :
    n.fitsOne cfg len = true ↔ cfg.metaLen * (n.recs.length + 1) + n.block + len ≤ cfg.cap := by
  unfold Node.fitsOne; rw [hl]; simp only [decide_eq_true_eq]; rfl
theorem fitsOne_fix {cfg : Cfg K} (hl : cfg.layout = .fix) (n : Node K V) (len : Nat) :
    n.fitsOne cfg len = true ↔
      cfg.maxKeyLen * (n.recs.length + n.borders) + n.block + len ≤ cfg.cap := by
  unfold Node.fitsOne; rw [hl]; simp only [decide_eq_true_eq]; rfl
theorem fits_var {cfg : Cfg K} (hl : cfg.layout = .var) (n : Node K V) :
    n.fits cfg = true ↔ cfg.metaLen * n.recs.length + n.block ≤ cfg.cap := by
  unfold Node.fits; rw [hl]; simp only [decide_eq_true_eq]; rfl
theorem fits_fix {cfg : Cfg K} (hl : cfg.layout = .fix) (n : Node K V) :
    n.fits cfg = true ↔ cfg.maxKeyLen * (n.recs.length + n.borders) + n.block ≤ cfg.cap := by
  unfold Node.fits; rw [hl]; simp only [decide_eq_true_eq]; rfl
theorem checked_ok {cfg : Cfg K} {n : Node K V} (h : n.fits cfg = true) : Node.checked cfg n = .ok n := by
  simp [Node.checked, h]
theorem usedSize_var {cfg : Cfg K} (hl : cfg.layout = .var) (n : Node K V) :
    n.usedSize cfg = cfg.metaLen * n.recs.length + n.block - n.dead := by
  unfold Node.usedSize; rw [hl]; rfl
theorem usedSize_fix {cfg : Cfg K} (hl : cfg.layout = .fix) (n : Node K V) :
    n.usedSize cfg = cfg.maxKeyLen * (n.recs.length + n.borders) + n.block := by
  unfold Node.usedSize; rw [hl]; rfl
theorem sizeOk_var {cfg : Cfg K} (hl : cfg.layout = .var) (n : Node K V) : SizeOk cfg n ↔
    n.dead + cfg.oklen n.low + cfg.oklen n.high + lsize cfg n.isInner n.recs
        ≤ cfg.metaLen * n.recs.length + n.block ∧
    cfg.metaLen * n.recs.length + n.block
        ≤ n.dead + cfg.maxKeyLen + cfg.oklen n.high + lsize cfg n.isInner n.recs ∧
    cfg.metaLen * n.recs.length + n.block ≤ cfg.cap ∧
    dsize cfg n.isInner n.recs ≤ n.dead := by
  unfold SizeOk; rw [hl]
theorem sizeOk_fix {cfg : Cfg K} (hl : cfg.layout = .fix) (n : Node K V) : SizeOk cfg n ↔
    n.dead = 0 ∧ n.block = cfg.plen n.isInner * n.recs.length ∧
    cfg.maxKeyLen * (n.recs.length + n.borders) + n.block ≤ cfg.cap ∧ ∀ r ∈ n.recs, r.del = false := by
  unfold SizeOk; rw [hl]
theorem room_var {cfg : Cfg K} (hl : cfg.layout = .var) (L : Nat) (n : Node K V) : Room cfg L n ↔
    cfg.metaLen * n.recs.length + n.block + (L + cfg.maxPayLen + cfg.metaLen) ≤ cfg.cap := by
  unfold Room; rw [hl]
theorem room_fix {cfg : Cfg K} (hl : cfg.layout = .fix) (L : Nat) (n : Node K V) : Room cfg L n ↔
    cfg.maxKeyLen * (n.recs.length + n.borders) + n.block + (cfg.maxKeyLen + cfg.maxPayLen)
      ≤ cfg.cap := by
  unfold Room; rw [hl]
theorem big_var {cfg : Cfg K} (hl : cfg.layout = .var) (n : Node K V) : Big cfg n ↔
    cfg.maxUsed < cfg.metaLen * n.recs.length + n.block + cfg.maxRecLen - n.dead := by
  unfold Big; rw [hl]
theorem big_fix {cfg : Cfg K} (hl : cfg.layout = .fix) (n : Node K V) : Big cfg n ↔
    cfg.cap < cfg.maxKeyLen * (n.recs.length + n.borders) + n.block
      + (cfg.maxKeyLen + cfg.maxPayLen) := by
  unfold Big; rw [hl]

theorem plen_le (cfg : Cfg K) (b : Bool) : cfg.plen b ≤ cfg.maxPayLen := by
  unfold Cfg.plen Cfg.maxPayLen; split <;> split <;> omega

@[simp] theorem oklen_some (cfg : Cfg K) (k : K) : cfg.oklen (some k) = cfg.klen k := rfl
@[simp] theorem oklen_none (cfg : Cfg K) : cfg.oklen none = 0 := rfl

theorem oklen_le {cfg : Cfg K} {L : Nat} (hr : Roomy cfg L) (o : Option K) : cfg.oklen o ≤ L := by
  cases o
  · simp [Cfg.oklen]
  · exact hr.key _

theorem rec_len_le {cfg : Cfg K} {L : Nat} (hr : Roomy cfg L) (b : Bool) (r : Rec K V) :
    r.len cfg b ≤ L + cfg.maxPayLen := by
  have := oklen_le hr r.key
  have := plen_le cfg b
  simp only [Rec.len]; omega

/-! ## Searching under the invariant -/

theorem NodeOk.search_leaf {cfg : Cfg K} {lo : Bd K} {n : Node K V} (h : NodeOk cfg false lo n) (k : K) :
    (∃ T D, n.recs = T ++ D ∧ n.searchRecord k = .ok (.keyNotInserted, T.length) ∧
        AllLt T k ∧ AllGt D k) ∨
    (∃ T r D, n.recs = T ++ r :: D ∧ r.key = some k ∧ AllLt T k ∧ AllGt D k ∧
      n.searchRecord k = .ok (if r.del then .keyAlreadyDeleted else .keyAlreadyInserted, T.length)) := by
  apply searchRecord_leaf k h.kind h.leaf.sorted
  intro r hr
  obtain ⟨a, ha, -⟩ := h.leaf.keyed r hr
  simp [ha]

/-- Child search: slot `pos`, its neighbours in the list of children, and the bracket around `k`. -/
theorem NodeOk.search_inner {cfg : Cfg K} {lo : Bd K} {n : Node K V} (h : NodeOk cfg true lo n) (k : K)
    (hk : (hiB n.high).gtKey k) :
    ∃ T r D rc c, n.recs = T ++ r :: D ∧ n.searchRecord k = .ok (rc, T.length) ∧ r.pay = .ptr c ∧
      n.getChild T.length = .ok c ∧ AllGt D k ∧ (hiB (hdKey D n.high)).gtKey k ∧
      (T ≠ [] → ∃ a, r.key = some a ∧ a ≤ k) ∧
      ((rc = .keyAlreadyInserted ∧ T ≠ [] ∧ r.key = some k) ∨
       (rc = .keyNotInserted ∧ (T ≠ [] → ∃ a, r.key = some a ∧ a < k))) := by
  have hi := h.inner
  obtain ⟨T, r, D, rc, hrecs, hsr, hgt, hcase⟩ := searchRecord_inner k h.kind hi.sorted hi.ne
    (by intro r hr; obtain ⟨a, ha, -⟩ := hi.keyed r hr; simp [ha]) hi.live
  obtain ⟨c, hc⟩ := hi.ptrs r (by simp [hrecs])
  refine ⟨T, r, D, rc, c, hrecs, hsr, hc, ?_, hgt, ?_, ?_, hcase⟩
  · cases r
    simp at hc
    subst hc
    simp [Node.getChild, hrecs]
  · cases D with
    | nil => exact hk
    | cons d D =>
      obtain ⟨a, ha, -⟩ := hi.keyed d (by cases T <;> simp [hrecs])
      simp only [hdKey, ha, hiB_some, Bd.gtKey_key]
      exact hgt d (by simp) a ha
  · intro hT
    rcases hcase with ⟨-, -, h⟩ | ⟨-, h⟩
    · exact ⟨k, h, le_refl _⟩
    · obtain ⟨a, ha, hak⟩ := h hT
      exact ⟨a, ha, le_of_lt hak⟩

end BT
