import Verif.VarRun
import Verif.Props.Bytes

/-!
# C37: the bytes of a variable-length page hold the records that were put into it

`C37_var_bytes_hold_records_partial`: start with no page, perform any sequence of page modifications that is defined on record lists, on
memory with any previous contents and with a temporary page that holds anything.  Then the same sequence is defined on bytes (no access
outside the page, no wrapped length), every key, payload, child address, deletion mark, highest and lowest key read from the bytes is the
one of the record list, a search in the bytes finds what a search in the list finds, and no two records and no record and metadata share a
byte.  Not covered: pages of 64 KiB and more, whose records may be longer than the metadata can say (`C38_metadata_truncates`), and keys
of length zero, which a page cannot tell from an absent highest key.
-/

set_option linter.unusedSectionVars false

namespace BT
variable {K V : Type} [LinearOrder K]

/-- What a reader finds in the bytes of page `g` is the list-level page `n`. -/
structure VarReadsAs {cfg : Cfg K} (C : Codec cfg V) (g : VarPage) (n : Node K V) : Prop where
  kind : g.inner = n.isInner
  count : g.count = n.recs.length
  used : g.blk = n.block
  deleted : g.del = n.dead
  next : g.next = n.next
  hasLow : decide (g.lowLen ≠ 0) = n.low.isSome
  hasHigh : decide (g.highLen ≠ 0) = n.high.isSome
  key : ∀ i r k, n.recs[i]? = some r → r.key = some k → g.getKey C i = .ok k
  val : ∀ i r v, n.recs[i]? = some r → r.pay = .val v → g.getVal C i = .ok v
  child : ∀ i r c, n.recs[i]? = some r → r.pay = .ptr c → c < 256 ^ cfg.ptrLen → g.getChild cfg i = .ok c
  mark : ∀ i r, n.recs[i]? = some r → g.isDeleted cfg i = .ok r.del
  low : ∀ k, n.low = some k → g.getLow C = .ok k
  high : ∀ k, n.high = some k → g.getHigh C = .ok k
  above : ∀ k, g.compHighKey C k = .ok (n.compHighKey k)
  find : ∀ k x, n.searchRecord k = .ok x → g.searchRecord C k = .ok x
  /-- record bytes lie above the metadata array and inside the page -/
  inside : ∀ i, i < g.count → ∃ w, g.rdMeta cfg i = .ok w ∧ cfg.headerLen + cfg.metaLen * g.count ≤ w.offset ∧
    w.offset + w.recLen ≤ cfg.pageSize
  /-- different records have no common byte -/
  apart : ∀ i j v w, i < j → j < g.count → g.rdMeta cfg i = .ok v → g.rdMeta cfg j = .ok w →
    v.offset + v.recLen ≤ w.offset ∨ w.offset + w.recLen ≤ v.offset

theorem VarRep.readsAs {cfg : Cfg K} {C : Codec cfg V} (hne : ∀ k, 0 < cfg.klen k) {g : VarPage} {n : Node K V} (h : VarRep C g n) :
    VarReadsAs C g n where
  kind := h.inner
  count := h.count
  used := h.blk
  deleted := h.del
  next := h.next
  hasLow := by
    rw [h.lowLen]
    cases n.low with
    | none => simp [Cfg.oklen]
    | some k => have : cfg.klen k ≠ 0 := Nat.ne_of_gt (hne k); simp [Cfg.oklen, this]
  hasHigh := by
    rw [h.highLen]
    cases n.high with
    | none => simp [Cfg.oklen]
    | some k => have : cfg.klen k ≠ 0 := Nat.ne_of_gt (hne k); simp [Cfg.oklen, this]
  key i r k hi hk := h.getKey hi hk
  val i r v hi hv := h.getVal hi hv
  child i r c hi hc hb := h.getChild hi hc hb
  mark i r hi := h.isDeleted hi
  low k hk := h.getLow hk
  high k hk := h.getHigh hk
  above k := h.compHighKey hne k
  find k x hx := h.searchRecord hx
  inside i hi := by
    obtain ⟨top, hl⟩ := h.lay
    rw [h.count] at hi ⊢
    have hr : n.recs[i]? = some n.recs[i] := List.getElem?_eq_getElem hi
    have s := hl.slot _ _ hr
    have s1 := s.lo; have s2 := s.hi; have s3 := s.rlen
    have t1 := hl.room; have t2 := hl.top_hi
    refine ⟨_, VarPage.rdMeta_ok (hl.metaIn hi), ?_, ?_⟩
    · unfold VarPage.metaOff at t1; omega
    · rw [s3]; omega
  apart i j v w hij hj hv hw := by
    obtain ⟨top, hl⟩ := h.lay
    rw [h.count] at hj
    have hi : i < n.recs.length := by omega
    rw [VarPage.rdMeta_ok (hl.metaIn hi)] at hv
    rw [VarPage.rdMeta_ok (hl.metaIn hj)] at hw
    simp only [Res.ok.injEq] at hv hw
    subst hv hw
    have hri : n.recs[i]? = some n.recs[i] := List.getElem?_eq_getElem hi
    have hrj : n.recs[j]? = some n.recs[j] := List.getElem?_eq_getElem hj
    have := hl.apart i j _ _ (by omega) hri hrj
    rw [(hl.slot _ _ hri).rlen, (hl.slot _ _ hrj).rlen]
    exact this

/-- **C37**, variable-length layout. -/
theorem C37_var_bytes_hold_records_partial {cfg : Cfg K} (C : Codec cfg V) (hv : cfg.layout = .var) (hm : cfg.metaLen = 8)
    (hp : cfg.pageSize < 2 ^ 16) (hh : cfg.headerLen ≤ cfg.pageSize) (hne : ∀ k, 0 < cfg.klen k)
    (calls : List (PageOp K V × Ram × VarPage)) {ns : PageMap (Node K V)} (hrun : listRun cfg calls noPages = .ok ns) :
    ∃ gs, varRun C calls noPages = .ok gs ∧
      ∀ p, (gs p).isSome = (ns p).isSome ∧ ∀ n, ns p = some n → ∃ g, gs p = some g ∧ VarReadsAs C g n := by
  obtain ⟨gs, h1, h2⟩ := varRun_sim (C := C) hv hm hp hh calls (gs := noPages) (ns := noPages) (fun p => trivial) hrun
  refine ⟨gs, h1, fun p => ⟨?_, fun n hn => ?_⟩⟩
  · have := h2 p
    cases e1 : ns p <;> cases e2 : gs p <;> simp_all
  · obtain ⟨g, e1, e2⟩ := h2.get hn
    exact ⟨g, e1, e2.readsAs hne⟩

/-! ### Keys of different lengths -/

/-- The number of bytes of a key: one for small numbers, four for the others. -/
def numLen (k : Fin (256 ^ 4)) : Nat := if k.val < 256 then 1 else 4

/-- The default configuration with keys of one or four bytes and 8-byte payloads. -/
def numCfgV (blink : Bool) : Cfg (Fin (256 ^ 4)) where
  layout := .var
  blink := blink
  pageSize := 1024
  headerLen := 32
  minFree := 128
  minUsed := 64
  maxDeleted := 256
  metaLen := 8
  ptrLen := 8
  payLen := 8
  maxKeyLen := 4
  keyLen := numLen

theorem finOf_natBytes' {b len : Nat} (x : Fin b) (h : x.val < 256 ^ len) : finOf b (natBytes len x.val) = some x := by
  have := bytesNat_natBytes len x.val h
  unfold finOf
  rw [dif_pos (by rw [this]; exact x.isLt)]
  congr 1
  exact Fin.ext this

/-- Unsigned integers as keys and payloads. -/
def numCodecV (blink : Bool) : Codec (numCfgV blink) (Fin (256 ^ 8)) where
  key k := natBytes (numLen k) k.val
  val v := natBytes 8 v.val
  getKey := finOf (256 ^ 4)
  getVal := finOf (256 ^ 8)
  key_len k := by simp [Cfg.klen, numCfgV]
  val_len v := by simp [numCfgV]
  key_get k := finOf_natBytes' k (by
    unfold numLen
    split
    · next h => simpa using h
    · exact k.isLt)
  val_get v := finOf_natBytes v

/-- A short history with short and long keys: a leaf takes six records in mixed order, two are removed, one of them comes back, the page is
cleaned up and split, a root is built, another leaf is split off, linked into the root and merged again; two more leaves are bulk
loaded and linked. -/
def someCallsV : List (PageOp (Fin (256 ^ 4)) (Fin (256 ^ 8)) × Ram × VarPage) :=
  ([.fresh 0 false, .insert 0 0 5000 5, .insert 0 0 10 1, .insert 0 1 3000 3, .insert 0 1 20 2, .insert 0 3 4000 4, .insert 0 5 6000 6,
    .remove 0 2, .remove 0 0, .reuse 0 0 11, .update 0 1 22, .cleanUp 0, .split 0 1, .root 2 5000 0 1, .insert 1 2 7000 7,
    .insert 1 3 8000 8, .remove 1 0, .split 1 3, .addChild 2 1 7000 3, .merge 1 3, .dropChild 2 2,
    .load 5 false (9000, .val 9) [(9100, .val 10)], .load 6 false (100000, .val 12) [], .link 5 6] :
      List (PageOp (Fin (256 ^ 4)) (Fin (256 ^ 8)))).map
    fun o => (o, (fun i => BitVec.ofNat 8 (i * 7)), VarPage.empty (numCfgV true) true fun i => BitVec.ofNat 8 (i * 5 + 1))

/-- The hypotheses are met, in both orders of `Split`. -/
example : (numCfgV true).layout = .var ∧ (numCfgV true).metaLen = 8 ∧ (numCfgV true).pageSize < 2 ^ 16 ∧
    (numCfgV true).headerLen ≤ (numCfgV true).pageSize ∧ ∀ k, 0 < (numCfgV true).klen k :=
  ⟨rfl, rfl, by decide, by decide, fun k => by simp only [Cfg.klen, numCfgV, numLen]; split <;> decide⟩

example : [0, 1, 2, 3, 5, 6].map (keysOf (listRun (numCfgV true) someCallsV noPages)) =
    [some ([some 10, some 20, some 4000], none, some 5000), some ([some 6000, some 7000, some 8000], some 5000, none),
     some ([none, some 5000], none, none), none,
     some ([some 9000, some 9100], some 9000, some 100000), some ([some 100000], some 100000, none)] := by decide +kernel

example : [0, 1, 2, 3, 5, 6].map (keysOf (listRun (numCfgV false) someCallsV noPages)) =
    [some ([some 10, some 20, some 4000], none, some 5000), some ([some 6000, some 7000, some 8000], some 5000, none),
     some ([none, some 5000], none, none), none,
     some ([some 9000, some 9100], some 9000, some 100000), some ([some 100000], some 100000, none)] := by decide +kernel

end BT
