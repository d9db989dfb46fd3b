import Verif.PageRun
import Verif.Props.Iters

/-!
# C36: the bytes of a fixed-length page hold the records that were put into it

`C36_fix_bytes_hold_records_partial`: start with no page, perform any sequence of page modifications that is defined on record lists, on memory
with any previous contents.  Then the same sequence is defined on bytes (no access outside the page, no wrapped length), and every key,
payload, child address, highest and lowest key read from the bytes is the one of the record list; a search in the bytes finds what a
search in the list finds.  The condition `KeysReadable` on the key size cannot be dropped: `C36_fix_split_over_reads`.
-/

set_option linter.unusedSectionVars false

namespace BT
variable {K V : Type} [LinearOrder K]

/-- What a reader finds in the bytes of page `g` is the list-level page `n`. -/
structure ReadsAs {cfg : Cfg K} (C : Codec cfg V) (g : FixPage) (n : Node K V) : Prop where
  kind : g.inner = n.isInner
  count : g.count = n.recs.length
  next : g.next = n.next
  hasLow : g.hasLow = n.low.isSome
  hasHigh : g.hasHigh = n.high.isSome
  key : ∀ i r k, n.recs[i]? = some r → r.key = some k → g.getKey C i = .ok k
  val : ∀ i r v, n.recs[i]? = some r → r.pay = .val v → g.getVal C i = .ok v
  child : ∀ i r c, n.recs[i]? = some r → r.pay = .ptr c → c < 256 ^ cfg.ptrLen → g.getChild cfg i = .ok c
  low : ∀ k, n.low = some k → g.getLow C = .ok k
  high : ∀ k, n.high = some k → g.getHigh C = .ok k
  above : ∀ k, g.compHighKey C k = .ok (n.compHighKey k)
  find : ∀ k x, n.searchRecord k = .ok x → g.searchRecord C k = .ok x

theorem FixRep.readsAs {cfg : Cfg K} {C : Codec cfg V} {g : FixPage} {n : Node K V} (h : FixRep C g n) : ReadsAs C g n where
  kind := h.inner
  count := h.count
  next := h.next
  hasLow := h.hasLow
  hasHigh := h.hasHigh
  key i r k hi hk := h.getKey (by rw [Node.keyArray_rec hi, hk])
  val i r v hi hv := h.getVal (by
    obtain ⟨a, b, c⟩ := r
    simp only at hv
    simp only [Node.getVal, hi, hv])
  child i r c hi hc hb := h.getChild hb (by
    obtain ⟨a, b, d⟩ := r
    simp only at hc
    simp only [Node.getChild, hi, hc])
  low k hk := h.getLow hk
  high k hk := h.getHigh hk
  above k := h.compHighKey k
  find k x hx := h.searchRecord hx

/-- No pages. -/
def noPages {α : Type} : PageMap α := fun _ => none

/-- **C36**, fixed-length layout. -/
theorem C36_fix_bytes_hold_records_partial {cfg : Cfg K} (C : Codec cfg V) (hf : cfg.layout = .fix) (hh : cfg.headerLen ≤ cfg.pageSize)
    (hk : KeysReadable cfg) (calls : List (PageOp K V × Ram)) {ns : PageMap (Node K V)}
    (hrun : listRun cfg calls noPages = .ok ns) :
    ∃ gs, byteRun C calls noPages = .ok gs ∧
      ∀ p, (gs p).isSome = (ns p).isSome ∧ ∀ n, ns p = some n → ∃ g, gs p = some g ∧ ReadsAs C g n := by
  obtain ⟨gs, h1, h2⟩ := run_sim (C := C) hf hh hk calls (gs := noPages) (ns := noPages) (fun p => trivial) hrun
  refine ⟨gs, h1, fun p => ⟨?_, fun n hn => ?_⟩⟩
  · have := h2 p
    cases e1 : ns p <;> cases e2 : gs p <;> simp_all
  · obtain ⟨g, e1, e2⟩ := h2.get hn
    exact ⟨g, e1, e2.readsAs⟩

theorem checked_inv {cfg : Cfg K} {n n' : Node K V} (h : n.checked cfg = .ok n') : n = n' := by
  unfold Node.checked at h
  split at h
  · simpa using h
  · exact absurd h (by simp)

/-- The condition that `PageOp.lists` puts on a split holds for every page of a tree with at least two records. -/
theorem split_defined {cfg : Cfg K} {b : Bool} {lo : Bd K} {n l r : Node K V} (h : NodeOk cfg b lo n) (h2 : 2 ≤ n.recs.length) {q : Ptr}
    (hs : n.splitFix cfg q = .ok (l, r)) : (l.high.isSome && (l.low.isSome == n.low.isSome)) = true := by
  have key : ∀ i r, 0 < i → n.recs[i]? = some r → ∃ a, r.key = some a := by
    intro i r hi hr
    cases b with
    | false => obtain ⟨a, ha, -⟩ := h.leaf.keyed r (List.mem_of_getElem? hr); exact ⟨a, ha⟩
    | true =>
      have : r ∈ n.recs.tail := by
        obtain ⟨j, rfl⟩ : ∃ j, i = j + 1 := ⟨i - 1, by omega⟩
        cases e : n.recs with
        | nil => rw [e] at hr; simp at hr
        | cons x xs =>
          rw [e, List.getElem?_cons_succ] at hr
          exact List.mem_of_getElem? hr
      obtain ⟨a, ha, -⟩ := h.inner.keyed r this
      exact ⟨a, ha⟩
  have hlt : n.recs.length / 2 < n.recs.length := by omega
  simp only [Node.splitFix, Node.rc, List.getElem?_eq_getElem hlt] at hs
  obtain ⟨l1, e1, hs⟩ := Res.bind_inv hs
  obtain ⟨r1, e2, hs⟩ := Res.bind_inv hs
  simp only [Res.pure_eq, Res.ok.injEq, Prod.mk.injEq] at hs
  obtain ⟨rfl, rfl⟩ := hs
  have e1 := checked_inv e1
  subst e1
  obtain ⟨a, ha⟩ := key _ _ (show 0 < n.recs.length / 2 by omega) (List.getElem?_eq_getElem hlt)
  simp only [ha, Option.isSome_some, Bool.true_and, beq_iff_eq]
  cases hl : n.low with
  | none => rfl
  | some lk =>
    simp only [Option.isSome_some, if_true]
    split
    · rfl
    · rw [Node.keyArray_eq, List.getElem?_append]
      simp only [List.length_map, List.getElem?_map]
      split
      · next hlt2 =>
        obtain ⟨a, ha⟩ := key _ _ (show 0 < n.recs.length / 2 + 1 by omega) (List.getElem?_eq_getElem hlt2)
        rw [List.getElem?_eq_getElem hlt2]
        simp [ha]
      · have : n.recs.length / 2 + 1 - n.recs.length = 0 := by omega
        rw [this]
        simp only [Node.tailKeys, hl]
        cases n.high <;> simp

/-! ### Keys and payloads that are numbers -/

/-- Reading a number below `b` back. -/
def finOf (b : Nat) (bs : List Byte) : Option (Fin b) := if h : bytesNat bs < b then some ⟨bytesNat bs, h⟩ else none

theorem finOf_natBytes {len : Nat} (x : Fin (256 ^ len)) : finOf (256 ^ len) (natBytes len x.val) = some x := by
  have := bytesNat_natBytes len x.val x.isLt
  unfold finOf
  rw [dif_pos (by rw [this]; exact x.isLt)]
  congr 1
  exact Fin.ext this

/-- The default configuration with keys of `kl` bytes and 8-byte payloads. -/
def numCfg (kl : Nat) (blink : Bool) : Cfg (Fin (256 ^ kl)) where
  layout := .fix
  blink := blink
  pageSize := 1024
  headerLen := 32
  minFree := 128
  minUsed := 64
  maxDeleted := 256
  metaLen := 8
  ptrLen := 8
  payLen := 8
  maxKeyLen := kl
  keyLen := fun _ => kl

/-- Unsigned integers as keys and payloads. -/
def numCodec (kl : Nat) (blink : Bool) : Codec (numCfg kl blink) (Fin (256 ^ 8)) where
  key k := natBytes kl k.val
  val v := natBytes 8 v.val
  getKey := finOf (256 ^ kl)
  getVal := finOf (256 ^ 8)
  key_len k := by simp [Cfg.klen, numCfg]
  val_len v := by simp [numCfg]
  key_get k := finOf_natBytes k
  val_get v := finOf_natBytes v

theorem numCfg_readable (b : Bool) : KeysReadable (numCfg 8 b) := by
  intro c inner h
  have hp : (numCfg 8 b).plen inner = 8 := by cases inner <;> rfl
  rw [hp] at h
  simp only [numCfg] at h ⊢
  omega

/-- A short history: a leaf takes five records in mixed order, one is removed and one changed, the page splits, a root is built over
the two halves, a third leaf is split off and linked into the root, and the last two leaves are merged again. -/
def someCalls : List (PageOp (Fin (256 ^ 8)) (Fin (256 ^ 8)) × Ram) :=
  ([.fresh 0 false, .insert 0 0 50 5, .insert 0 0 10 1, .insert 0 1 30 3, .insert 0 1 20 2, .insert 0 3 40 4, .insert 0 5 60 6,
    .remove 0 2, .update 0 1 22, .split 0 1, .root 2 40 0 1, .insert 1 3 70 7, .insert 1 4 80 8, .split 1 3, .addChild 2 1 60 3,
    .merge 1 3, .dropChild 2 2] : List (PageOp (Fin (256 ^ 8)) (Fin (256 ^ 8)))).map fun o => (o, fun i => BitVec.ofNat 8 (i * 7))

/-- The keys of a page after a run: of the records, the lowest one and the highest one. -/
def keysOf {K V : Type} (r : Res (PageMap (Node K V))) (p : Ptr) : Option (List (Option K) × Option K × Option K) :=
  match r with
  | .ok m => (m p).map fun n => (n.recs.map Rec.key, n.low, n.high)
  | _ => none

/-- The run is undefined. -/
def Res.isUb {α : Type} : Res α → Bool
  | .ub => true
  | _ => false

theorem Res.isUb_eq {α : Type} {r : Res α} (h : r.isUb = true) : r = .ub := by
  cases r with
  | ub => rfl
  | ok a => exact absurd h (by simp [Res.isUb])
  | fuel => exact absurd h (by simp [Res.isUb])

/-- The hypotheses are met, in both orders of `Split`. -/
example : [0, 1, 2, 3].map (keysOf (listRun (numCfg 8 true) someCalls noPages)) =
    [some ([some 10, some 20], none, some 40), some ([some 40, some 50, some 60, some 70, some 80], some 40, none),
     some ([none, some 40], none, none), none] := by decide +kernel

example : [0, 1, 2, 3].map (keysOf (listRun (numCfg 8 false) someCalls noPages)) =
    [some ([some 10, some 20], none, some 40), some ([some 40, some 50, some 60, some 70, some 80], some 70, none),
     some ([none, some 40], none, none), none] := by decide +kernel

/-! ### Large keys -/

/-- `Split` reads `keys_[record_count_]` even when the page has no highest key.  If that entry does not lie inside the page, the read
leaves the page. -/
theorem FixRep.split_over_reads {cfg : Cfg K} {C : Codec cfg V} {g r0 : FixPage} {n : Node K V} (h : FixRep C g n) (hr : r0.count = 0)
    (hover : cfg.pageSize < FixPage.keyOff cfg (n.recs.length + 1)) (rp : Ptr) : g.split cfg r0 rp = .ub := by
  have hfit := h.fits
  have k1 := FixPage.keyOff_le (cfg := cfg) (show n.recs.length ≤ n.recs.length + n.borders by omega)
  have hlr : n.recs.length / 2 + (n.recs.length - n.recs.length / 2) = n.recs.length := by omega
  have k2 := FixPage.keyOff_le (cfg := cfg) (show n.recs.length - n.recs.length / 2 ≤ n.recs.length by omega)
  have k3 := Nat.mul_le_mul_left (cfg.plen n.isInner) (show n.recs.length - n.recs.length / 2 ≤ n.recs.length by omega)
  obtain ⟨m1, d1, -, -⟩ := FixPage.copyRecordsFrom_ok (cfg := cfg) (src := g) (w := cfg.plen n.isInner)
    (m := n.recs.length - n.recs.length / 2) (g := { r0 with payLen := g.payLen }) (c := 0) (pos := n.recs.length / 2)
    h.payLen h.payLen hr (by rw [Nat.zero_add]; omega) (by rw [hlr]; omega)
  simp only [Nat.mul_zero, Nat.sub_zero, Nat.zero_add] at d1
  unfold FixPage.split
  simp only [h.count]
  rw [d1]
  simp only [Res.ok_bind]
  have : g.rdKey cfg n.recs.length = .ub := by
    rw [FixPage.keyOff_succ] at hover
    simp only [FixPage.rdKey, FixPage.rd]
    rw [if_neg (by omega)]
  rw [this]
  rfl

/-- Seven records with 128-byte keys. -/
def bigCalls : List (PageOp (Fin (256 ^ 128)) (Fin (256 ^ 8)) × Ram) :=
  ([.fresh 0 false, .insert 0 0 10 1, .insert 0 1 20 2, .insert 0 2 30 3, .insert 0 3 40 4, .insert 0 4 50 5, .insert 0 5 60 6,
    .insert 0 6 70 7] : List (PageOp (Fin (256 ^ 128)) (Fin (256 ^ 8)))).map fun o => (o, fun _ => 0)

/-- ... and a split of that page. -/
def bigSplit : List (PageOp (Fin (256 ^ 128)) (Fin (256 ^ 8)) × Ram) := bigCalls ++ [(.split 0 1, fun _ => 0)]

/-- The same records as calls of the index. -/
def bigWrites : List (Op (Fin (256 ^ 128)) (Fin (256 ^ 8))) :=
  [.write 10 1, .write 20 2, .write 30 3, .write 40 4, .write 50 5, .write 60 6, .write 70 7]

theorem big_osl : (Variant.osl none : Variant (Fin (256 ^ 128))).Admissible (numCfg 128 true) :=
  ⟨128, { key := fun _ => by simp [Cfg.klen, numCfg]
          le := by simp [numCfg]
          fixL := fun _ => by simp [numCfg]
          meta_pos := by simp [numCfg]
          hdr := by simp [numCfg]
          var1 := fun h => by simp [numCfg] at h
          var2 := fun h => by simp [numCfg] at h
          fix1 := fun _ => by simp [numCfg, Cfg.maxRecLen, Cfg.maxPayLen, Cfg.mlen, Cfg.cap] }, rfl⟩

/-- **C36 needs the condition on the key size.**  With 128-byte keys and 8-byte payloads (the page sizes are admissible, and the
`static_assert` of the index holds) seven records fill a leaf.  The eighth `Write` splits that leaf, and the split, whatever the bytes of
the page are, reads the 128 bytes from offset 928 on, beyond the end of the 1024-byte page.  The list-level page, which does not model
that read, splits all the same. -/
theorem C36_fix_split_over_reads : (Variant.osl none : Variant (Fin (256 ^ 128))).Admissible (numCfg 128 true) ∧
    (∃ (s s' : St (Fin (256 ^ 128)) (Fin (256 ^ 8))) (n n' : Node (Fin (256 ^ 128)) (Fin (256 ^ 8))),
      Reachable ((Variant.osl none).impl (numCfg 128 true)) s ∧ s.heap s.root = some n ∧
      Returns ((Variant.osl none).impl (numCfg 128 true)) s (.write 80 8) (.code .success) s' ∧
      s'.heap s.root = some n' ∧ n'.recs.length < n.recs.length ∧
      ∀ (C : Codec (numCfg 128 true) (Fin (256 ^ 8))) (g r0 : FixPage) (rp : Ptr), FixRep C g n → r0.count = 0 →
        g.split (numCfg 128 true) r0 rp = .ub) ∧
    [0, 1].map (keysOf (listRun (numCfg 128 true) bigSplit noPages)) =
      [some ([some 10, some 20, some 30], none, some 40), some ([some 40, some 50, some 60, some 70], some 40, none)] ∧
    byteRun (numCodec 128 true) bigSplit noPages = .ub := by
  refine ⟨big_osl, ?_, by decide +kernel, ?_⟩
  · have hf := (Variant.callsOk (V := Fin (256 ^ 8)) big_osl).fuelOk
    have hw : (match ((Variant.osl none).impl (numCfg 128 true) : Impl (Fin (256 ^ 128)) (Fin (256 ^ 8))).run 20 bigWrites initSt with
        | .ok (_, s) =>
          match ((Variant.osl none).impl (numCfg 128 true) : Impl (Fin (256 ^ 128)) (Fin (256 ^ 8))).exec 20 (.write 80 8) s with
          | .ok (o, s') =>
            match s.heap s.root, s'.heap s.root with
            | some n, some n' => decide (o = .code .success) && decide (n.recs.length = 7) && decide (n'.recs.length = 3)
            | _, _ => false
          | _ => false
        | _ => false) = true := by decide +kernel
    split at hw
    · next outs s e1 =>
      split at hw
      · next o s' e2 =>
        split at hw
        · next n n' e3 e4 =>
          simp only [Bool.and_eq_true, decide_eq_true_eq] at hw
          obtain ⟨⟨rfl, h7⟩, h4⟩ := hw
          refine ⟨s, s', n, n', Reachable.of_run hf _ .init e1, e3,
            ⟨20, fun f hfu => (hf.exec _ 20 f hfu).le _ _ e2⟩, e4, by omega, ?_⟩
          intro C g r0 rp hr hc
          exact hr.split_over_reads hc (by rw [h7]; decide) rp
        · exact absurd hw (by simp)
      · exact absurd hw (by simp)
    · exact absurd hw (by simp)
  · exact Res.isUb_eq (by decide +kernel)

end BT
