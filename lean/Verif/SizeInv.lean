import Verif.BlinkConc
import Verif.OslConc
import Verif.BlinkNode

/-!
# Space accounting of pages, without any assumption about their contents

`SizeW` is what remains of `SizeOk` (`NodeOk.lean`) when nothing is known about the order of the keys or the kind of the page.  Every page
operation of PSL and OSL keeps it, and it is enough for a page that has been split to have room for one more record (`split_room`).  The
locks of PSL and OSL depend on this: the second call of the node operation after a split keeps the lock of the page if it answers `kNeedSplit`.
-/

set_option linter.unusedSectionVars false

namespace BT
variable {K V : Type} [LinearOrder K] {cfg : Cfg K} {L : Nat} {n n' : Node K V}

/-- Space accounting of a page; nothing is said about the keys. -/
def SizeW (cfg : Cfg K) (n : Node K V) : Prop :=
  match cfg.layout with
  | .var =>
    cfg.oklen n.low + cfg.oklen n.high + lsize cfg n.isInner n.recs + dsize cfg n.isInner n.recs
        ≤ cfg.metaLen * n.recs.length + n.block ∧
    cfg.metaLen * n.recs.length + n.block
        ≤ n.dead + cfg.maxKeyLen + cfg.oklen n.high + lsize cfg n.isInner n.recs ∧
    cfg.metaLen * n.recs.length + n.block ≤ cfg.cap ∧
    dsize cfg n.isInner n.recs ≤ n.dead
  | .fix =>
    n.dead = 0 ∧ n.block = cfg.plen n.isInner * n.recs.length ∧
    cfg.maxKeyLen * (n.recs.length + n.borders) + n.block ≤ cfg.cap ∧ ∀ r ∈ n.recs, r.del = false

theorem sizeW_var (hl : cfg.layout = .var) (n : Node K V) : SizeW cfg n ↔
    cfg.oklen n.low + cfg.oklen n.high + lsize cfg n.isInner n.recs + dsize cfg n.isInner n.recs
        ≤ cfg.metaLen * n.recs.length + n.block ∧
    cfg.metaLen * n.recs.length + n.block
        ≤ n.dead + cfg.maxKeyLen + cfg.oklen n.high + lsize cfg n.isInner n.recs ∧
    cfg.metaLen * n.recs.length + n.block ≤ cfg.cap ∧
    dsize cfg n.isInner n.recs ≤ n.dead := by unfold SizeW; rw [hl]

theorem sizeW_fix (hl : cfg.layout = .fix) (n : Node K V) : SizeW cfg n ↔
    n.dead = 0 ∧ n.block = cfg.plen n.isInner * n.recs.length ∧
    cfg.maxKeyLen * (n.recs.length + n.borders) + n.block ≤ cfg.cap ∧ ∀ r ∈ n.recs, r.del = false := by
  unfold SizeW; rw [hl]

/-- An empty page. -/
theorem SizeW.empty (b : Bool) : SizeW cfg ({ isInner := b, recs := [] } : Node K V) := by
  cases hl : cfg.layout
  · rw [sizeW_fix hl]; simp [Node.borders]
  · rw [sizeW_var hl]; simp [Cfg.oklen]

/-- The flags of a page do not matter. -/
theorem SizeW.flags (h : SizeW cfg n) (b : Bool) (q : Option Ptr) : SizeW cfg { n with removed := b, next := q } := h

theorem split_at {α : Type} {l : List α} {i : Nat} {a : α} (h : l[i]? = some a) :
    ∃ A B, l = A ++ a :: B ∧ l.take i = A ∧ l.drop (i + 1) = B := by
  obtain ⟨hi, rfl⟩ := List.getElem?_eq_some_iff.1 h
  refine ⟨l.take i, l.drop (i + 1), ?_, rfl, rfl⟩
  rw [List.getElem_cons_drop, List.take_append_drop]

theorem lsize_insAt (b : Bool) (l : List (Rec K V)) (i : Nat) (r : Rec K V) (hr : r.del = false) :
    lsize cfg b (insAt l i r) = lsize cfg b l + (r.len cfg b + cfg.metaLen) ∧ dsize cfg b (insAt l i r) = dsize cfg b l ∧
      (insAt l i r).length = l.length + 1 := by
  have h1 : lsize cfg b (l.take i ++ l.drop i) = lsize cfg b l := by rw [List.take_append_drop]
  have h2 : dsize cfg b (l.take i ++ l.drop i) = dsize cfg b l := by rw [List.take_append_drop]
  have h3 : (l.take i ++ l.drop i).length = l.length := by rw [List.take_append_drop]
  rw [lsize_append] at h1
  rw [dsize_append] at h2
  rw [List.length_append] at h3
  unfold insAt
  rw [lsize_append, dsize_append, List.length_append, lsize_cons, dsize_cons, List.length_cons, hr]
  simp only [Bool.false_eq_true, if_false]
  omega

theorem SizeW.insertRecord (h : SizeW cfg n) {k : K} {p : Pay V} {i : Nat} (e : n.insertRecord cfg k p i = .ok n') :
    SizeW cfg n' ∧ n'.next = n.next := by
  obtain ⟨h1, h2, h3⟩ := lsize_insAt (cfg := cfg) n.isInner n.recs i ⟨some k, p, false⟩ rfl
  cases hl : cfg.layout
  · simp only [Node.insertRecord, hl] at e
    by_cases hf : n.fitsOne cfg (cfg.maxKeyLen + cfg.plen n.isInner) = true
    · rw [if_pos hf] at e
      cases e
      rw [sizeW_fix hl] at h ⊢
      rw [fitsOne_fix hl] at hf
      obtain ⟨a1, a2, a3, a4⟩ := h
      dsimp only
      rw [h3]
      refine ⟨⟨a1, by rw [a2]; ring, ?_, ?_⟩, rfl⟩
      · have hb : ({ n with recs := insAt n.recs i ⟨some k, p, false⟩, block := n.block + cfg.plen n.isInner } : Node K V).borders = n.borders := rfl
        rw [hb]
        have : cfg.maxKeyLen * (n.recs.length + 1 + n.borders) = cfg.maxKeyLen * (n.recs.length + n.borders) + cfg.maxKeyLen := by ring
        omega
      · intro r hr
        unfold insAt at hr
        rcases List.mem_append.1 hr with hr | hr
        · exact a4 r (List.mem_of_mem_take hr)
        · rcases List.mem_cons.1 hr with rfl | hr
          · rfl
          · exact a4 r (List.mem_of_mem_drop hr)
    · rw [if_neg hf] at e
      cases e
  · simp only [Node.insertRecord, hl] at e
    by_cases hf : n.fitsOne cfg (Rec.len cfg n.isInner (⟨some k, p, false⟩ : Rec K V)) = true
    · rw [if_pos hf] at e
      cases e
      rw [sizeW_var hl] at h ⊢
      rw [fitsOne_var hl] at hf
      dsimp only
      rw [h1, h2, h3]
      rw [Nat.mul_add, Nat.mul_one] at *
      exact ⟨by omega, rfl⟩
    · rw [if_neg hf] at e
      cases e

/-- Overwriting one record by one of the same length. -/
theorem lsize_updAt (b : Bool) {l : List (Rec K V)} {i : Nat} {r r' : Rec K V} (h : l[i]? = some r) (hk : r'.key = r.key) :
    lsize cfg b (updAt l i r') + (if r.del then 0 else r.len cfg b + cfg.metaLen) =
      lsize cfg b l + (if r'.del then 0 else r.len cfg b + cfg.metaLen) ∧
    dsize cfg b (updAt l i r') + (if r.del then r.len cfg b + cfg.metaLen else 0) =
      dsize cfg b l + (if r'.del then r.len cfg b + cfg.metaLen else 0) ∧
    (updAt l i r').length = l.length := by
  obtain ⟨A, B, e, e1, e2⟩ := split_at h
  have hlen : r'.len cfg b = r.len cfg b := by unfold Rec.len; rw [hk]
  unfold updAt
  rw [e1, e2, e]
  simp only [lsize_append, dsize_append, lsize_cons, dsize_cons, List.length_append, List.length_cons, hlen]
  cases r.del <;> cases r'.del <;> simp <;> omega

theorem lsize_delAt (b : Bool) {l : List (Rec K V)} {i : Nat} {r : Rec K V} (h : l[i]? = some r) :
    lsize cfg b (delAt l i) + (if r.del then 0 else r.len cfg b + cfg.metaLen) = lsize cfg b l ∧
    dsize cfg b (delAt l i) + (if r.del then r.len cfg b + cfg.metaLen else 0) = dsize cfg b l ∧
    (delAt l i).length + 1 = l.length := by
  obtain ⟨A, B, e, e1, e2⟩ := split_at h
  unfold delAt
  rw [e1, e2, e]
  simp only [lsize_append, dsize_append, lsize_cons, dsize_cons, List.length_append, List.length_cons]
  cases r.del <;> simp <;> omega

theorem mem_updAt {l : List (Rec K V)} {i : Nat} {r' x : Rec K V} (h : x ∈ updAt l i r') : x ∈ l ∨ x = r' := by
  unfold updAt at h
  rcases List.mem_append.1 h with h | h
  · exact Or.inl (List.mem_of_mem_take h)
  · rcases List.mem_cons.1 h with h | h
    · exact Or.inr h
    · exact Or.inl (List.mem_of_mem_drop h)

theorem mem_delAt {l : List (Rec K V)} {i : Nat} {x : Rec K V} (h : x ∈ delAt l i) : x ∈ l := by
  unfold delAt at h
  rcases List.mem_append.1 h with h | h
  · exact List.mem_of_mem_take h
  · exact List.mem_of_mem_drop h

theorem SizeW.setPayload (h : SizeW cfg n) {v : V} {i : Nat} (e : n.setPayload i v = .ok n') : SizeW cfg n' := by
  unfold Node.setPayload at e
  split at e
  · next r hr =>
    cases e
    obtain ⟨h1, h2, h3⟩ := lsize_updAt (cfg := cfg) n.isInner (r' := { r with pay := .val v }) hr rfl
    cases hl : cfg.layout
    · rw [sizeW_fix hl] at h ⊢
      obtain ⟨a1, a2, a3, a4⟩ := h
      dsimp only
      rw [h3]
      refine ⟨a1, a2, a3, fun x hx => ?_⟩
      rcases mem_updAt hx with hx | rfl
      · exact a4 x hx
      · exact a4 r (List.mem_of_getElem? hr)
    · rw [sizeW_var hl] at h ⊢
      dsimp only at h1 h2 h3 ⊢
      rw [h3]
      omega
  · cases e

theorem SizeW.reuseRecord (h : SizeW cfg n) (hl : cfg.layout = .var) {v : V} {i : Nat} (hd : ∀ r, n.recs[i]? = some r → r.del = true)
    (e : n.reuseRecord cfg i v = .ok n') : SizeW cfg n' := by
  unfold Node.reuseRecord at e
  split at e
  · next r hr =>
    cases e
    obtain ⟨h1, h2, h3⟩ := lsize_updAt (cfg := cfg) n.isInner (r' := { r with pay := .val v, del := false }) hr rfl
    rw [sizeW_var hl] at h ⊢
    dsimp only at h1 h2 h3 ⊢
    rw [h3]
    simp only [hd r hr, if_true, Bool.false_eq_true, if_false] at h1 h2
    omega
  · cases e

theorem SizeW.removeRecord (h : SizeW cfg n) {i : Nat} (hd : ∀ r, n.recs[i]? = some r → r.del = false)
    (e : n.removeRecord cfg i = .ok n') : SizeW cfg n' := by
  unfold Node.removeRecord at e
  split at e
  · cases e
  · next r hr =>
    split at e
    · next hl =>
      cases e
      obtain ⟨h1, h2, h3⟩ := lsize_updAt (cfg := cfg) n.isInner (r' := { r with del := true }) hr rfl
      rw [sizeW_var hl] at h ⊢
      dsimp only at h1 h2 h3 ⊢
      rw [h3]
      simp only [hd r hr, if_true, Bool.false_eq_true, if_false] at h1 h2
      omega
    · next hl =>
      cases e
      obtain ⟨-, -, h3⟩ := lsize_delAt (cfg := cfg) n.isInner hr
      rw [sizeW_fix hl] at h ⊢
      obtain ⟨a1, a2, a3, a4⟩ := h
      refine ⟨a1, ?_, ?_, fun x hx => a4 x (mem_delAt hx)⟩
      · dsimp only
        rw [a2, ← h3]
        rw [Nat.mul_add, Nat.mul_one, Nat.add_sub_cancel]
      · dsimp only
        have hb : ({ n with recs := delAt n.recs i, block := n.block - cfg.plen n.isInner } : Node K V).borders = n.borders := rfl
        rw [hb]
        have : cfg.maxKeyLen * ((delAt n.recs i).length + n.borders) ≤ cfg.maxKeyLen * (n.recs.length + n.borders) :=
          Nat.mul_le_mul_left _ (by omega)
        omega

theorem SizeW.dropChild (h : SizeW cfg n) {i : Nat} (e : n.dropChild cfg i = .ok n') : SizeW cfg n' := by
  unfold Node.dropChild at e
  split at e
  · cases e
  · next r hr =>
    obtain ⟨h1, h2, h3⟩ := lsize_delAt (cfg := cfg) n.isInner hr
    split at e
    · next hl =>
      cases e
      rw [sizeW_var hl] at h ⊢
      dsimp only
      have hm : cfg.metaLen * n.recs.length = cfg.metaLen * (delAt n.recs i).length + cfg.metaLen := by rw [← h3]; ring
      split at h1 <;> split at h2 <;> simp_all <;> omega
    · next hl =>
      cases e
      rw [sizeW_fix hl] at h ⊢
      obtain ⟨a1, a2, a3, a4⟩ := h
      refine ⟨a1, ?_, ?_, fun x hx => a4 x (mem_delAt hx)⟩
      · dsimp only
        rw [a2, ← h3]
        rw [Nat.mul_add, Nat.mul_one, Nat.add_sub_cancel]
      · dsimp only
        have hb : ({ n with recs := delAt n.recs i, block := n.block - cfg.plen n.isInner } : Node K V).borders = n.borders := rfl
        rw [hb]
        have : cfg.maxKeyLen * ((delAt n.recs i).length + n.borders) ≤ cfg.maxKeyLen * (n.recs.length + n.borders) :=
          Nat.mul_le_mul_left _ (by omega)
        omega

theorem sized_inv {x : Node K V} (e : Node.checked cfg n = .ok x) : x = n ∧ n.fits cfg = true := by
  unfold Node.checked at e
  split at e
  · next h => cases e; exact ⟨rfl, h⟩
  · cases e

/-- A page that has been written anew: live records only, nothing dead. -/
theorem SizeW.fresh (hr : Roomy cfg L) (hl : cfg.layout = .var) {b : Bool} {recs : List (Rec K V)} {lo hi : Option K} {nx : Option Ptr} {rm : Bool} {blk : Nat}
    (hb : blk = cfg.oklen lo + cfg.oklen hi + Node.recBytes cfg b (Node.liveRecs recs))
    (hf : ({ isInner := b, removed := rm, recs := Node.liveRecs recs, low := lo, high := hi, next := nx, block := blk, dead := 0 } : Node K V).fits cfg = true) :
    SizeW cfg ({ isInner := b, removed := rm, recs := Node.liveRecs recs, low := lo, high := hi, next := nx, block := blk, dead := 0 } : Node K V) := by
  have h1 := lsize_live cfg b recs
  have h2 := lsize_liveRecs cfg b recs
  have h3 := dsize_liveRecs cfg b recs
  have h4 := oklen_le hr lo
  have h5 := hr.le
  rw [fits_var hl] at hf
  rw [sizeW_var hl]
  dsimp only at hf ⊢
  omega

theorem SizeW.cleanUp (hr : Roomy cfg L) (hl : cfg.layout = .var) (e : n.cleanUp cfg = .ok n') :
    SizeW cfg n' ∧ n'.dead = 0 ∧ n'.next = n.next ∧ n'.high = n.high := by
  unfold Node.cleanUp at e
  obtain ⟨rfl, hf⟩ := sized_inv e
  exact ⟨SizeW.fresh hr hl rfl hf, rfl, rfl, rfl⟩

theorem SizeW.needMerge (hr : Roomy cfg L) (h : SizeW cfg n) {b : Bool} (e : Blink.needMerge cfg n = .ok (b, n')) : SizeW cfg n' := by
  unfold Blink.needMerge Pml.needMerge at e
  split at e
  · cases e; exact h
  · next hl =>
    split at e
    · cases e; exact h
    · split at e
      · cases e; exact h
      · cases hc : n.cleanUp cfg with
        | ok x => rw [hc] at e; cases e; exact (SizeW.cleanUp hr hl hc).1
        | ub => rw [hc] at e; cases e
        | fuel => rw [hc] at e; cases e

theorem SizeW.merge (hr : Roomy cfg L) {l r : Node K V} (h : SizeW cfg l) (h' : SizeW cfg r) (e : l.merge cfg r = .ok n') : SizeW cfg n' := by
  unfold Node.merge at e
  split at e
  · next hl =>
    obtain ⟨rfl, hf⟩ := sized_inv e
    have hlr : Node.liveRecs l.recs ++ Node.liveRecs r.recs = Node.liveRecs (l.recs ++ r.recs) := by simp [Node.liveRecs]
    rw [hlr] at hf ⊢
    exact SizeW.fresh hr hl rfl hf
  · next hl =>
    obtain ⟨rfl, hf⟩ := sized_inv e
    rw [fits_fix hl] at hf
    rw [sizeW_fix hl] at *
    obtain ⟨a1, a2, a3, a4⟩ := h
    obtain ⟨b1, b2, b3, b4⟩ := h'
    refine ⟨a1, ?_, hf, fun x hx => ?_⟩
    · dsimp only
      rw [a2, List.length_append]
      show _ + cfg.plen l.isInner * r.recs.length = _
      ring
    · rcases List.mem_append.1 hx with hx | hx
      · exact a4 x hx
      · exact b4 x hx

theorem SizeW.newRoot (hr : Roomy cfg L) {sep : Option K} {l r : Ptr} (e : (Node.newRoot cfg sep l r : Res (Node K V)) = .ok n') : SizeW cfg n' := by
  unfold Node.newRoot at e
  split at e
  · cases e
  · next k =>
    obtain ⟨rfl, hf⟩ := sized_inv e
    cases hl : cfg.layout
    · rw [fits_fix hl] at hf
      simp only [hl] at hf
      rw [sizeW_fix hl]
      refine ⟨rfl, ?_, hf, by simp⟩
      simp only [List.length_cons, List.length_nil, Cfg.plen, if_true]
      ring
    · rw [fits_var hl] at hf
      rw [sizeW_var hl]
      have := hr.le
      simp only [hl, List.length_cons, List.length_nil] at hf ⊢
      simp only [lsize_cons, dsize_cons, lsize_nil, dsize_nil, Rec.len, oklen_none, oklen_some, Cfg.plen, if_true, Bool.false_eq_true, if_false]
      omega

/-! ## Split -/

theorem res_bind {α β : Type} {x : Res α} {f : α → Res β} {b : β} (e : (x >>= f) = .ok b) : ∃ a, x = .ok a ∧ f a = .ok b := by
  cases x with
  | ok a => exact ⟨a, rfl, e⟩
  | ub => cases e
  | fuel => cases e

theorem split_var (hr : Roomy cfg L) (hl : cfg.layout = .var) (h : SizeW cfg n) {r : Ptr} {l rn : Node K V} (e : n.splitVar cfg r = .ok (l, rn)) :
    SizeW cfg l ∧ SizeW cfg rn ∧ (cfg.blink = true → l.next = some r) ∧ (Big cfg n → Room cfg L l ∧ Room cfg L rn) := by
  unfold Node.splitVar at e
  dsimp only at e
  generalize hused : cfg.metaLen * n.rc + n.block - n.dead = used at e
  obtain ⟨pos, hs, e⟩ := res_bind e
  cases hg : n.recs[pos]? with
  | none => rw [hg] at e; cases e
  | some s =>
    rw [hg] at e
    dsimp only at e
    obtain ⟨A, B, hAB, hA, hB⟩ := split_at hg
    have hd : n.recs.drop pos = s :: B := by
      have hp : pos = A.length := by
        rw [← hA, List.length_take]
        have := (List.getElem?_eq_some_iff.1 hg).1
        omega
      rw [hAB, hp]; simp
    rw [hA, hd] at e
    obtain ⟨l', hc1, e⟩ := res_bind e
    obtain ⟨r', hc2, e⟩ := res_bind e
    cases e
    obtain ⟨rfl, hf1⟩ := sized_inv hc1
    obtain ⟨rfl, hf2⟩ := sized_inv hc2
    refine ⟨SizeW.fresh hr hl (by omega) hf1, SizeW.fresh hr hl rfl hf2, fun hb => by simp [Node.hasNext, hb], fun hbig => ?_⟩
    rw [big_var hl] at hbig
    rw [sizeW_var hl] at h
    have h1 := hr.var1 hl
    have h2 := hr.var2 hl
    have hLm := hr.le
    have hhi := oklen_le hr n.high
    have hlow := oklen_le hr n.low
    have hsk := oklen_le hr s.key
    have hmax : cfg.maxUsed + cfg.minFree = cfg.cap := by
      have := hr.hdr
      simp only [Cfg.maxUsed, Cfg.cap]; omega
    have hR : ∀ x ∈ n.recs, x.len cfg n.isInner + cfg.metaLen ≤ L + cfg.maxPayLen + cfg.metaLen := by
      intro x _
      have := rec_len_le hr n.isInner x
      omega
    have hu : cfg.metaLen * n.recs.length + n.block - n.dead = used := hused
    generalize hRdef : L + cfg.maxPayLen + cfg.metaLen = R at *
    have hmp := hr.meta_pos
    have hlive : cfg.maxKeyLen + L + 2 * R < lsize cfg n.isInner n.recs := by omega
    have hhalf : used / 2 ≤ 0 + lsize cfg n.isInner n.recs := by omega
    obtain ⟨A', B', hAB', hloop, hge, hlt, hne⟩ := splitLoop_spec cfg n.isInner (used / 2) R n.recs 0 0 hR hhalf
    rw [hs] at hloop
    have hpos : pos = A'.length := by cases hloop; omega
    have hA' : A' = A := by
      rw [← hA, hAB', hpos]; simp
    subst hA'
    have hB' : B' = s :: B := by
      rw [hAB', hpos] at hd; simpa using hd
    subst hB'
    have hAne : A' ≠ [] := hne (by omega)
    have hlt := hlt hAne
    have hlsz : lsize cfg n.isInner n.recs = lsize cfg n.isInner A' + lsize cfg n.isInner (s :: B) := by
      rw [hAB', lsize_append]
    have hlA := lsize_live cfg n.isInner A'
    have hlB := lsize_live cfg n.isInner (s :: B)
    constructor
    · rw [room_var hl]
      dsimp only
      omega
    · rw [room_var hl]
      dsimp only
      omega

theorem split_fix (hr : Roomy cfg L) (hl : cfg.layout = .fix) (h : SizeW cfg n) {r : Ptr} {l rn : Node K V} (e : n.splitFix cfg r = .ok (l, rn)) :
    SizeW cfg l ∧ SizeW cfg rn ∧ (cfg.blink = true → l.next = some r) ∧ (Big cfg n → Room cfg L l ∧ Room cfg L rn) := by
  unfold Node.splitFix at e
  dsimp only at e
  obtain ⟨hd, hblk, hcap, hnd⟩ := (sizeW_fix hl n).1 h
  cases hg : n.recs[n.rc / 2]? with
  | none => rw [hg] at e; cases e
  | some s =>
    rw [hg] at e
    dsimp only at e
    obtain ⟨l', hc1, e⟩ := res_bind e
    obtain ⟨r', hc2, e⟩ := res_bind e
    cases e
    obtain ⟨rfl, hf1⟩ := sized_inv hc1
    obtain ⟨rfl, hf2⟩ := sized_inv hc2
    have hrc : n.rc = n.recs.length := rfl
    have hlt := (List.getElem?_eq_some_iff.1 hg).1
    have hblk1 : n.block - cfg.plen n.isInner * (n.rc - n.rc / 2) = cfg.plen n.isInner * (n.rc / 2) := by
      rw [hblk, ← hrc]
      have : cfg.plen n.isInner * n.rc = cfg.plen n.isInner * (n.rc / 2) + cfg.plen n.isInner * (n.rc - n.rc / 2) := by
        rw [← Nat.mul_add]; congr 1; omega
      omega
    refine ⟨?_, ?_, fun hb => by simp [Node.hasNext, hb], fun hbig => ?_⟩
    · rw [fits_fix hl] at hf1
      rw [sizeW_fix hl]
      refine ⟨hd, ?_, hf1, fun x hx => hnd x (List.mem_of_mem_take hx)⟩
      dsimp only
      rw [hblk1, List.length_take]
      congr 1
      omega
    · rw [fits_fix hl] at hf2
      rw [sizeW_fix hl]
      refine ⟨rfl, ?_, hf2, fun x hx => hnd x (List.mem_of_mem_drop hx)⟩
      dsimp only
      rw [List.length_drop]
      rfl
    · rw [big_fix hl] at hbig
      have h1 := hr.fix1 hl
      have hplen := plen_le cfg n.isInner
      have hmr : cfg.maxRecLen = cfg.maxKeyLen + cfg.maxPayLen := by simp [Cfg.maxRecLen, Cfg.mlen, hl]
      rw [hmr] at h1
      rw [room_fix hl, room_fix hl]
      dsimp only
      rw [hblk1, List.length_take, List.length_drop, ← hrc, Nat.min_eq_left (by omega)]
      rw [hblk, ← hrc] at hcap hbig
      simp only [Node.borders] at hcap hbig ⊢
      clear hblk hblk1 hf1 hf2 hc1 hc2 hg
      generalize hP : cfg.plen n.isInner = P at *
      generalize hK : cfg.maxKeyLen = Kl at *
      generalize hM : cfg.maxPayLen = M at *
      generalize hm : n.rc - n.rc / 2 = m
      generalize ha : n.rc / 2 = a at *
      have hN : n.rc = a + m := by omega
      have hma : m = a ∨ m = a + 1 := by omega
      generalize (if n.low.isSome = true then if cfg.blink = true then n.low else (n.keyArray[a + 1]?).join else none) = lowd
      rw [hN] at hcap hbig
      have i1 : (if lowd.isSome = true then 1 else 0) + (if s.key.isSome = true then 1 else 0) ≤ 2 := by split <;> split <;> omega
      have i2 : (if s.key.isSome = true then 1 else 0) + (if n.high.isSome = true then 1 else 0) ≤ 1 + (if n.high.isSome = true then 1 else 0) := by
        split <;> omega
      have e1 : Kl * (a + ((if lowd.isSome = true then 1 else 0) + (if s.key.isSome = true then 1 else 0))) ≤ Kl * (a + 2) :=
        Nat.mul_le_mul_left _ (by omega)
      have e2 : Kl * (m + ((if s.key.isSome = true then 1 else 0) + (if n.high.isSome = true then 1 else 0))) ≤
          Kl * (m + (1 + (if n.high.isSome = true then 1 else 0))) := Nat.mul_le_mul_left _ (by omega)
      have e3 : Kl * (a + m + (if n.high.isSome = true then 1 else 0)) ≤
          Kl * (a + m + ((if n.low.isSome = true then 1 else 0) + (if n.high.isSome = true then 1 else 0))) := Nat.mul_le_mul_left _ (by omega)
      have e10 : Kl * (if n.high.isSome = true then 1 else 0) ≤ Kl := by split <;> omega
      have e4 : Kl * (a + 2) = Kl * a + 2 * Kl := by ring
      have e5 : Kl * (m + (1 + (if n.high.isSome = true then 1 else 0))) = Kl * m + Kl + Kl * (if n.high.isSome = true then 1 else 0) := by ring
      have e6 : Kl * (a + m + (if n.high.isSome = true then 1 else 0)) = Kl * a + Kl * m + Kl * (if n.high.isSome = true then 1 else 0) := by ring
      have e7 : P * (a + m) = P * a + P * m := by ring
      have e8 : Kl * m = Kl * a ∨ Kl * m = Kl * a + Kl := by
        rcases hma with h | h
        · left; rw [h]
        · right; rw [h]; ring
      have e9 : P * m = P * a ∨ P * m = P * a + P := by
        rcases hma with h | h
        · left; rw [h]
        · right; rw [h]; ring
      omega

/-- What is known after a split, without any assumption about the keys of the page. -/
theorem split_room (hr : Roomy cfg L) (h : SizeW cfg n) {r : Ptr} {l rn : Node K V} (e : n.split cfg r = .ok (l, rn)) :
    SizeW cfg l ∧ SizeW cfg rn ∧ (cfg.blink = true → l.next = some r) ∧ (Big cfg n → Room cfg L l ∧ Room cfg L rn) := by
  unfold Node.split at e
  split at e
  · next hl => exact split_var hr hl h e
  · next hl => exact split_fix hr hl h e

/-! ## The node operations of PSL and OSL -/

/-- A page that need not be cleaned up and still has no room is so full that splitting it is safe. -/
theorem big_of_full (hr : Roomy cfg L) {len : Nat} (hlen : len ≤ L + cfg.maxPayLen) (hw : Blink.wantsCleanUp cfg n len = false ∨ n.dead = 0)
    (hn : Blink.needSplit cfg n len = true) : Big cfg n := by
  have hL := hr.le
  have hrc : n.rc = n.recs.length := rfl
  have hmax : cfg.maxUsed ≤ cfg.cap := by
    have := hr.hdr
    simp only [Cfg.maxUsed, Cfg.cap]; omega
  cases hl : cfg.layout
  · rw [big_fix hl]
    simp only [Blink.needSplit, hl, usedSize_fix hl, decide_eq_true_eq] at hn
    omega
  · rw [big_var hl]
    have hmr : cfg.maxRecLen = cfg.maxKeyLen + cfg.maxPayLen + cfg.metaLen := by simp [Cfg.maxRecLen, Cfg.mlen, hl]
    simp only [Blink.needSplit, hl, decide_eq_true_eq, hrc] at hn
    rw [Nat.mul_succ] at hn
    rcases hw with hw | hw
    · simp only [Blink.wantsCleanUp, hl, hrc, Bool.not_eq_false', decide_eq_true_eq] at hw
      rw [Nat.mul_succ] at hw
      omega
    · omega

/-- A page with room is not cleaned up and not split. -/
theorem room_fits (hr : Roomy cfg L) (h : Room cfg L n) {len : Nat} (hlen : len ≤ L + cfg.maxPayLen) :
    Blink.wantsCleanUp cfg n len = false ∧ Blink.needSplit cfg n len = false := by
  refine ⟨?_, (cleanUpIfNeeded_room hr h hlen).2⟩
  have hrc : n.rc = n.recs.length := rfl
  cases hl : cfg.layout
  · simp [Blink.wantsCleanUp, hl]
  · rw [room_var hl] at h
    simp only [Blink.wantsCleanUp, hl, hrc, Bool.not_eq_false', decide_eq_true_eq]
    rw [Nat.mul_succ]
    omega

/-- `SearchRecord` answers according to the deletion mark of the record. -/
theorem searchLoop_del {recs : List (Rec K V)} {k : K} : ∀ {f b e : Nat} {rc : NodeRC} {pos : Nat}, Node.searchLoop recs k f b e = .ok (rc, pos) →
    rc = .keyNotInserted ∨ ∃ r, recs[pos]? = some r ∧ rc = if r.del then .keyAlreadyDeleted else .keyAlreadyInserted
  | 0, b, e, rc, pos, h => by cases h
  | f + 1, b, e, rc, pos, h => by
    unfold Node.searchLoop at h
    split at h
    · dsimp only at h
      split at h
      · cases h
      · next r hr =>
        split at h
        · cases h
        · split at h
          · exact searchLoop_del h
          · split at h
            · exact searchLoop_del h
            · cases h
              exact Or.inr ⟨r, hr, rfl⟩
    · cases h
      exact Or.inl rfl

theorem searchRecord_del {k : K} {rc : NodeRC} {pos : Nat} (h : n.searchRecord k = .ok (rc, pos)) :
    rc = .keyNotInserted ∨ ∃ r, n.recs[pos]? = some r ∧ rc = if r.del then .keyAlreadyDeleted else .keyAlreadyInserted := by
  unfold Node.searchRecord at h
  split at h
  · cases h
    exact Or.inl rfl
  · exact searchLoop_del h

theorem searchRecord_live {k : K} {pos : Nat} (h : n.searchRecord k = .ok (.keyAlreadyInserted, pos)) : ∀ r, n.recs[pos]? = some r → r.del = false := by
  intro r hr
  rcases searchRecord_del h with h | ⟨r', h1, h2⟩
  · cases h
  · rw [hr] at h1
    cases h1
    cases hd : r.del
    · rfl
    · rw [hd] at h2; cases h2

theorem searchRecord_dead {k : K} {pos : Nat} (h : n.searchRecord k = .ok (.keyAlreadyDeleted, pos)) : ∀ r, n.recs[pos]? = some r → r.del = true := by
  intro r hr
  rcases searchRecord_del h with h | ⟨r', h1, h2⟩
  · cases h
  · rw [hr] at h1
    cases h1
    cases hd : r.del
    · rw [hd] at h2; cases h2
    · rfl

theorem SizeW.leafWriteCore (h : SizeW cfg n) {k : K} {v : V} {rc : NodeRC} (e : Blink.leafWriteCore cfg n k v = .ok (rc, n')) :
    SizeW cfg n' ∧ (rc = .needSplit → n' = n ∧ Blink.needSplit cfg n (cfg.klen k + cfg.payLen) = true) := by
  unfold Blink.leafWriteCore at e
  obtain ⟨⟨rc1, pos⟩, hs, e⟩ := res_bind e
  dsimp only at e
  split at e
  · split at e
    · next hn => cases e; exact ⟨h, fun _ => ⟨rfl, hn⟩⟩
    · obtain ⟨x, h1, e⟩ := res_bind e
      cases e
      exact ⟨(h.insertRecord h1).1, fun hh => by cases hh⟩
  · split at e
    · next hd =>
      obtain ⟨x, h1, e⟩ := res_bind e
      cases e
      rw [hd.1] at hs
      exact ⟨h.reuseRecord hd.2 (searchRecord_dead hs) h1, fun hh => by cases hh⟩
    · obtain ⟨x, h1, e⟩ := res_bind e
      cases e
      exact ⟨h.setPayload h1, fun hh => by cases hh⟩

theorem SizeW.insertAt (h : SizeW cfg n) {k : K} {v : V} {rc rc1 : NodeRC} {pos : Nat} (hs : n.searchRecord k = .ok (rc1, pos))
    (e : Blink.insertAt cfg n k v rc1 pos = .ok (rc, n')) :
    SizeW cfg n' ∧ (rc = .needSplit → n' = n ∧ Blink.needSplit cfg n (cfg.klen k + cfg.payLen) = true) := by
  unfold Blink.insertAt at e
  split at e
  · split at e
    · next hn => cases e; exact ⟨h, fun _ => ⟨rfl, hn⟩⟩
    · obtain ⟨x, h1, e⟩ := res_bind e
      cases e
      exact ⟨(h.insertRecord h1).1, fun hh => by cases hh⟩
  · split at e
    · next hd =>
      obtain ⟨x, h1, e⟩ := res_bind e
      cases e
      rw [hd.1] at hs
      exact ⟨h.reuseRecord hd.2 (searchRecord_dead hs) h1, fun hh => by cases hh⟩
    · cases e
      exact ⟨h, fun hh => by cases hh⟩

theorem SizeW.leafInsertCore (h : SizeW cfg n) {k : K} {v : V} {rc : NodeRC} (e : Blink.leafInsertCore cfg n k v = .ok (rc, n')) :
    SizeW cfg n' ∧ (rc = .needSplit → n' = n ∧ Blink.needSplit cfg n (cfg.klen k + cfg.payLen) = true) := by
  unfold Blink.leafInsertCore at e
  obtain ⟨⟨rc1, pos⟩, hs, e⟩ := res_bind e
  exact h.insertAt hs e

theorem SizeW.insertChildCore (h : SizeW cfg n) {k : K} {r : Ptr} {rc : NodeRC} (e : Blink.insertChildCore cfg n r k = .ok (rc, n')) :
    SizeW cfg n' ∧ (rc = .needSplit → n' = n ∧ Blink.needSplit cfg n (cfg.klen k + cfg.ptrLen) = true) := by
  unfold Blink.insertChildCore at e
  obtain ⟨⟨rc1, pos⟩, hs, e⟩ := res_bind e
  dsimp only at e
  split at e
  · cases e
    exact ⟨h, fun hh => by cases hh⟩
  · split at e
    · next hn => cases e; exact ⟨h, fun _ => ⟨rfl, hn⟩⟩
    · obtain ⟨x, h1, e⟩ := res_bind e
      cases e
      exact ⟨(h.insertRecord h1).1, fun hh => by cases hh⟩

theorem SizeW.deleteAt (hr : Roomy cfg L) (h : SizeW cfg n) {k : K} {rc : NodeRC} {pos : Nat} (hs : n.searchRecord k = .ok (.keyAlreadyInserted, pos))
    (e : Blink.deleteAt cfg n pos = .ok (rc, n')) : SizeW cfg n' ∧ (rc = .needMerge ∨ rc = .completed) := by
  unfold Blink.deleteAt at e
  obtain ⟨x, h1, e⟩ := res_bind e
  obtain ⟨⟨b, y⟩, h2, e⟩ := res_bind e
  cases e
  refine ⟨(h.removeRecord (searchRecord_live hs) h1).needMerge hr h2, ?_⟩
  cases b
  · exact Or.inr rfl
  · exact Or.inl rfl

theorem SizeW.leafDelete (hr : Roomy cfg L) (h : SizeW cfg n) {k : K} {rc : NodeRC} (e : Blink.leafDelete cfg n k = .ok (rc, n')) :
    SizeW cfg n' := by
  unfold Blink.leafDelete at e
  obtain ⟨⟨rc1, pos⟩, hs, e⟩ := res_bind e
  dsimp only at e
  split at e
  · next hd => subst hd; exact (h.deleteAt hr hs e).1
  · cases e; exact h

theorem SizeW.deleteChild (hr : Roomy cfg L) (h : SizeW cfg n) {k : K} {rc : NodeRC} (e : Blink.deleteChild cfg n k = .ok (rc, n')) :
    SizeW cfg n' := by
  unfold Blink.deleteChild at e
  split at e
  · cases e; exact h
  · split at e
    · cases e
    · split at e
      · cases e
      · split at e
        · cases e; exact h
        · obtain ⟨⟨rc1, pos⟩, hs, e⟩ := res_bind e
          dsimp only at e
          split at e
          · cases e; exact h
          · obtain ⟨x, h1, e⟩ := res_bind e
            obtain ⟨⟨b, y⟩, h2, e⟩ := res_bind e
            cases e
            exact (h.dropChild h1).needMerge hr h2

end BT
