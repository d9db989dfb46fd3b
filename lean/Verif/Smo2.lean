import Verif.Smo

/-!
# Merging pages, inserting and removing children, new roots
-/

set_option linter.unusedSectionVars false

namespace BT
variable {K V : Type} [LinearOrder K]
variable {cfg : Cfg K} {L : Nat} {lo hi : Bd K} {n : Node K V} {b : Bool}

theorem NodeOk.high_of_right {l r : Node K V} (h : NodeOk cfg b (hiB l.high) r) : ∃ k, l.high = some k := by
  cases hl : l.high with
  | some k => exact ⟨k, rfl⟩
  | none =>
    have := h.lt
    rw [hl] at this
    simp [Bd.lt] at this

theorem LeafOk.append {A B : List (Rec K V)} {k : K} (hA : LeafOk lo (.key k) A)
    (hB : LeafOk (.key k) hi B) (hlo : lo.lt (.key k)) (hhi : (Bd.key k).lt hi) :
    LeafOk lo hi (A ++ B) := by
  refine ⟨List.pairwise_append.2 ⟨hA.sorted, hB.sorted, ?_⟩, ?_, ?_⟩
  · intro x hx y hy a ha b hb
    obtain ⟨a', ha', h1, h2⟩ := hA.keyed x hx
    obtain ⟨b', hb', h3, h4⟩ := hB.keyed y hy
    rw [ha] at ha'; cases ha'
    rw [hb] at hb'; cases hb'
    simp at h2 h3
    order
  · intro r hr
    rcases List.mem_append.1 hr with hr | hr
    · obtain ⟨a, ha, h1, h2⟩ := hA.keyed r hr
      exact ⟨a, ha, h1, Bd.gtKey_of_lt hhi h2⟩
    · obtain ⟨a, ha, h1, h2⟩ := hB.keyed r hr
      exact ⟨a, ha, Bd.leKey_of_lt hlo h1, h2⟩
  · intro r hr
    rcases List.mem_append.1 hr with hr | hr
    · exact hA.vals r hr
    · exact hB.vals r hr

theorem InnerOk.append {A B : List (Rec K V)} {k : K} (hA : InnerOk lo (.key k) A)
    (hB : InnerOk (.key k) hi B) (hlo : lo.lt (.key k)) (hhi : (Bd.key k).lt hi) :
    InnerOk lo hi (A ++ B) := by
  obtain ⟨s, B', rfl, hs⟩ := hB.head k rfl
  have hT : (A ++ s :: B').tail = A.tail ++ s :: B' := List.tail_append_of_ne_nil hA.ne
  have hkB : ∀ r ∈ s :: B', ∃ a, r.key = some a ∧ k ≤ a ∧ hi.gtKey a := by
    intro r hr
    rcases List.mem_cons.1 hr with rfl | hr
    · refine ⟨k, hs, le_refl _, ?_⟩
      cases hi <;> simp_all [Bd.lt]
    · obtain ⟨a, ha, h1, h2⟩ := hB.keyed r hr
      exact ⟨a, ha, le_of_lt h1, h2⟩
  refine ⟨by simp, ?_, ?_, ?_, ?_, ?_⟩
  · unfold KSorted
    rw [hT]
    refine List.pairwise_append.2 ⟨hA.sorted, List.pairwise_cons.2 ⟨?_, hB.sorted⟩, ?_⟩
    · intro y hy a ha b hb
      rw [hs] at ha; cases ha
      obtain ⟨b', hb', h3, h4⟩ := hB.keyed y hy
      rw [hb] at hb'; cases hb'
      exact h3
    · intro x hx y hy a ha b hb
      obtain ⟨a', ha', h1, h2⟩ := hA.keyed x hx
      obtain ⟨b', hb', h3, h4⟩ := hkB y hy
      rw [ha] at ha'; cases ha'
      rw [hb] at hb'; cases hb'
      simp at h2
      order
  · rw [hT]
    intro r hr
    rcases List.mem_append.1 hr with hr | hr
    · obtain ⟨a, ha, h1, h2⟩ := hA.keyed r hr
      exact ⟨a, ha, h1, Bd.gtKey_of_lt hhi h2⟩
    · obtain ⟨a, ha, h1, h2⟩ := hkB r hr
      refine ⟨a, ha, ?_, h2⟩
      cases lo <;> simp_all [Bd.lt]
      order
  · intro k' hk'
    obtain ⟨r, rs, h1, h2⟩ := hA.head k' hk'
    exact ⟨r, rs ++ s :: B', by simp [h1], h2⟩
  · intro r hr
    rcases List.mem_append.1 hr with hr | hr
    · exact hA.ptrs r hr
    · exact hB.ptrs r hr
  · intro r hr
    rcases List.mem_append.1 hr with hr | hr
    · exact hA.live r hr
    · exact hB.live r hr

/-- What a merge delivers. -/
structure MergePost (cfg : Cfg K) (L : Nat) (b : Bool) (lo : Bd K) (l r m : Node K V) : Prop where
  ok : NodeOk cfg b lo m
  low : m.low = l.low
  high : m.high = r.high
  pairs : pairs m.recs = pairs l.recs ++ pairs r.recs
  slots : b = true → slots m.recs m.high = slots l.recs l.high ++ slots r.recs r.high
  next : l.hasNext cfg = true → m.next = r.next
  room : L + cfg.maxPayLen + cfg.mlen ≤ cfg.minFree → Room cfg L m

/-- `Merge` of two pages that passed the size test. -/
theorem merge_ok (hr : Roomy cfg L) {l r : Node K V} (hl : NodeOk cfg b lo l)
    (hrn : NodeOk cfg b (hiB l.high) r) (hcan : l.canMerge cfg r = true) :
    ∃ m, l.merge cfg r = .ok m ∧ MergePost cfg L b lo l r m := by
  obtain ⟨k, hk⟩ := hrn.high_of_right
  have hlt1 : lo.lt (.key k) := by have := hl.lt; rwa [hk] at this
  have hlt2 : (Bd.key k).lt (hiB r.high) := by have := hrn.lt; rwa [hk] at this
  have hlt : lo.lt (hiB r.high) := Bd.lt_trans hlt1 hlt2
  simp only [Node.canMerge, decide_eq_true_eq] at hcan
  have hkind : l.isInner = r.isInner := by rw [hl.kind, hrn.kind]
  have hslots : if b then InnerOk lo (hiB r.high) (Node.liveRecs l.recs ++ Node.liveRecs r.recs)
      else LeafOk lo (hiB r.high) (Node.liveRecs l.recs ++ Node.liveRecs r.recs) := by
    have h1 := hl.live_slots
    have h2 := hrn.live_slots
    rw [hk] at h1 h2
    cases b
    · exact LeafOk.append h1 h2 hlt1 hlt2
    · exact InnerOk.append h1 h2 hlt1 hlt2
  have hsl : b = true → slots (Node.liveRecs l.recs ++ Node.liveRecs r.recs) r.high
      = slots l.recs l.high ++ slots r.recs r.high := by
    intro hb
    subst hb
    rw [liveRecs_of_live hl.inner.live, liveRecs_of_live hrn.inner.live, slots_append]
    obtain ⟨s, rs, h1, h2⟩ := hrn.inner.head k (by rw [hk]; rfl)
    rw [h1]
    simp [hdKey, h2, hk]
  have hmax : cfg.maxUsed + cfg.minFree = cfg.cap := by
    have := hr.hdr
    simp only [Cfg.maxUsed, Cfg.cap]; omega
  cases hlay : cfg.layout
  · obtain ⟨hd, hblk, hcap, hnd⟩ := (sizeOk_fix hlay l).1 hl.size
    obtain ⟨hd', hblk', hcap', hnd'⟩ := (sizeOk_fix hlay r).1 hrn.size
    rw [usedSize_fix hlay, usedSize_fix hlay] at hcan
    rw [liveRecs_of_live hnd, liveRecs_of_live hnd'] at hslots hsl
    have hsize : cfg.maxKeyLen * ((l.recs ++ r.recs).length +
        ((if l.low.isSome then 1 else 0) + (if r.high.isSome then 1 else 0)))
        + (l.block + cfg.plen l.isInner * r.rc) < cfg.maxUsed := by
      have e1 : cfg.maxKeyLen * ((l.recs ++ r.recs).length +
          ((if l.low.isSome then 1 else 0) + (if r.high.isSome then 1 else 0)))
          ≤ cfg.maxKeyLen * ((l.recs.length + l.borders) + (r.recs.length + r.borders)) := by
        apply Nat.mul_le_mul_left
        simp only [List.length_append, Node.borders]
        omega
      have e2 := Nat.mul_add cfg.maxKeyLen (l.recs.length + l.borders) (r.recs.length + r.borders)
      have : cfg.plen l.isInner * r.rc = r.block := by rw [hkind, hblk']; rfl
      omega
    refine ⟨{ l with
      recs := l.recs ++ r.recs
      high := r.high
      next := if l.hasNext cfg then r.next else l.next
      block := l.block + cfg.plen l.isInner * r.rc }, ?_, ?_⟩
    · unfold Node.merge
      simp only [hlay]
      rw [checked_ok]
      rw [fits_fix hlay]
      simp only [Node.borders]
      omega
    · refine { ok := ⟨hl.kind, hl.notRemoved, hlt, hslots, ?_⟩, low := rfl, high := rfl, pairs := ?_,
               slots := hsl, next := ?_, room := ?_ }
      · rw [sizeOk_fix hlay]
        simp only [Node.borders]
        refine ⟨hd, ?_, by omega, ?_⟩
        · rw [hblk, List.length_append, Nat.mul_add]; rfl
        · intro x hx
          rcases List.mem_append.1 hx with hx | hx
          · exact hnd x hx
          · exact hnd' x hx
      · simp
      · intro hn; simp [hn]
      · intro hmf
        rw [room_fix hlay]
        simp only [Node.borders]
        have := hr.fixL hlay
        simp [Cfg.mlen, hlay] at hmf
        omega
  · obtain ⟨h1, h2, h3, h4⟩ := (sizeOk_var hlay l).1 hl.size
    obtain ⟨h1', h2', h3', h4'⟩ := (sizeOk_var hlay r).1 hrn.size
    rw [← hkind] at h1' h2' h4'
    rw [usedSize_var hlay, usedSize_var hlay] at hcan
    have e1 := lsize_live cfg l.isInner l.recs
    have e2 := lsize_live cfg l.isInner r.recs
    have hb : Node.recBytes cfg l.isInner (Node.liveRecs l.recs ++ Node.liveRecs r.recs)
        = Node.recBytes cfg l.isInner (Node.liveRecs l.recs) + Node.recBytes cfg l.isInner (Node.liveRecs r.recs) := by
      simp [Node.recBytes]
    have hm : cfg.metaLen * (Node.liveRecs l.recs ++ Node.liveRecs r.recs).length
        = cfg.metaLen * (Node.liveRecs l.recs).length + cfg.metaLen * (Node.liveRecs r.recs).length := by
      rw [List.length_append, Nat.mul_add]
    have ho := oklen_le hr l.low
    have hle := hr.le
    refine ⟨{ l with
      recs := Node.liveRecs l.recs ++ Node.liveRecs r.recs
      high := r.high
      next := if l.hasNext cfg then r.next else l.next
      block := cfg.oklen l.low + cfg.oklen r.high + Node.recBytes cfg l.isInner (Node.liveRecs l.recs ++ Node.liveRecs r.recs)
      dead := 0 }, ?_, ?_⟩
    · unfold Node.merge
      simp only [hlay]
      rw [checked_ok]
      rw [fits_var hlay]
      dsimp only
      rw [hb, hm]
      omega
    · refine { ok := ⟨hl.kind, hl.notRemoved, hlt, hslots, ?_⟩, low := rfl, high := rfl, pairs := ?_,
               slots := hsl, next := ?_, room := ?_ }
      · rw [sizeOk_var hlay]
        dsimp only
        rw [hb, hm, lsize_append, dsize_append, lsize_liveRecs, lsize_liveRecs, dsize_liveRecs, dsize_liveRecs]
        omega
      · simp
      · intro hn; simp [hn]
      · intro hmf
        rw [room_var hlay]
        dsimp only
        rw [hb, hm]
        simp [Cfg.mlen, hlay] at hmf
        omega

/-! ## Children -/

theorem InnerOk.insert {T D : List (Rec K V)} {r : Rec K V} {k : K} {q : Ptr} {h : Option K}
    (hok : InnerOk lo hi (T ++ r :: D)) (hT : T ≠ [] → ∃ a, r.key = some a ∧ a < k)
    (hlo : lo.lt (.key k)) (hD : (hiB (hdKey D h)).gtKey k) (hh : hi = hiB h) :
    InnerOk lo hi (T ++ r :: ⟨some k, .ptr q, false⟩ :: D) := by
  have hhi : hi.gtKey k := by
    cases D with
    | nil => rw [hh]; exact hD
    | cons d D =>
      obtain ⟨a, ha, h1, h2⟩ := hok.keyed d (by cases T <;> simp)
      simp only [hdKey, ha, hiB_some, Bd.gtKey_key] at hD
      exact Bd.gtKey_of_lt (a := .key a) (Bd.gtKey_iff.1 h2) hD
  -- keys behind the new slot are larger
  have hDgt : ∀ x ∈ D, ∀ a, x.key = some a → k < a := by
    cases D with
    | nil => simp
    | cons d D =>
      obtain ⟨a0, ha0, -, -⟩ := hok.keyed d (by cases T <;> simp)
      simp only [hdKey, ha0, hiB_some, Bd.gtKey_key] at hD
      intro x hx a ha
      rcases List.mem_cons.1 hx with rfl | hx
      · rw [ha] at ha0; cases ha0; exact hD
      · have hs : KSorted (d :: D) := by
          have := hok.sorted
          cases T
          · simpa using this
          · simp only [List.cons_append, List.tail_cons] at this
            exact (List.pairwise_cons.1 (List.pairwise_append.1 this).2.1).2
        have := (List.pairwise_cons.1 hs).1 x hx a0 ha0 a ha
        order
  have hnew : KSorted ((⟨some k, .ptr q, false⟩ : Rec K V) :: D) ↔ KSorted D := by
    unfold KSorted
    rw [List.pairwise_cons]
    constructor
    · exact fun h => h.2
    · intro h
      exact ⟨fun x hx a ha b hb => by cases ha; exact hDgt x hx b hb, h⟩
  refine ⟨by simp, ?_, ?_, ?_, ?_, ?_⟩
  · cases T with
    | nil =>
      have := hok.sorted
      simp only [List.nil_append, List.tail_cons] at this ⊢
      exact hnew.2 this
    | cons t T =>
      have hs := hok.sorted
      simp only [List.cons_append, List.tail_cons] at hs ⊢
      unfold KSorted at hs ⊢
      rw [List.pairwise_append] at hs ⊢
      obtain ⟨hs1, hs2, hs3⟩ := hs
      obtain ⟨a0, ha0, hak⟩ := hT (by simp)
      have hs2' := List.pairwise_cons.1 hs2
      refine ⟨hs1, List.pairwise_cons.2 ⟨?_, hnew.2 hs2'.2⟩, ?_⟩
      · intro x hx a ha b hb
        rcases List.mem_cons.1 hx with rfl | hx
        · cases hb; rw [ha] at ha0; cases ha0; exact hak
        · exact hs2'.1 x hx a ha b hb
      · intro x hx y hy a ha b hb
        rcases List.mem_cons.1 hy with rfl | hy
        · exact hs3 x hx _ (by simp) a ha b hb
        · rcases List.mem_cons.1 hy with rfl | hy
          · cases hb
            have := hs3 x hx r (by simp) a ha a0 ha0
            order
          · exact hs3 x hx y (by simp [hy]) a ha b hb
  · intro x hx
    have hx' : x ∈ (T ++ r :: D).tail ∨ x = ⟨some k, .ptr q, false⟩ := by
      cases T <;> simp only [List.nil_append, List.cons_append, List.tail_cons, List.mem_append, List.mem_cons] at hx ⊢ <;> tauto
    rcases hx' with hx' | rfl
    · exact hok.keyed x hx'
    · exact ⟨k, rfl, hlo, hhi⟩
  · intro k' hk'
    obtain ⟨x, xs, h1, h2⟩ := hok.head k' hk'
    cases T with
    | nil => simp at h1; exact ⟨r, _, rfl, by rw [h1.1]; exact h2⟩
    | cons t T => simp at h1; exact ⟨t, _, rfl, by rw [h1.1]; exact h2⟩
  · intro x hx
    simp only [List.mem_append, List.mem_cons] at hx
    rcases hx with hx | rfl | rfl | hx
    · exact hok.ptrs x (by simp [hx])
    · exact hok.ptrs x (by simp)
    · exact ⟨q, rfl⟩
    · exact hok.ptrs x (by simp [hx])
  · intro x hx
    simp only [List.mem_append, List.mem_cons] at hx
    rcases hx with hx | rfl | rfl | hx
    · exact hok.live x (by simp [hx])
    · exact hok.live x (by simp)
    · rfl
    · exact hok.live x (by simp [hx])

theorem InnerOk.remove {T D : List (Rec K V)} {r d : Rec K V}
    (hok : InnerOk lo hi (T ++ r :: d :: D)) : InnerOk lo hi (T ++ r :: D) := by
  have hsub : (T ++ r :: D).Sublist (T ++ r :: d :: D) := by simp
  have htail : (T ++ r :: D).tail.Sublist (T ++ r :: d :: D).tail := by
    cases T <;> simp
  refine ⟨by simp, hok.sorted.sublist htail, fun x hx => hok.keyed x (htail.subset hx), ?_,
    fun x hx => hok.ptrs x (hsub.subset hx), fun x hx => hok.live x (hsub.subset hx)⟩
  intro k' hk'
  obtain ⟨x, xs, h1, h2⟩ := hok.head k' hk'
  cases T with
  | nil => simp at h1; exact ⟨r, _, rfl, by rw [h1.1]; exact h2⟩
  | cons t T => simp at h1; exact ⟨t, _, rfl, by rw [h1.1]; exact h2⟩

/-- What a change of an inner page preserves besides its slots. -/
theorem NodeOk.inner_frame {n' : Node K V} (h : NodeOk cfg true lo n) (hf : SameFrame n n')
    (hl : InnerOk lo (hiB n.high) n'.recs) (hs : SizeOk cfg n') : NodeOk cfg true lo n' :=
  ⟨hf.isInner.trans h.kind, hf.removed.trans h.notRemoved, hf.high ▸ h.lt,
    by simpa [hf.high] using hl, hs⟩

/-- `InsertChild`: slot `T.length` keeps its child with the new upper border `k`; the new child `q`
takes over the old upper border. -/
theorem placeChild_ok (h : NodeOk cfg true lo n)
    {T D r k} {q : Ptr} (hrecs : n.recs = T ++ r :: D)
    (hroom : n.fitsOne cfg (cfg.klen k + cfg.ptrLen) = true)
    (hT : T ≠ [] → ∃ a, r.key = some a ∧ a < k)
    (hlo : lo.lt (.key k)) (hD : (hiB (hdKey D n.high)).gtKey k) :
    ∃ n', n.placeChild cfg (some k) q T.length = .ok n' ∧ NodeOk cfg true lo n' ∧ SameFrame n n' ∧
      n'.recs = T ++ r :: ⟨some k, .ptr q, false⟩ :: D := by
  have hkind := h.kind
  have hsz := h.size
  have hi := h.inner
  rw [hrecs] at hi
  have hl := hi.insert (q := q) hT hlo hD rfl
  cases hlay : cfg.layout
  · have hfit : n.fitsOne cfg (cfg.maxKeyLen + cfg.plen n.isInner) = true := by
      simpa [Cfg.plen, hkind, Cfg.klen, hlay] using hroom
    refine ⟨{ n with recs := T ++ r :: ⟨some k, .ptr q, false⟩ :: D, block := n.block + cfg.plen n.isInner }, ?_, ?_,
      ⟨rfl, rfl, rfl, rfl, rfl⟩, rfl⟩
    · simp [Node.placeChild, Node.insertRecord, hlay, hfit, hrecs, insAt_length']
    · refine h.inner_frame ⟨rfl, rfl, rfl, rfl, rfl⟩ hl ?_
      rw [sizeOk_fix hlay] at hsz ⊢
      rw [fitsOne_fix hlay] at hfit
      obtain ⟨hd, hb, hc, hnd⟩ := hsz
      refine ⟨hd, ?_, ?_, hl.live⟩
      · rw [hb, hrecs]
        simp only [List.length_append, List.length_cons]
        ring
      · simp only [Node.borders] at hfit ⊢
        rw [hrecs] at hfit
        simp only [List.length_append, List.length_cons] at hfit ⊢
        generalize (if n.low.isSome then 1 else 0) + (if n.high.isSome then 1 else 0) = b at hfit ⊢
        have : cfg.maxKeyLen * (T.length + (D.length + 1 + 1) + b)
            = cfg.maxKeyLen * (T.length + (D.length + 1) + b) + cfg.maxKeyLen := by ring
        omega
  · have hfit : n.fitsOne cfg (Rec.len cfg n.isInner (⟨some k, .ptr q, false⟩ : Rec K V)) = true := by
      simpa [Cfg.plen, hkind, Rec.len, Cfg.oklen] using hroom
    refine ⟨{ n with recs := T ++ r :: ⟨some k, .ptr q, false⟩ :: D,
                     block := n.block + Rec.len cfg n.isInner (⟨some k, .ptr q, false⟩ : Rec K V) }, ?_, ?_,
      ⟨rfl, rfl, rfl, rfl, rfl⟩, rfl⟩
    · simp [Node.placeChild, Node.insertRecord, hlay, hfit, hrecs, insAt_length']
    · refine h.inner_frame ⟨rfl, rfl, rfl, rfl, rfl⟩ hl ?_
      rw [sizeOk_var hlay] at hsz ⊢
      rw [fitsOne_var hlay] at hfit
      rw [hrecs] at hsz hfit
      simp only [List.length_append, List.length_cons, lsize_append, lsize_cons, dsize_append, dsize_cons] at hsz hfit ⊢
      have : cfg.metaLen * (T.length + (D.length + 1 + 1)) = cfg.metaLen * (T.length + (D.length + 1)) + cfg.metaLen := by ring
      have : cfg.metaLen * (T.length + (D.length + 1) + 1) = cfg.metaLen * (T.length + (D.length + 1)) + cfg.metaLen := by ring
      simp only [Bool.false_eq_true, if_false]
      omega

/-- `DeleteChild`: the slot right of `T.length` disappears. -/
theorem dropChild_ok (h : NodeOk cfg true lo n) {T D r d} (hrecs : n.recs = T ++ r :: d :: D) :
    ∃ n', n.dropChild cfg (T.length + 1) = .ok n' ∧ NodeOk cfg true lo n' ∧ SameFrame n n' ∧
      n'.recs = T ++ r :: D ∧ (Room cfg L n → Room cfg L n') := by
  have hkind := h.kind
  have hsz := h.size
  have hi := h.inner
  rw [hrecs] at hi
  have hl := hi.remove
  have hd := hi.live d (by simp)
  have hget : n.recs[T.length + 1]? = some d := by simp [hrecs]
  cases hlay : cfg.layout
  · refine ⟨{ n with recs := T ++ r :: D, block := n.block - cfg.plen n.isInner }, ?_, ?_,
      ⟨rfl, rfl, rfl, rfl, rfl⟩, rfl, ?_⟩
    · simp only [Node.dropChild, hget, hlay]
      rw [hrecs, delAt_length']
    · refine h.inner_frame ⟨rfl, rfl, rfl, rfl, rfl⟩ hl ?_
      rw [sizeOk_fix hlay] at hsz ⊢
      obtain ⟨h0, h1, h2, h3⟩ := hsz
      simp only [Node.borders] at h2 ⊢
      generalize (if n.low.isSome then 1 else 0) + (if n.high.isSome then 1 else 0) = b at h2 ⊢
      rw [hrecs] at h1 h2
      simp only [List.length_append, List.length_cons] at h1 h2 ⊢
      have e1 : cfg.plen n.isInner * (T.length + (D.length + 1 + 1))
          = cfg.plen n.isInner * (T.length + (D.length + 1)) + cfg.plen n.isInner := by ring
      have e2 : cfg.maxKeyLen * (T.length + (D.length + 1 + 1) + b)
          = cfg.maxKeyLen * (T.length + (D.length + 1) + b) + cfg.maxKeyLen := by ring
      exact ⟨h0, by omega, by omega, hl.live⟩
    · intro hroom
      rw [room_fix hlay] at hroom ⊢
      simp only [Node.borders] at hroom ⊢
      generalize (if n.low.isSome then 1 else 0) + (if n.high.isSome then 1 else 0) = b at hroom ⊢
      rw [hrecs] at hroom
      simp only [List.length_append, List.length_cons] at hroom ⊢
      have e2 : cfg.maxKeyLen * (T.length + (D.length + 1 + 1) + b)
          = cfg.maxKeyLen * (T.length + (D.length + 1) + b) + cfg.maxKeyLen := by ring
      omega
  · refine ⟨{ n with recs := T ++ r :: D, dead := n.dead + d.len cfg n.isInner }, ?_, ?_,
      ⟨rfl, rfl, rfl, rfl, rfl⟩, rfl, ?_⟩
    · simp only [Node.dropChild, hget, hlay]
      rw [hrecs, delAt_length']
    · refine h.inner_frame ⟨rfl, rfl, rfl, rfl, rfl⟩ hl ?_
      rw [sizeOk_var hlay] at hsz ⊢
      rw [hrecs] at hsz
      simp only [List.length_append, List.length_cons, lsize_append, lsize_cons, dsize_append,
        dsize_cons, hd] at hsz ⊢
      have : cfg.metaLen * (T.length + (D.length + 1 + 1)) = cfg.metaLen * (T.length + (D.length + 1)) + cfg.metaLen := by ring
      simp only [Bool.false_eq_true, if_false] at hsz
      omega
    · intro hroom
      rw [room_var hlay] at hroom ⊢
      rw [hrecs] at hroom
      simp only [List.length_append, List.length_cons] at hroom ⊢
      have : cfg.metaLen * (T.length + (D.length + 1 + 1)) = cfg.metaLen * (T.length + (D.length + 1)) + cfg.metaLen := by ring
      omega

theorem Room.fitsOne_inner (hr : Roomy cfg L) (h : Room cfg L n) (k : K) :
    n.fitsOne cfg (cfg.klen k + cfg.ptrLen) = true := by
  have h1 := hr.key k
  have h2 := plen_le cfg true
  simp only [Cfg.plen] at h2
  cases hlay : cfg.layout
  · rw [fitsOne_fix hlay]
    rw [room_fix hlay] at h
    have := hr.fixL hlay
    simp at h2
    omega
  · rw [fitsOne_var hlay]
    rw [room_var hlay] at h
    rw [Nat.mul_add]
    simp at h2
    omega

/-- The root constructor over two children. -/
theorem newRoot_ok (hr : Roomy cfg L) (k : K) (l r : Ptr) :
    ∃ n : Node K V, Node.newRoot cfg (some k) l r = .ok n ∧ NodeOk cfg true .bot n ∧ n.high = none ∧
      n.next = none ∧ slots n.recs n.high = [(l, some k), (r, none)] ∧ Room cfg L n := by
  have h1 := hr.key k
  have h2 := plen_le cfg true
  simp only [Cfg.plen, if_true] at h2
  have hio : ∀ (n : Node K V), n.recs = [⟨none, .ptr l, false⟩, ⟨some k, .ptr r, false⟩] →
      InnerOk .bot .top n.recs := by
    intro n hn
    rw [hn]
    refine ⟨by simp, by simp [KSorted], ?_, ?_, ?_, ?_⟩
    · intro x hx
      simp at hx
      subst hx
      exact ⟨k, rfl, by simp [Bd.lt], by simp⟩
    · intro k' hk'; cases hk'
    · intro x hx
      simp at hx
      rcases hx with rfl | rfl <;> simp
    · intro x hx
      simp at hx
      rcases hx with rfl | rfl <;> simp
  cases hlay : cfg.layout
  · have hL := hr.fixL hlay
    have hf := hr.fix1 hlay
    simp only [Cfg.maxRecLen, Cfg.mlen, hlay] at hf
    refine ⟨{ isInner := true, recs := [⟨none, .ptr l, false⟩, ⟨some k, .ptr r, false⟩],
              block := 2 * cfg.ptrLen }, ?_, ⟨rfl, rfl, by simp [Bd.lt], hio _ rfl, ?_⟩, rfl, rfl, ?_, ?_⟩
    · simp only [Node.newRoot, hlay]
      rw [checked_ok]
      rw [fits_fix hlay]
      simp [Node.borders]
      omega
    · rw [sizeOk_fix hlay]
      simp [Node.borders, Cfg.plen]
      omega
    · simp [slots, Rec.toPtr]
    · rw [room_fix hlay]
      simp [Node.borders]
      omega
  · have hv := hr.var1 hlay
    refine ⟨{ isInner := true, recs := [⟨none, .ptr l, false⟩, ⟨some k, .ptr r, false⟩],
              block := cfg.ptrLen + (cfg.klen k + cfg.ptrLen) }, ?_, ⟨rfl, rfl, by simp [Bd.lt], hio _ rfl, ?_⟩, rfl, rfl, ?_, ?_⟩
    · simp only [Node.newRoot, hlay]
      rw [checked_ok]
      rw [fits_var hlay]
      simp
      omega
    · rw [sizeOk_var hlay]
      simp [Cfg.plen, lsize_cons, dsize_cons, Rec.len]
      omega
    · simp [slots, Rec.toPtr]
    · rw [room_var hlay]
      simp
      omega

theorem emptyLeaf_ok (cfg : Cfg K) : NodeOk cfg false .bot (Node.emptyLeaf : Node K V) := by
  refine ⟨rfl, rfl, by simp [Node.emptyLeaf, Bd.lt], ?_, ?_⟩
  · exact ⟨by simp [Node.emptyLeaf, KSorted], by simp [Node.emptyLeaf], by simp [Node.emptyLeaf]⟩
  · cases hlay : cfg.layout
    · rw [sizeOk_fix hlay]; simp [Node.emptyLeaf, Node.borders]
    · rw [sizeOk_var hlay]; simp [Node.emptyLeaf]

end BT
