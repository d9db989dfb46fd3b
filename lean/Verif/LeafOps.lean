import Verif.NodeOk

/-!
# Leaf operations keep the page invariant and act on the live pairs as the API promises
-/

set_option linter.unusedSectionVars false

namespace BT
variable {K V : Type} [LinearOrder K]

/-- `l` is split around key `k`: `A` below, `C` the (at most one) pair of `k`, `B` above. -/
structure Around (k : K) (l A : List (K × V)) (C : Option V) (B : List (K × V)) : Prop where
  eq : l = A ++ (C.map (fun v => (k, v))).toList ++ B
  lo : ∀ x ∈ A, x.1 < k
  hi : ∀ x ∈ B, k < x.1

theorem pair_key {r : Rec K V} {x : K × V} (h : r.pair = some x) : r.key = some x.1 ∧ r.pay = .val x.2 ∧ r.del = false := by
  obtain ⟨k, p, d⟩ := r
  cases d <;> cases k <;> cases p <;> simp [Rec.pair] at h ⊢
  subst h; simp

theorem mem_pairs {recs : List (Rec K V)} {x : K × V} :
    x ∈ pairs recs ↔ ∃ r ∈ recs, r.pair = some x := by simp [pairs]

theorem AllLt.pairs {T : List (Rec K V)} {k : K} (h : AllLt T k) : ∀ x ∈ BT.pairs T, x.1 < k := by
  intro x hx
  obtain ⟨r, hr, hp⟩ := mem_pairs.1 hx
  exact h r hr _ (pair_key hp).1
theorem AllGt.pairs {T : List (Rec K V)} {k : K} (h : AllGt T k) : ∀ x ∈ BT.pairs T, k < x.1 := by
  intro x hx
  obtain ⟨r, hr, hp⟩ := mem_pairs.1 hx
  exact h r hr _ (pair_key hp).1

theorem LeafOk.insert {lo hi : Bd K} {T D : List (Rec K V)} {k : K} {v : V} (h : LeafOk lo hi (T ++ D))
    (h1 : AllLt T k) (h2 : AllGt D k) (hlo : lo.leKey k) (hhi : hi.gtKey k) :
    LeafOk lo hi (T ++ ⟨some k, .val v, false⟩ :: D) := by
  have hs := List.pairwise_append.1 h.sorted
  refine ⟨List.pairwise_append.2 ⟨hs.1, List.pairwise_cons.2 ⟨?_, hs.2.1⟩, ?_⟩, ?_, ?_⟩
  · intro x hx a ha b hb
    cases ha
    exact h2 x hx b hb
  · intro x hx y hy a ha b hb
    rcases List.mem_cons.1 hy with rfl | hy
    · cases hb
      exact h1 x hx a ha
    · exact hs.2.2 x hx y hy a ha b hb
  · intro r hr
    simp only [List.mem_append, List.mem_cons] at hr
    rcases hr with hr | rfl | hr
    · exact h.keyed r (by simp [hr])
    · exact ⟨k, rfl, hlo, hhi⟩
    · exact h.keyed r (by simp [hr])
  · intro r hr
    simp only [List.mem_append, List.mem_cons] at hr
    rcases hr with hr | rfl | hr
    · exact h.vals r (by simp [hr])
    · exact ⟨v, rfl⟩
    · exact h.vals r (by simp [hr])

theorem LeafOk.replace {lo hi : Bd K} {T D : List (Rec K V)} {r r' : Rec K V}
    (h : LeafOk lo hi (T ++ r :: D)) (hk : r'.key = r.key) (hv : ∃ v, r'.pay = .val v) :
    LeafOk lo hi (T ++ r' :: D) := by
  have hs := List.pairwise_append.1 h.sorted
  refine ⟨List.pairwise_append.2 ⟨hs.1, ?_, ?_⟩, ?_, ?_⟩
  · refine List.pairwise_cons.2 ⟨?_, (List.pairwise_cons.1 hs.2.1).2⟩
    rw [hk]
    exact (List.pairwise_cons.1 hs.2.1).1
  · intro x hx y hy
    rcases List.mem_cons.1 hy with rfl | hy
    · rw [hk]
      exact hs.2.2 x hx r (by simp)
    · exact hs.2.2 x hx y (by simp [hy])
  · intro x hx
    simp only [List.mem_append, List.mem_cons] at hx
    rcases hx with hx | rfl | hx
    · exact h.keyed x (by simp [hx])
    · rw [hk]
      exact h.keyed r (by simp)
    · exact h.keyed x (by simp [hx])
  · intro x hx
    simp only [List.mem_append, List.mem_cons] at hx
    rcases hx with hx | rfl | hx
    · exact h.vals x (by simp [hx])
    · exact hv
    · exact h.vals x (by simp [hx])

theorem LeafOk.sublist {lo hi : Bd K} {A B : List (Rec K V)} (h : LeafOk lo hi A) (hs : B.Sublist A) :
    LeafOk lo hi B :=
  ⟨h.sorted.sublist hs, fun r hr => h.keyed r (hs.subset hr), fun r hr => h.vals r (hs.subset hr)⟩

variable {cfg : Cfg K} {L : Nat} {lo : Bd K} {n : Node K V} {k : K} {v : V}

/-- What a write to a leaf may change: slots and size fields only. -/
structure SameFrame (n n' : Node K V) : Prop where
  isInner : n'.isInner = n.isInner
  removed : n'.removed = n.removed
  low : n'.low = n.low
  high : n'.high = n.high
  next : n'.next = n.next

theorem SameFrame.refl (n : Node K V) : SameFrame n n := ⟨rfl, rfl, rfl, rfl, rfl⟩
theorem SameFrame.trans {a b c : Node K V} (h : SameFrame a b) (h' : SameFrame b c) : SameFrame a c :=
  ⟨h'.1.trans h.1, h'.2.trans h.2, h'.3.trans h.3, h'.4.trans h.4, h'.5.trans h.5⟩

theorem NodeOk.leaf_frame {n' : Node K V} (h : NodeOk cfg false lo n) (hf : SameFrame n n')
    (hl : LeafOk lo (hiB n.high) n'.recs) (hs : SizeOk cfg n') : NodeOk cfg false lo n' :=
  ⟨hf.isInner.trans h.kind, hf.removed.trans h.notRemoved, hf.high ▸ h.lt,
    by simpa [hf.high] using hl, hs⟩

/-- Inserting an absent key. -/
theorem insertRecord_leaf (h : NodeOk cfg false lo n)
    (hroom : n.fitsOne cfg (cfg.klen k + cfg.payLen) = true)
    (hlo : lo.leKey k) (hhi : (hiB n.high).gtKey k) {T D} (hrecs : n.recs = T ++ D)
    (h1 : AllLt T k) (h2 : AllGt D k) :
    ∃ n', n.insertRecord cfg k (.val v) T.length = .ok n' ∧ NodeOk cfg false lo n' ∧ SameFrame n n' ∧
      n'.recs = T ++ ⟨some k, .val v, false⟩ :: D := by
  have hkind := h.kind
  have hsz := h.size
  have hl := (hrecs ▸ h.leaf : LeafOk lo (hiB n.high) (T ++ D)).insert (v := v) h1 h2 hlo hhi
  cases hlay : cfg.layout
  · have hfit : n.fitsOne cfg (cfg.maxKeyLen + cfg.plen n.isInner) = true := by
      simpa [Cfg.plen, hkind, Cfg.klen, hlay] using hroom
    refine ⟨{ n with recs := T ++ ⟨some k, .val v, false⟩ :: D, block := n.block + cfg.plen n.isInner }, ?_, ?_,
      ⟨rfl, rfl, rfl, rfl, rfl⟩, rfl⟩
    · simp [Node.insertRecord, hlay, hfit, hrecs, insAt_length]
    · refine h.leaf_frame ⟨rfl, rfl, rfl, rfl, rfl⟩ hl ?_
      rw [sizeOk_fix hlay] at hsz ⊢
      rw [fitsOne_fix hlay] at hfit
      obtain ⟨hd, hb, hc, hnd⟩ := hsz
      refine ⟨hd, ?_, ?_, ?_⟩
      · rw [hb, hrecs]
        simp only [List.length_append, List.length_cons]
        rw [← Nat.add_assoc, Nat.mul_add (cfg.plen n.isInner) _ 1]; omega
      · simp only [Node.borders] at hfit ⊢
        rw [hrecs] at hfit
        simp only [List.length_append, List.length_cons] at hfit ⊢
        generalize (if n.low.isSome then 1 else 0) + (if n.high.isSome then 1 else 0) = b at hfit ⊢
        have : cfg.maxKeyLen * (T.length + (D.length + 1) + b)
            = cfg.maxKeyLen * (T.length + D.length + b) + cfg.maxKeyLen := by ring
        omega
      · intro x hx
        simp only [List.mem_append, List.mem_cons] at hx
        rcases hx with hx | rfl | hx
        · exact hnd x (by simp [hrecs, hx])
        · rfl
        · exact hnd x (by simp [hrecs, hx])
  · have hfit : n.fitsOne cfg (Rec.len cfg n.isInner (⟨some k, .val v, false⟩ : Rec K V)) = true := by
      simpa [Cfg.plen, hkind, Rec.len, Cfg.oklen] using hroom
    refine ⟨{ n with recs := T ++ ⟨some k, .val v, false⟩ :: D,
                     block := n.block + Rec.len cfg n.isInner (⟨some k, .val v, false⟩ : Rec K V) }, ?_, ?_,
      ⟨rfl, rfl, rfl, rfl, rfl⟩, rfl⟩
    · simp [Node.insertRecord, hlay, hfit, hrecs, insAt_length]
    · refine h.leaf_frame ⟨rfl, rfl, rfl, rfl, rfl⟩ hl ?_
      rw [sizeOk_var hlay] at hsz ⊢
      rw [fitsOne_var hlay] at hfit
      rw [hrecs] at hsz hfit
      simp only [List.length_append, List.length_cons, lsize_append, lsize_cons, dsize_append, dsize_cons] at hsz hfit ⊢
      have : cfg.metaLen * (T.length + (D.length + 1)) = cfg.metaLen * (T.length + D.length) + cfg.metaLen := by ring
      have : cfg.metaLen * (T.length + D.length + 1) = cfg.metaLen * (T.length + D.length) + cfg.metaLen := by ring
      simp only [Bool.false_eq_true, if_false]
      omega

/-- Overwriting the payload of an existing slot. -/
theorem setPayload_leaf (h : NodeOk cfg false lo n) {T r D} (hrecs : n.recs = T ++ r :: D) :
    ∃ n', n.setPayload T.length v = .ok n' ∧ NodeOk cfg false lo n' ∧ SameFrame n n' ∧
      n'.recs = T ++ { r with pay := .val v } :: D := by
  have hsz := h.size
  have hl := (hrecs ▸ h.leaf : LeafOk lo (hiB n.high) (T ++ r :: D)).replace
    (r' := { r with pay := .val v }) rfl ⟨v, rfl⟩
  refine ⟨{ n with recs := T ++ { r with pay := .val v } :: D }, ?_, ?_, ⟨rfl, rfl, rfl, rfl, rfl⟩, rfl⟩
  · simp [Node.setPayload, hrecs, updAt_length]
  · refine h.leaf_frame ⟨rfl, rfl, rfl, rfl, rfl⟩ hl ?_
    cases hlay : cfg.layout
    · simp only [SizeOk, hlay, Node.borders] at hsz ⊢
      rw [hrecs] at hsz
      simp only [List.length_append, List.length_cons] at hsz ⊢
      refine ⟨hsz.1, hsz.2.1, hsz.2.2.1, ?_⟩
      intro x hx
      simp only [List.mem_append, List.mem_cons] at hx
      rcases hx with hx | rfl | hx
      · exact hsz.2.2.2 x (by simp [hx])
      · exact hsz.2.2.2 r (by simp)
      · exact hsz.2.2.2 x (by simp [hx])
    · simp only [SizeOk, hlay] at hsz ⊢
      rw [hrecs] at hsz
      simp only [List.length_append, List.length_cons, lsize_append, lsize_cons, dsize_append, dsize_cons, Rec.len] at hsz ⊢
      exact hsz

/-- Reviving a deleted slot. -/
theorem reuseRecord_leaf (hlay : cfg.layout = .var) (h : NodeOk cfg false lo n) {T r D}
    (hrecs : n.recs = T ++ r :: D) (hd : r.del = true) :
    ∃ n', n.reuseRecord cfg T.length v = .ok n' ∧ NodeOk cfg false lo n' ∧ SameFrame n n' ∧
      n'.recs = T ++ ⟨r.key, .val v, false⟩ :: D := by
  have hsz := h.size
  have hl := (hrecs ▸ h.leaf : LeafOk lo (hiB n.high) (T ++ r :: D)).replace
    (r' := ⟨r.key, .val v, false⟩) rfl ⟨v, rfl⟩
  refine ⟨{ n with recs := T ++ ⟨r.key, .val v, false⟩ :: D,
                   dead := n.dead - (r.len cfg n.isInner + cfg.metaLen) }, ?_, ?_,
    ⟨rfl, rfl, rfl, rfl, rfl⟩, rfl⟩
  · simp [Node.reuseRecord, hrecs, updAt_length]
  · refine h.leaf_frame ⟨rfl, rfl, rfl, rfl, rfl⟩ hl ?_
    simp only [SizeOk, hlay] at hsz ⊢
    rw [hrecs] at hsz
    simp only [List.length_append, List.length_cons, lsize_append, lsize_cons, dsize_append, dsize_cons, Rec.len, hd, if_true] at hsz ⊢
    simp only [Bool.false_eq_true, if_false]
    omega

/-- Deleting an existing record. -/
theorem removeRecord_leaf (h : NodeOk cfg false lo n) {T r D}
    (hrecs : n.recs = T ++ r :: D) (hd : r.del = false) :
    ∃ n', n.removeRecord cfg T.length = .ok n' ∧ NodeOk cfg false lo n' ∧ SameFrame n n' ∧
      (n'.recs = T ++ { r with del := true } :: D ∨ n'.recs = T ++ D) := by
  have hsz := h.size
  cases hlay : cfg.layout
  · refine ⟨{ n with recs := T ++ D, block := n.block - cfg.plen n.isInner }, ?_, ?_,
      ⟨rfl, rfl, rfl, rfl, rfl⟩, Or.inr rfl⟩
    · simp [Node.removeRecord, hrecs, delAt_length, hlay]
    · refine h.leaf_frame ⟨rfl, rfl, rfl, rfl, rfl⟩ (h.leaf.sublist (by simp [hrecs])) ?_
      rw [sizeOk_fix hlay] at hsz ⊢
      obtain ⟨h0, h1, h2, h3⟩ := hsz
      simp only [Node.borders] at h2 ⊢
      generalize (if n.low.isSome then 1 else 0) + (if n.high.isSome then 1 else 0) = b at h2 ⊢
      rw [hrecs] at h1 h2 h3
      simp only [List.length_append, List.length_cons] at h1 h2 ⊢
      have e1 : cfg.plen n.isInner * (T.length + (D.length + 1))
          = cfg.plen n.isInner * (T.length + D.length) + cfg.plen n.isInner := by ring
      have e2 : cfg.maxKeyLen * (T.length + (D.length + 1) + b)
          = cfg.maxKeyLen * (T.length + D.length + b) + cfg.maxKeyLen := by ring
      refine ⟨h0, by omega, by omega, ?_⟩
      intro x hx
      exact h3 x (by simp only [List.mem_append, List.mem_cons] at hx ⊢; tauto)
  · have hl := (hrecs ▸ h.leaf : LeafOk lo (hiB n.high) (T ++ r :: D)).replace
      (r' := { r with del := true }) rfl (h.leaf.vals r (by simp [hrecs]))
    refine ⟨{ n with recs := T ++ { r with del := true } :: D,
                     dead := n.dead + (r.len cfg n.isInner + cfg.metaLen) }, ?_, ?_,
      ⟨rfl, rfl, rfl, rfl, rfl⟩, Or.inl rfl⟩
    · simp [Node.removeRecord, hrecs, updAt_length, hlay]
    · refine h.leaf_frame ⟨rfl, rfl, rfl, rfl, rfl⟩ hl ?_
      rw [sizeOk_var hlay] at hsz ⊢
      rw [hrecs] at hsz
      simp only [List.length_append, List.length_cons, lsize_append, lsize_cons, dsize_append,
        dsize_cons, Rec.len, hd, if_true] at hsz ⊢
      simp only [Bool.false_eq_true, if_false] at hsz ⊢
      omega

theorem LeafOk.val_at {lo hi : Bd K} {T D : List (Rec K V)} {r : Rec K V}
    (h : LeafOk lo hi (T ++ r :: D)) : ∃ w, r.pay = .val w := h.vals r (by simp)

/-! ## The five leaf operations -/

/-- `Read` of a leaf returns the stored payload. -/
theorem leafRead_ok (h : NodeOk cfg false lo n) (k : K) :
    ∃ A C B, Around k (pairs n.recs) A C B ∧ n.read k = .ok C := by
  rcases h.search_leaf k with ⟨T, D, hrecs, hs, h1, h2⟩ | ⟨T, r, D, hrecs, hk, h1, h2, hs⟩
  · exact ⟨pairs T, none, pairs D, ⟨by simp [hrecs], h1.pairs, h2.pairs⟩, by simp [Node.read, hs]⟩
  · obtain ⟨w, hw⟩ := (hrecs ▸ h.leaf : LeafOk lo (hiB n.high) (T ++ r :: D)).val_at
    obtain ⟨rk, rp, rd⟩ := r
    simp at hk hw
    subst hk hw
    cases rd
    · refine ⟨pairs T, some w, pairs D, ⟨by simp [hrecs, pairs_cons, Rec.pair], h1.pairs, h2.pairs⟩, ?_⟩
      simp [Node.read, hs, Node.getVal, hrecs]
    · refine ⟨pairs T, none, pairs D, ⟨by simp [hrecs, pairs_cons, Rec.pair], h1.pairs, h2.pairs⟩, ?_⟩
      simp [Node.read, hs]

theorem SizeOk.fix_not_del (h : NodeOk cfg false lo n) (hlay : cfg.layout = .fix) {r : Rec K V}
    (hr : r ∈ n.recs) : r.del = false := ((sizeOk_fix hlay n).1 h.size).2.2.2 r hr

theorem layout_var_of_del (h : NodeOk cfg false lo n) {r : Rec K V} (hr : r ∈ n.recs)
    (hd : r.del = true) : cfg.layout = .var := by
  cases hlay : cfg.layout
  · rw [SizeOk.fix_not_del h hlay hr] at hd
    cases hd
  · rfl

/-- `Write` of a leaf; room is only needed for a new key. -/
theorem leafWrite_ok' (h : NodeOk cfg false lo n)
    (hroom : ∀ pos, n.searchRecord k = .ok (.keyNotInserted, pos) →
      n.fitsOne cfg (cfg.klen k + cfg.payLen) = true)
    (hlo : lo.leKey k) (hhi : (hiB n.high).gtKey k) (v : V) :
    ∃ n' A C B, n.leafWrite cfg k v = .ok n' ∧ NodeOk cfg false lo n' ∧ SameFrame n n' ∧
      Around k (pairs n.recs) A C B ∧ Around k (pairs n'.recs) A (some v) B := by
  rcases h.search_leaf k with ⟨T, D, hrecs, hs, h1, h2⟩ | ⟨T, r, D, hrecs, hk, h1, h2, hs⟩
  · obtain ⟨n', hi, hok, hf, hr'⟩ := insertRecord_leaf (v := v) h (hroom _ hs) hlo hhi hrecs h1 h2
    exact ⟨n', pairs T, none, pairs D, by simp [Node.leafWrite, hs, hi], hok, hf,
      ⟨by simp [hrecs], h1.pairs, h2.pairs⟩, ⟨by simp [hr', pairs_cons, Rec.pair], h1.pairs, h2.pairs⟩⟩
  · obtain ⟨w, hw⟩ := (hrecs ▸ h.leaf : LeafOk lo (hiB n.high) (T ++ r :: D)).val_at
    cases hd : r.del
    · obtain ⟨n', hi, hok, hf, hr'⟩ := setPayload_leaf (v := v) h hrecs
      obtain ⟨rk, rp, rd⟩ := r
      simp at hk hw hd
      subst hk hw hd
      exact ⟨n', pairs T, some w, pairs D, by simp [Node.leafWrite, hs, hi], hok, hf,
        ⟨by simp [hrecs, pairs_cons, Rec.pair], h1.pairs, h2.pairs⟩,
        ⟨by simp [hr', pairs_cons, Rec.pair], h1.pairs, h2.pairs⟩⟩
    · have hlay := layout_var_of_del h (r := r) (by simp [hrecs]) hd
      obtain ⟨n', hi, hok, hf, hr'⟩ := reuseRecord_leaf (v := v) hlay h hrecs hd
      obtain ⟨rk, rp, rd⟩ := r
      simp at hk hw hd
      subst hk hw hd
      exact ⟨n', pairs T, none, pairs D, by simp [Node.leafWrite, hs, hi, hlay], hok, hf,
        ⟨by simp [hrecs, pairs_cons, Rec.pair], h1.pairs, h2.pairs⟩,
        ⟨by simp [hr', pairs_cons, Rec.pair], h1.pairs, h2.pairs⟩⟩

/-- `Write` of a leaf with room. -/
theorem leafWrite_ok (h : NodeOk cfg false lo n)
    (hroom : n.fitsOne cfg (cfg.klen k + cfg.payLen) = true)
    (hlo : lo.leKey k) (hhi : (hiB n.high).gtKey k) (v : V) :
    ∃ n' A C B, n.leafWrite cfg k v = .ok n' ∧ NodeOk cfg false lo n' ∧ SameFrame n n' ∧
      Around k (pairs n.recs) A C B ∧ Around k (pairs n'.recs) A (some v) B :=
  leafWrite_ok' h (fun _ _ => hroom) hlo hhi v

/-- `Insert` into a leaf; room is only needed for a new key. -/
theorem leafInsert_ok' (h : NodeOk cfg false lo n)
    (hroom : ∀ pos, n.searchRecord k = .ok (.keyNotInserted, pos) →
      n.fitsOne cfg (cfg.klen k + cfg.payLen) = true)
    (hlo : lo.leKey k) (hhi : (hiB n.high).gtKey k) (v : V) :
    ∃ n' rc A C B, n.leafInsert cfg k v = .ok (rc, n') ∧ NodeOk cfg false lo n' ∧ SameFrame n n' ∧
      Around k (pairs n.recs) A C B ∧
      ((C = none ∧ rc = .success ∧ Around k (pairs n'.recs) A (some v) B) ∨
       (C ≠ none ∧ rc = .keyExist ∧ n' = n)) := by
  rcases h.search_leaf k with ⟨T, D, hrecs, hs, h1, h2⟩ | ⟨T, r, D, hrecs, hk, h1, h2, hs⟩
  · obtain ⟨n', hi, hok, hf, hr'⟩ := insertRecord_leaf (v := v) h (hroom _ hs) hlo hhi hrecs h1 h2
    exact ⟨n', .success, pairs T, none, pairs D, by simp [Node.leafInsert, hs, hi], hok, hf,
      ⟨by simp [hrecs], h1.pairs, h2.pairs⟩,
      Or.inl ⟨rfl, rfl, ⟨by simp [hr', pairs_cons, Rec.pair], h1.pairs, h2.pairs⟩⟩⟩
  · obtain ⟨w, hw⟩ := (hrecs ▸ h.leaf : LeafOk lo (hiB n.high) (T ++ r :: D)).val_at
    cases hd : r.del
    · obtain ⟨rk, rp, rd⟩ := r
      simp at hk hw hd
      subst hk hw hd
      exact ⟨n, .keyExist, pairs T, some w, pairs D, by simp [Node.leafInsert, hs], h, SameFrame.refl n,
        ⟨by simp [hrecs, pairs_cons, Rec.pair], h1.pairs, h2.pairs⟩, Or.inr ⟨by simp, rfl, rfl⟩⟩
    · have hlay := layout_var_of_del h (r := r) (by simp [hrecs]) hd
      obtain ⟨n', hi, hok, hf, hr'⟩ := reuseRecord_leaf (v := v) hlay h hrecs hd
      obtain ⟨rk, rp, rd⟩ := r
      simp at hk hw hd
      subst hk hw hd
      exact ⟨n', .success, pairs T, none, pairs D, by simp [Node.leafInsert, hs, hi, hlay], hok, hf,
        ⟨by simp [hrecs, pairs_cons, Rec.pair], h1.pairs, h2.pairs⟩,
        Or.inl ⟨rfl, rfl, ⟨by simp [hr', pairs_cons, Rec.pair], h1.pairs, h2.pairs⟩⟩⟩

/-- `Insert` into a leaf with room. -/
theorem leafInsert_ok (h : NodeOk cfg false lo n)
    (hroom : n.fitsOne cfg (cfg.klen k + cfg.payLen) = true)
    (hlo : lo.leKey k) (hhi : (hiB n.high).gtKey k) (v : V) :
    ∃ n' rc A C B, n.leafInsert cfg k v = .ok (rc, n') ∧ NodeOk cfg false lo n' ∧ SameFrame n n' ∧
      Around k (pairs n.recs) A C B ∧
      ((C = none ∧ rc = .success ∧ Around k (pairs n'.recs) A (some v) B) ∨
       (C ≠ none ∧ rc = .keyExist ∧ n' = n)) :=
  leafInsert_ok' h (fun _ _ => hroom) hlo hhi v

/-- `Update` of a leaf. -/
theorem leafUpdate_ok (h : NodeOk cfg false lo n) (k : K) (v : V) :
    ∃ n' rc A C B, n.leafUpdate k v = .ok (rc, n') ∧ NodeOk cfg false lo n' ∧ SameFrame n n' ∧
      Around k (pairs n.recs) A C B ∧
      ((C ≠ none ∧ rc = .success ∧ Around k (pairs n'.recs) A (some v) B) ∨
       (C = none ∧ rc = .keyNotExist ∧ n' = n)) := by
  rcases h.search_leaf k with ⟨T, D, hrecs, hs, h1, h2⟩ | ⟨T, r, D, hrecs, hk, h1, h2, hs⟩
  · exact ⟨n, .keyNotExist, pairs T, none, pairs D, by simp [Node.leafUpdate, hs], h, SameFrame.refl n,
      ⟨by simp [hrecs], h1.pairs, h2.pairs⟩, Or.inr ⟨rfl, rfl, rfl⟩⟩
  · obtain ⟨w, hw⟩ := (hrecs ▸ h.leaf : LeafOk lo (hiB n.high) (T ++ r :: D)).val_at
    cases hd : r.del
    · obtain ⟨n', hi, hok, hf, hr'⟩ := setPayload_leaf (v := v) h hrecs
      obtain ⟨rk, rp, rd⟩ := r
      simp at hk hw hd
      subst hk hw hd
      exact ⟨n', .success, pairs T, some w, pairs D, by simp [Node.leafUpdate, hs, hi], hok, hf,
        ⟨by simp [hrecs, pairs_cons, Rec.pair], h1.pairs, h2.pairs⟩,
        Or.inl ⟨by simp, rfl, ⟨by simp [hr', pairs_cons, Rec.pair], h1.pairs, h2.pairs⟩⟩⟩
    · obtain ⟨rk, rp, rd⟩ := r
      simp at hk hw hd
      subst hk hw hd
      exact ⟨n, .keyNotExist, pairs T, none, pairs D, by simp [Node.leafUpdate, hs], h, SameFrame.refl n,
        ⟨by simp [hrecs, pairs_cons, Rec.pair], h1.pairs, h2.pairs⟩, Or.inr ⟨rfl, rfl, rfl⟩⟩

/-- `Delete` from a leaf. -/
theorem leafDelete_ok (h : NodeOk cfg false lo n) (k : K) :
    ∃ n' rc A C B, n.leafDelete cfg k = .ok (rc, n') ∧ NodeOk cfg false lo n' ∧ SameFrame n n' ∧
      Around k (pairs n.recs) A C B ∧
      ((C ≠ none ∧ rc = .success ∧ Around k (pairs n'.recs) A none B) ∨
       (C = none ∧ rc = .keyNotExist ∧ n' = n)) := by
  rcases h.search_leaf k with ⟨T, D, hrecs, hs, h1, h2⟩ | ⟨T, r, D, hrecs, hk, h1, h2, hs⟩
  · exact ⟨n, .keyNotExist, pairs T, none, pairs D, by simp [Node.leafDelete, hs], h, SameFrame.refl n,
      ⟨by simp [hrecs], h1.pairs, h2.pairs⟩, Or.inr ⟨rfl, rfl, rfl⟩⟩
  · obtain ⟨w, hw⟩ := (hrecs ▸ h.leaf : LeafOk lo (hiB n.high) (T ++ r :: D)).val_at
    cases hd : r.del
    · obtain ⟨n', hi, hok, hf, hr'⟩ := removeRecord_leaf h hrecs hd
      obtain ⟨rk, rp, rd⟩ := r
      simp at hk hw hd
      subst hk hw hd
      refine ⟨n', .success, pairs T, some w, pairs D, by simp [Node.leafDelete, hs, hi], hok, hf,
        ⟨by simp [hrecs, pairs_cons, Rec.pair], h1.pairs, h2.pairs⟩,
        Or.inl ⟨by simp, rfl, ⟨?_, h1.pairs, h2.pairs⟩⟩⟩
      rcases hr' with hr' | hr' <;> simp [hr', pairs_cons, Rec.pair]
    · obtain ⟨rk, rp, rd⟩ := r
      simp at hk hw hd
      subst hk hw hd
      exact ⟨n, .keyNotExist, pairs T, none, pairs D, by simp [Node.leafDelete, hs], h, SameFrame.refl n,
        ⟨by simp [hrecs, pairs_cons, Rec.pair], h1.pairs, h2.pairs⟩, Or.inr ⟨rfl, rfl, rfl⟩⟩

theorem Room.fitsOne_leaf (hr : Roomy cfg L) (h : Room cfg L n) (k : K) :
    n.fitsOne cfg (cfg.klen k + cfg.payLen) = true := by
  have h1 := hr.key k
  have h2 := plen_le cfg false
  simp only [Cfg.plen] at h2
  cases hlay : cfg.layout
  · rw [fitsOne_fix hlay]
    rw [room_fix hlay] at h
    have := hr.fixL hlay
    simp at h2
    omega
  · rw [fitsOne_var hlay]
    rw [room_var hlay] at h
    rw [Nat.mul_add]
    simp at h2
    omega

end BT
