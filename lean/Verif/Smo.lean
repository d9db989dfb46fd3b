import Verif.LeafOps

/-!
# Structure modifications of single pages: clean-up, split, merge, child insertion and removal
-/

set_option linter.unusedSectionVars false

namespace BT
variable {K V : Type} [LinearOrder K]
variable {cfg : Cfg K} {L : Nat} {lo hi : Bd K} {n : Node K V} {b : Bool}

/-- Pages that hold the same records and borders (possibly with less dead space). -/
structure SamePage (n n' : Node K V) : Prop where
  frame : SameFrame n n'
  pairs : pairs n'.recs = pairs n.recs
  recs : n.isInner = true → n'.recs = n.recs

theorem SamePage.refl (n : Node K V) : SamePage n n := ⟨SameFrame.refl n, rfl, fun _ => rfl⟩
theorem SamePage.trans {a b c : Node K V} (h : SamePage a b) (h' : SamePage b c) : SamePage a c :=
  ⟨h.frame.trans h'.frame, h'.pairs.trans h.pairs,
    fun hi => (h'.recs (by rw [h.frame.isInner, hi])).trans (h.recs hi)⟩

theorem liveRecs_of_live {recs : List (Rec K V)} (h : ∀ r ∈ recs, r.del = false) :
    Node.liveRecs recs = recs := by
  simp only [Node.liveRecs, List.filter_eq_self]
  intro r hr
  simp [h r hr]

theorem liveRecs_sublist (recs : List (Rec K V)) : (Node.liveRecs recs).Sublist recs := by
  simp [Node.liveRecs]

theorem liveRecs_live (recs : List (Rec K V)) : ∀ x ∈ Node.liveRecs recs, x.del = false := by
  intro x hx
  simpa using (List.mem_filter.1 hx).2

@[simp] theorem liveRecs_append (A B : List (Rec K V)) :
    Node.liveRecs (A ++ B) = Node.liveRecs A ++ Node.liveRecs B := by simp [Node.liveRecs]

theorem NodeOk.live_slots (h : NodeOk cfg b lo n) :
    if b then InnerOk lo (hiB n.high) (Node.liveRecs n.recs) else LeafOk lo (hiB n.high) (Node.liveRecs n.recs) := by
  cases b
  · exact h.leaf.sublist (liveRecs_sublist _)
  · simp only [if_true]
    rw [liveRecs_of_live h.inner.live]
    exact h.inner

/-- `CleanUp` keeps everything but the dead space. -/
theorem cleanUp_ok (hr : Roomy cfg L) (hlay : cfg.layout = .var) (h : NodeOk cfg b lo n) :
    ∃ n', n.cleanUp cfg = .ok n' ∧ NodeOk cfg b lo n' ∧ SamePage n n' ∧ n'.dead = 0 ∧
      n'.recs = Node.liveRecs n.recs ∧
      cfg.metaLen * n'.recs.length + n'.block + n.dead ≤ cfg.metaLen * n.recs.length + n.block := by
  have hsz := (sizeOk_var hlay n).1 h.size
  have hl := lsize_live cfg n.isInner n.recs
  refine ⟨{ n with recs := Node.liveRecs n.recs,
                   block := cfg.oklen n.low + cfg.oklen n.high + Node.recBytes cfg n.isInner (Node.liveRecs n.recs),
                   dead := 0 }, ?_, ?_, ⟨⟨rfl, rfl, rfl, rfl, rfl⟩, by simp, ?_⟩, rfl, rfl, ?_⟩
  · unfold Node.cleanUp
    rw [checked_ok]
    rw [fits_var hlay]
    dsimp only
    omega
  · refine ⟨h.kind, h.notRemoved, h.lt, h.live_slots, ?_⟩
    rw [sizeOk_var hlay]
    dsimp only
    rw [lsize_liveRecs, dsize_liveRecs]
    have := oklen_le hr n.low
    have := hr.le
    omega
  · intro hi
    have hb : b = true := by rw [← h.kind, hi]
    subst hb
    exact liveRecs_of_live h.inner.live
  · dsimp only
    omega

/-! ## Split -/

theorem splitLoop_spec (cfg : Cfg K) (inner : Bool) (half R : Nat) :
    ∀ (recs : List (Rec K V)) (used pos : Nat), (∀ r ∈ recs, r.len cfg inner + cfg.metaLen ≤ R) →
      half ≤ used + lsize cfg inner recs →
      ∃ A B, recs = A ++ B ∧ Node.splitLoop cfg inner half recs used pos = .ok (pos + A.length) ∧
        half ≤ used + lsize cfg inner A ∧ (A ≠ [] → used + lsize cfg inner A < half + R) ∧
        (used < half → A ≠ []) := by
  intro recs
  induction recs with
  | nil =>
    intro used pos _ h
    refine ⟨[], [], rfl, ?_, by simpa using h, by simp, ?_⟩
    · unfold Node.splitLoop
      simp at h
      simp [Nat.not_lt.2 h]
    · simp at h; omega
  | cons r rs ih =>
    intro used pos hR h
    by_cases hlt : used < half
    · obtain ⟨A, B, h1, h2, h3, h4, h5⟩ := ih (if r.del then used else used + (r.len cfg inner + cfg.metaLen)) (pos + 1)
        (fun x hx => hR x (by simp [hx])) (by rw [lsize_cons] at h; split <;> simp_all; omega)
      refine ⟨r :: A, B, by simp [h1], ?_, ?_, ?_, by simp⟩
      · unfold Node.splitLoop
        simp only [hlt, if_true, h2, List.length_cons]
        congr 1
        omega
      · rw [lsize_cons]; split at h3 <;> simp_all; omega
      · intro _
        have hr := hR r (by simp)
        rw [lsize_cons]
        by_cases hA : A = []
        · subst hA
          simp
          split <;> omega
        · have := h4 hA
          split at this <;> simp_all <;> omega
    · refine ⟨[], r :: rs, rfl, ?_, by simpa using hlt, by simp, fun h => absurd h hlt⟩
      unfold Node.splitLoop
      simp [hlt]

theorem LeafOk.split {A B : List (Rec K V)} {s : Rec K V} {k : K} (h : LeafOk lo hi (A ++ s :: B))
    (hk : s.key = some k) : LeafOk lo (.key k) A ∧ LeafOk (.key k) hi (s :: B) ∧
      (A ≠ [] → lo.lt (.key k)) ∧ (Bd.key k).lt hi := by
  have hs := List.pairwise_append.1 h.sorted
  have hs2 := List.pairwise_cons.1 hs.2.1
  obtain ⟨k', hk', hlo, hhi⟩ := h.keyed s (by simp)
  rw [hk] at hk'
  cases hk'
  refine ⟨⟨hs.1, ?_, fun r hr => h.vals r (by simp [hr])⟩, ⟨hs.2.1, ?_, fun r hr => h.vals r (by
    simp at hr; rcases hr with rfl | hr <;> simp_all)⟩, ?_, ?_⟩
  · intro r hr
    obtain ⟨a, ha, h1, h2⟩ := h.keyed r (by simp [hr])
    exact ⟨a, ha, h1, hs.2.2 r hr s (by simp) a ha k hk⟩
  · intro r hr
    obtain ⟨a, ha, h1, h2⟩ := h.keyed r (by simp only [List.mem_append]; exact Or.inr hr)
    refine ⟨a, ha, ?_, h2⟩
    rcases List.mem_cons.1 hr with rfl | hr'
    · rw [hk] at ha; cases ha; simp
    · exact le_of_lt (hs2.1 r hr' k hk a ha)
  · intro hA
    obtain ⟨x, A', rfl⟩ := List.exists_cons_of_ne_nil hA
    obtain ⟨a, ha, h1, h2⟩ := h.keyed x (by simp)
    exact Bd.lt_of_leKey_gtKey h1 (hs.2.2 x (by simp) s (by simp) a ha k hk)
  · cases hi <;> simp_all [Bd.lt]

theorem InnerOk.split {A B : List (Rec K V)} {s : Rec K V} (h : InnerOk lo hi (A ++ s :: B))
    (hA : A ≠ []) : ∃ k, s.key = some k ∧ InnerOk lo (.key k) A ∧ InnerOk (.key k) hi (s :: B) ∧
      lo.lt (.key k) ∧ (Bd.key k).lt hi := by
  have hs := h.sorted
  unfold KSorted at hs
  rw [List.tail_append_of_ne_nil hA] at hs
  have hs := List.pairwise_append.1 hs
  have hs2 := List.pairwise_cons.1 hs.2.1
  have hkeyed := h.keyed
  rw [List.tail_append_of_ne_nil hA] at hkeyed
  obtain ⟨k, hk, hlo, hhi⟩ := hkeyed s (by simp)
  refine ⟨k, hk, ⟨hA, hs.1, ?_, ?_, fun r hr => h.ptrs r (by simp [hr]), fun r hr => h.live r (by simp [hr])⟩,
    ⟨by simp, hs2.2, ?_, ?_, fun r hr => h.ptrs r (by simp only [List.mem_append]; exact Or.inr hr),
      fun r hr => h.live r (by simp only [List.mem_append]; exact Or.inr hr)⟩, hlo, ?_⟩
  · intro r hr
    obtain ⟨a, ha, h1, h2⟩ := hkeyed r (by simp [hr])
    exact ⟨a, ha, h1, hs.2.2 r hr s (by simp) a ha k hk⟩
  · intro k' hk'
    obtain ⟨r, rs, h1, h2⟩ := h.head k' hk'
    obtain ⟨x, A', rfl⟩ := List.exists_cons_of_ne_nil hA
    simp at h1
    exact ⟨x, A', rfl, by rw [h1.1]; exact h2⟩
  · intro r hr
    obtain ⟨a, ha, h1, h2⟩ := hkeyed r (by simp at hr; simp [hr])
    exact ⟨a, ha, hs2.1 r (by simpa using hr) k hk a ha, h2⟩
  · intro k' hk'
    cases hk'
    exact ⟨s, B, rfl, hk⟩
  · cases hi <;> simp_all [Bd.lt]

theorem NodeOk.split_slots (h : NodeOk cfg b lo n) {A B : List (Rec K V)} {s : Rec K V}
    (hrecs : n.recs = A ++ s :: B) (hA : A ≠ []) : ∃ k, s.key = some k ∧
      (if b then InnerOk lo (.key k) (Node.liveRecs A) else LeafOk lo (.key k) (Node.liveRecs A)) ∧
      (if b then InnerOk (.key k) (hiB n.high) (Node.liveRecs (s :: B))
        else LeafOk (.key k) (hiB n.high) (Node.liveRecs (s :: B))) ∧
      lo.lt (.key k) ∧ (Bd.key k).lt (hiB n.high) := by
  cases b
  · have hl := h.leaf
    rw [hrecs] at hl
    obtain ⟨k, hk, -⟩ := hl.keyed s (by simp)
    obtain ⟨h1, h2, h3, h4⟩ := hl.split hk
    exact ⟨k, hk, h1.sublist (liveRecs_sublist _), h2.sublist (liveRecs_sublist _), h3 hA, h4⟩
  · have hi := h.inner
    rw [hrecs] at hi
    obtain ⟨k, hk, h1, h2, h3, h4⟩ := hi.split hA
    refine ⟨k, hk, ?_, ?_, h3, h4⟩
    · simp only [if_true]; rw [liveRecs_of_live h1.live]; exact h1
    · simp only [if_true]; rw [liveRecs_of_live h2.live]; exact h2

/-- What a split delivers. -/
structure SplitPost (cfg : Cfg K) (L : Nat) (b : Bool) (lo : Bd K) (n : Node K V) (r : Ptr)
    (l rn : Node K V) (sep : K) : Prop where
  left : NodeOk cfg b lo l
  right : NodeOk cfg b (.key sep) rn
  roomL : Room cfg L l
  roomR : Room cfg L rn
  lhigh : l.high = some sep
  rlow : rn.low = some sep
  rhigh : rn.high = n.high
  pairs : pairs n.recs = pairs l.recs ++ pairs rn.recs
  slots : b = true → slots n.recs n.high = slots l.recs l.high ++ slots rn.recs rn.high
  lnext : n.hasNext cfg = true → l.next = some r
  rnext : n.hasNext cfg = true → rn.next = n.next
  sepLo : lo.lt (.key sep)
  sepHi : (Bd.key sep).lt (hiB n.high)
  liveL : ∀ x ∈ l.recs, x.del = false
  liveR : ∀ x ∈ rn.recs, x.del = false
  neL : l.recs ≠ []
  neR : rn.recs ≠ []

theorem splitVar_ok (hr : Roomy cfg L) (hlay : cfg.layout = .var) (h : NodeOk cfg b lo n)
    (hbig : Big cfg n) (r : Ptr) :
    ∃ l rn sep, n.splitVar cfg r = .ok (l, rn) ∧ SplitPost cfg L b lo n r l rn sep := by
  have hsz := (sizeOk_var hlay n).1 h.size
  rw [big_var hlay] at hbig
  have h1 := hr.var1 hlay
  have h2 := hr.var2 hlay
  have hLm := hr.le
  have hmp := hr.meta_pos
  have hhi := oklen_le hr n.high
  have hlow := oklen_le hr n.low
  have hmax : cfg.maxUsed + cfg.minFree = cfg.cap := by
    have := hr.hdr
    simp only [Cfg.maxUsed, Cfg.cap]; omega
  have hR : ∀ x ∈ n.recs, x.len cfg n.isInner + cfg.metaLen ≤ L + cfg.maxPayLen + cfg.metaLen := by
    intro x _
    have := rec_len_le hr n.isInner x
    omega
  generalize hRdef : L + cfg.maxPayLen + cfg.metaLen = R at *
  generalize hused : cfg.metaLen * n.recs.length + n.block - n.dead = used at *
  have hlive : cfg.maxKeyLen + L + 2 * R < lsize cfg n.isInner n.recs := by omega
  have hhalf : used / 2 ≤ 0 + lsize cfg n.isInner n.recs := by omega
  obtain ⟨A, B, hAB, hloop, hge, hlt, hne⟩ := splitLoop_spec cfg n.isInner (used / 2) R n.recs 0 0 hR hhalf
  have hA : A ≠ [] := hne (by omega)
  have hlt := hlt hA
  have hlsz : lsize cfg n.isInner n.recs = lsize cfg n.isInner A + lsize cfg n.isInner B := by
    rw [hAB, lsize_append]
  have hB : B ≠ [] := by
    rintro rfl
    simp at hlsz
    omega
  obtain ⟨s, B, rfl⟩ := List.exists_cons_of_ne_nil hB
  obtain ⟨k, hk, hsl, hsr, hlolt, hhilt⟩ := h.split_slots hAB hA
  have hlA := lsize_live cfg n.isInner A
  have hlB := lsize_live cfg n.isInner (s :: B)
  have hksz := hr.key k
  refine ⟨{ n with
      recs := Node.liveRecs A
      high := some k
      next := if n.hasNext cfg then some r else n.next
      block := cfg.oklen n.low + Node.recBytes cfg n.isInner (Node.liveRecs A) + cfg.oklen (some k)
      dead := 0 },
    { isInner := n.isInner
      recs := Node.liveRecs (s :: B)
      low := some k
      high := n.high
      next := if n.hasNext cfg then n.next else none
      block := cfg.oklen (some k) + cfg.oklen n.high + Node.recBytes cfg n.isInner (Node.liveRecs (s :: B))
      dead := 0 }, k, ?_, ?_⟩
  · have hpos : 0 + A.length = A.length := by omega
    have hget : n.recs[A.length]? = some s := by simp [hAB]
    have htake : n.recs.take A.length = A := by simp [hAB]
    have hdrop : n.recs.drop A.length = s :: B := by simp [hAB]
    have hhalfeq : (cfg.metaLen * n.rc + n.block - n.dead) / 2 = used / 2 := by
      rw [← hused]; rfl
    unfold Node.splitVar
    simp only [hhalfeq, hloop, Res.ok_bind, hpos, hget, htake, hdrop, hk]
    rw [checked_ok, Res.ok_bind, checked_ok]
    · rfl
    · rw [fits_var hlay]; simp only [oklen_some]; omega
    · rw [fits_var hlay]; simp only [oklen_some]; omega
  · refine { left := ⟨h.kind, h.notRemoved, hlolt, hsl, ?_⟩, right := ⟨h.kind, rfl, hhilt, hsr, ?_⟩,
             roomL := ?_, roomR := ?_, lhigh := rfl, rlow := rfl, rhigh := rfl,
             pairs := ?_, slots := ?_, lnext := ?_, rnext := ?_, sepLo := hlolt, sepHi := hhilt,
             liveL := fun x hx => liveRecs_live _ x hx, liveR := fun x hx => liveRecs_live _ x hx,
             neL := ?_, neR := ?_ }
    · rw [sizeOk_var hlay]
      simp only [oklen_some]
      rw [lsize_liveRecs, dsize_liveRecs]
      omega
    · rw [sizeOk_var hlay]
      simp only [oklen_some]
      rw [lsize_liveRecs, dsize_liveRecs]
      omega
    · rw [room_var hlay]
      simp only [oklen_some]
      omega
    · rw [room_var hlay]
      simp only [oklen_some]
      omega
    · rw [hAB]; simp only [pairs_append, pairs_live]
    · intro hb
      subst hb
      have hi := h.inner
      have hl1 : Node.liveRecs A = A := liveRecs_of_live (fun x hx => hi.live x (by simp [hAB, hx]))
      have hl2 : Node.liveRecs (s :: B) = s :: B :=
        liveRecs_of_live (fun x hx => hi.live x (by rw [hAB]; exact List.mem_append_right _ hx))
      dsimp only
      rw [hl1, hl2, hAB, slots_append]
      simp [hdKey, hk]
    · intro hn; simp [hn]
    · intro hn; simp [hn]
    · intro h0
      have h0 : Node.liveRecs A = [] := h0
      have : lsize cfg n.isInner A = 0 := by rw [← lsize_liveRecs, h0, lsize_nil]
      omega
    · intro h0
      have h0 : Node.liveRecs (s :: B) = [] := h0
      have : lsize cfg n.isInner (s :: B) = 0 := by rw [← lsize_liveRecs, h0, lsize_nil]
      omega

theorem splitFix_ok (hr : Roomy cfg L) (hlay : cfg.layout = .fix) (h : NodeOk cfg b lo n)
    (hbig : Big cfg n) (r : Ptr) :
    ∃ l rn sep, n.splitFix cfg r = .ok (l, rn) ∧ SplitPost cfg L b lo n r l rn sep := by
  obtain ⟨hd, hblk, hcap, hnd⟩ := (sizeOk_fix hlay n).1 h.size
  rw [big_fix hlay] at hbig
  have h1 := hr.fix1 hlay
  have hLm := hr.fixL hlay
  have hplen := plen_le cfg n.isInner
  have hmr : cfg.maxRecLen = cfg.maxKeyLen + cfg.maxPayLen := by simp [Cfg.maxRecLen, Cfg.mlen, hlay]
  rw [hmr] at h1
  generalize hP : cfg.plen n.isInner = P at *
  generalize hK : cfg.maxKeyLen = Kl at *
  generalize hM : cfg.maxPayLen = M at *
  -- at least two records
  have hrc : 2 ≤ n.recs.length := by
    rcases Nat.lt_or_ge n.recs.length 2 with hlt | hge
    · have hb2 : n.borders ≤ 2 := by unfold Node.borders; split <;> split <;> omega
      have e1 : Kl * (n.recs.length + n.borders) ≤ Kl * 3 := Nat.mul_le_mul_left _ (by omega)
      have e2 : P * n.recs.length ≤ P * 1 := Nat.mul_le_mul_left _ (by omega)
      omega
    · exact hge
  obtain ⟨A, B, hAB, hAl⟩ : ∃ A B, n.recs = A ++ B ∧ A.length = n.recs.length / 2 :=
    ⟨n.recs.take (n.recs.length / 2), n.recs.drop (n.recs.length / 2), by simp, by simp; omega⟩
  have hlen : n.recs.length = A.length + B.length := by rw [hAB]; simp
  have hA : A ≠ [] := by rintro rfl; simp at hAl; omega
  have hB : B ≠ [] := by rintro rfl; simp at hlen; omega
  obtain ⟨s, B, rfl⟩ := List.exists_cons_of_ne_nil hB
  obtain ⟨k, hk, hsl, hsr, hlolt, hhilt⟩ := h.split_slots hAB hA
  have hlA : Node.liveRecs A = A := liveRecs_of_live (fun x hx => hnd x (by simp [hAB, hx]))
  have hlB : Node.liveRecs (s :: B) = s :: B :=
    liveRecs_of_live (fun x hx => hnd x (by rw [hAB]; exact List.mem_append_right _ hx))
  rw [hlA] at hsl
  rw [hlB] at hsr
  -- byte arithmetic
  generalize hb0 : (s :: B).length = m at *
  have hbor : n.borders = (if n.low.isSome then 1 else 0) + (if n.high.isSome then 1 else 0) := rfl
  have hmA : m = A.length ∨ m = A.length + 1 := by omega
  rw [hblk, hlen] at hcap hbig
  generalize hlowd : (if n.low.isSome then (if cfg.blink then n.low else (n.keyArray[A.length + 1]?).join)
             else none) = lowd
  have hlowd1 : n.low.isSome = false → lowd.isSome = false := by
    intro hnl
    rw [← hlowd, hnl]; simp
  have hsizes : Kl * (A.length + ((if lowd.isSome then 1 else 0) + 1)) + (n.block - P * m) + (Kl + M) ≤ cfg.cap ∧
      Kl * (m + (1 + (if n.high.isSome then 1 else 0))) + P * m + (Kl + M) ≤ cfg.cap ∧
      n.block - P * m = P * A.length := by
    rw [hblk, hlen]
    rw [hbor] at hcap
    have e0 : P * (A.length + m) = P * A.length + P * m := by ring
    have hl2 : (if lowd.isSome then 1 else 0) ≤ 1 := by split <;> omega
    have e1 : Kl * (A.length + ((if lowd.isSome then 1 else 0) + 1)) ≤ Kl * A.length + 2 * Kl := by
      have : Kl * (A.length + ((if lowd.isSome then 1 else 0) + 1)) ≤ Kl * (A.length + 2) :=
        Nat.mul_le_mul_left _ (by omega)
      have : Kl * (A.length + 2) = Kl * A.length + 2 * Kl := by ring
      omega
    have e2 : Kl * (m + (1 + (if n.high.isSome then 1 else 0))) ≤ Kl * m + 2 * Kl ∧
        (n.high.isSome = false → Kl * (m + (1 + (if n.high.isSome then 1 else 0))) = Kl * m + Kl) := by
      constructor
      · have : Kl * (m + (1 + (if n.high.isSome then 1 else 0))) ≤ Kl * (m + 2) :=
          Nat.mul_le_mul_left _ (by split <;> omega)
        have : Kl * (m + 2) = Kl * m + 2 * Kl := by ring
        omega
      · intro hh
        simp [hh]
        ring
    have e3 : Kl * (A.length + m) ≤ Kl * (A.length + m + ((if n.low.isSome then 1 else 0) + (if n.high.isSome then 1 else 0))) ∧
       (n.high.isSome = true → Kl * (A.length + m) + Kl ≤ Kl * (A.length + m + ((if n.low.isSome then 1 else 0) + (if n.high.isSome then 1 else 0)))) := by
      constructor
      · exact Nat.mul_le_mul_left _ (by omega)
      · intro hh
        have : Kl * (A.length + m + 1) ≤ Kl * (A.length + m + ((if n.low.isSome then 1 else 0) + (if n.high.isSome then 1 else 0))) :=
          Nat.mul_le_mul_left _ (by simp [hh])
        have : Kl * (A.length + m + 1) = Kl * (A.length + m) + Kl := by ring
        omega
    have e4 : Kl * (A.length + m) = Kl * A.length + Kl * m := by ring
    have e5 : Kl * m = Kl * A.length ∨ Kl * m = Kl * A.length + Kl := by
      rcases hmA with h | h
      · left; rw [h]
      · right; rw [h]; ring
    have e6 : P * m = P * A.length ∨ P * m = P * A.length + P := by
      rcases hmA with h | h
      · left; rw [h]
      · right; rw [h]; ring
    rcases Bool.eq_false_or_eq_true n.high.isSome with hh | hh
    · have := e3.2 hh
      omega
    · have := e2.2 hh
      omega
  refine ⟨{ n with
      recs := A
      low := lowd
      high := some k
      next := if n.hasNext cfg then some r else n.next
      block := n.block - P * m },
    { isInner := n.isInner
      recs := s :: B
      low := some k
      high := n.high
      next := if n.hasNext cfg then n.next else none
      block := P * m }, k, ?_, ?_⟩
  · have hget : n.recs[n.rc / 2]? = some s := by
      have : n.rc / 2 = A.length := hAl.symm
      rw [this, hAB]; simp
    have hrc2 : n.rc / 2 = A.length := hAl.symm
    have htake : n.recs.take A.length = A := by simp [hAB]
    have hdrop : n.recs.drop A.length = s :: B := by simp [hAB]
    have hm : n.rc - A.length = m := by
      show n.recs.length - A.length = m
      omega
    unfold Node.splitFix
    rw [hrc2] at hget
    simp only [hrc2, hget, htake, hdrop, hk, hm, hP, hlowd]
    rw [checked_ok, Res.ok_bind, checked_ok]
    · rfl
    · rw [fits_fix hlay]
      simp only [hb0, hK, Node.borders, Option.isSome_some, if_true]
      omega
    · rw [fits_fix hlay]
      simp only [hK, Node.borders, Option.isSome_some, if_true]
      omega
  · refine { left := ⟨h.kind, h.notRemoved, hlolt, hsl, ?_⟩, right := ⟨h.kind, rfl, hhilt, hsr, ?_⟩,
             roomL := ?_, roomR := ?_, lhigh := rfl, rlow := rfl, rhigh := rfl,
             pairs := ?_, slots := ?_, lnext := ?_, rnext := ?_, sepLo := hlolt, sepHi := hhilt,
             liveL := fun x hx => hnd x (by simp [hAB, hx]),
             liveR := fun x hx => hnd x (by rw [hAB]; exact List.mem_append_right _ hx),
             neL := hA, neR := by simp }
    · rw [sizeOk_fix hlay]
      simp only [hK, hP, Node.borders, Option.isSome_some, if_true]
      exact ⟨hd, hsizes.2.2, by omega, fun x hx => hnd x (by simp [hAB, hx])⟩
    · rw [sizeOk_fix hlay]
      simp only [hK, hP, hb0, Node.borders, Option.isSome_some, if_true]
      exact ⟨trivial, trivial, by omega, fun x hx => hnd x (by rw [hAB]; exact List.mem_append_right _ hx)⟩
    · rw [room_fix hlay]
      simp only [hK, hM, Node.borders, Option.isSome_some, if_true]
      omega
    · rw [room_fix hlay]
      simp only [hK, hM, hb0, Node.borders, Option.isSome_some, if_true]
      omega
    · rw [hAB]; simp only [pairs_append]
    · intro hb
      dsimp only
      rw [hAB, slots_append]
      simp [hdKey, hk]
    · intro hn; simp [hn]
    · intro hn; simp [hn]

/-- `Split` of an overfull page, either layout. -/
theorem split_ok (hr : Roomy cfg L) (h : NodeOk cfg b lo n) (hbig : Big cfg n) (r : Ptr) :
    ∃ l rn sep, n.split cfg r = .ok (l, rn) ∧ SplitPost cfg L b lo n r l rn sep := by
  cases hlay : cfg.layout
  · simp only [Node.split, hlay]
    exact splitFix_ok hr hlay h hbig r
  · simp only [Node.split, hlay]
    exact splitVar_ok hr hlay h hbig r

end BT
