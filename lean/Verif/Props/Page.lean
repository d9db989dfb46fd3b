import Verif.Smo2
import Verif.BlinkNode
import Verif.OScanOk
import Verif.Config

/-!
# Page-level properties (C10 - C12, C14, C39)

The statements use the C++ entry points of a page (`split`, `merge`, `cleanUp`, `searchRecord`, `isRightmostOf`), the list of slots,
and the three notions below.  `pairs recs` is the list of live (key, payload) pairs, in slot order; `slots recs high` is the list of
children of an inner page, each with its upper border key.
-/

set_option linter.unusedSectionVars false

namespace BT
variable {K V : Type} [LinearOrder K] {cfg : Cfg K}

/-- Slot keys are real and strictly ascending. -/
def Ascending (recs : List (Rec K V)) : Prop :=
  ∃ ks : List K, recs.map Rec.key = ks.map some ∧ ks.Pairwise (· < ·)

/-- A leaf: payload slots with strictly ascending keys (deletion marks only in the variable-length layout). -/
structure LeafPage (cfg : Cfg K) (n : Node K V) : Prop where
  leaf : n.isInner = false
  asc : Ascending n.recs
  live : cfg.layout = .fix → ∀ x ∈ n.recs, x.del = false

/-- An inner page: child slots, none deleted, strictly ascending keys except that the key of slot 0 may be blank. -/
structure InnerPage (n : Node K V) : Prop where
  inner : n.isInner = true
  ptrs : ∀ x ∈ n.recs, ∃ c, x.pay = .ptr c
  asc : Ascending n.recs.tail
  live : ∀ x ∈ n.recs, x.del = false

theorem Ascending.split {A B : List (Rec K V)} {r : Rec K V} {k : K} (h : Ascending (A ++ r :: B)) (hk : r.key = some k) :
    (∀ x ∈ A, ∃ a, x.key = some a ∧ a < k) ∧ (∀ x ∈ B, ∃ a, x.key = some a ∧ k < a) := by
  obtain ⟨ks, h1, h2⟩ := h
  rw [List.map_append, List.map_cons] at h1
  obtain ⟨ka, kb, rfl, ha, hb⟩ := List.append_eq_map_iff.1 h1
  cases kb with
  | nil => simp at hb
  | cons k' kb =>
    simp only [List.map_cons, List.cons.injEq] at hb
    obtain ⟨hb1, hb2⟩ := hb
    rw [hk, Option.some.injEq] at hb1
    subst hb1
    rw [List.pairwise_append] at h2
    constructor
    · intro x hx
      have : x.key ∈ List.map some ka := by rw [ha]; exact List.mem_map_of_mem hx
      obtain ⟨a, ham, hae⟩ := List.mem_map.1 this
      exact ⟨a, hae.symm, h2.2.2 a ham _ (by simp)⟩
    · intro x hx
      have : x.key ∈ List.map some kb := by rw [hb2]; exact List.mem_map_of_mem hx
      obtain ⟨a, ham, hae⟩ := List.mem_map.1 this
      exact ⟨a, hae.symm, (List.pairwise_cons.1 h2.2.1).1 a ham⟩

theorem Ascending.keyed {A : List (Rec K V)} (h : Ascending A) {x : Rec K V} (hx : x ∈ A) : ∃ a, x.key = some a := by
  obtain ⟨ks, h1, h2⟩ := h
  have : x.key ∈ ks.map some := by rw [← h1]; exact List.mem_map_of_mem hx
  obtain ⟨a, -, ha⟩ := List.mem_map.1 this
  exact ⟨a, ha.symm⟩

theorem Res.bind_eq_ok {α β : Type} {x : Res α} {f : α → Res β} {b : β} (h : (x >>= f) = .ok b) :
    ∃ a, x = .ok a ∧ f a = .ok b := by
  cases x with
  | ok a => exact ⟨a, rfl, h⟩
  | ub => cases h
  | fuel => cases h

theorem checked_eq {n m : Node K V} (h : n.checked cfg = .ok m) : m = n := by
  unfold Node.checked at h
  split at h
  · cases h; rfl
  · cases h

/-- What a split does in terms of the slot list, for both layouts. -/
theorem split_parts {n l rn : Node K V} {r : Ptr} (hlive : cfg.layout = .fix → ∀ x ∈ n.recs, x.del = false)
    (h : n.split cfg r = .ok (l, rn)) :
    ∃ A sr B, n.recs = A ++ sr :: B ∧ l.recs = Node.liveRecs A ∧ rn.recs = Node.liveRecs (sr :: B) ∧
      l.high = sr.key ∧ rn.low = sr.key ∧ rn.high = n.high ∧ l.isInner = n.isInner ∧ rn.isInner = n.isInner ∧
      l.next = (if n.hasNext cfg then some r else n.next) ∧ rn.next = (if n.hasNext cfg then n.next else none) ∧
      (cfg.layout = .var ∨ cfg.blink = true → l.low = n.low) := by
  unfold Node.split at h
  cases hlay : cfg.layout with
  | var =>
    rw [hlay] at h
    simp only [Node.splitVar] at h
    cases hp : Node.splitLoop cfg n.isInner ((cfg.metaLen * n.rc + n.block - n.dead) / 2) n.recs 0 0 with
    | ub => rw [hp] at h; cases h
    | fuel => rw [hp] at h; cases h
    | ok pos =>
      rw [hp] at h
      simp only [Res.ok_bind] at h
      split at h
      · cases h
      · next sr hsr =>
        obtain ⟨hlt, hget⟩ := List.getElem?_eq_some_iff.1 hsr
        have hdrop : n.recs.drop pos = sr :: n.recs.drop (pos + 1) := by rw [List.drop_eq_getElem_cons hlt, hget]
        obtain ⟨m1, hc1, h⟩ := Res.bind_eq_ok h
        obtain ⟨m2, hc2, h⟩ := Res.bind_eq_ok h
        cases h
        have e1 := checked_eq hc1
        have e2 := checked_eq hc2
        subst e1 e2
        refine ⟨n.recs.take pos, sr, n.recs.drop (pos + 1), ?_, rfl, ?_, rfl, rfl, rfl, rfl, rfl, rfl, rfl, fun _ => rfl⟩
        · rw [← hdrop, List.take_append_drop]
        · rw [← hdrop]
  | fix =>
    rw [hlay] at h
    simp only [Node.splitFix] at h
    have hid : ∀ X : List (Rec K V), (∀ x ∈ X, x ∈ n.recs) → Node.liveRecs X = X := by
      intro X hX
      refine List.filter_eq_self.2 (fun x hx => ?_)
      simp [hlive hlay x (hX x hx)]
    split at h
    · cases h
    · next sr hsr =>
      obtain ⟨hlt, hget⟩ := List.getElem?_eq_some_iff.1 hsr
      have hdrop : n.recs.drop (n.rc / 2) = sr :: n.recs.drop (n.rc / 2 + 1) := by rw [List.drop_eq_getElem_cons hlt, hget]
      obtain ⟨m1, hc1, h⟩ := Res.bind_eq_ok h
      obtain ⟨m2, hc2, h⟩ := Res.bind_eq_ok h
      cases h
      have e1 := checked_eq hc1
      have e2 := checked_eq hc2
      subst e1 e2
      refine ⟨n.recs.take (n.rc / 2), sr, n.recs.drop (n.rc / 2 + 1), ?_, ?_, ?_, rfl, rfl, rfl, rfl, rfl, rfl, rfl, ?_⟩
      · rw [← hdrop, List.take_append_drop]
      · exact (hid _ (fun x hx => List.mem_of_mem_take hx)).symm
      · rw [← hdrop]
        exact (hid _ (fun x hx => List.mem_of_mem_drop hx)).symm
      · rintro (hv | hb)
        · cases hv
        · dsimp only
          rw [hb]
          cases n.low <;> rfl

/-- C10, leaves. Whenever `Split` returns, for a leaf of any size: the live pairs of the two halves, one after the other, are the live
pairs of the page; the separator is the left half's upper and the right half's lower border; keys of the left half are below it and keys of
the right half are not; the outer upper border and the sibling order are kept; the lower border is kept except in the fixed-length
pages of PML and OML. -/
theorem C10_split_leaf {n l rn : Node K V} {r : Ptr} (hn : LeafPage cfg n) (h : n.split cfg r = .ok (l, rn)) :
    ∃ sep, pairs n.recs = pairs l.recs ++ pairs rn.recs ∧
      l.high = some sep ∧ rn.low = some sep ∧ rn.high = n.high ∧
      (∀ x ∈ pairs l.recs, x.1 < sep) ∧ (∀ x ∈ pairs rn.recs, sep ≤ x.1) ∧
      l.next = some r ∧ rn.next = n.next ∧ l.isInner = false ∧ rn.isInner = false ∧
      (cfg.layout = .var ∨ cfg.blink = true → l.low = n.low) := by
  obtain ⟨A, sr, B, h1, h2, h3, h4, h5, h6, h7, h8, h9, h10, h11⟩ := split_parts hn.live h
  have hasc := hn.asc
  rw [h1] at hasc
  obtain ⟨sep, hsep⟩ := hasc.keyed (x := sr) (by simp)
  obtain ⟨hA, hB⟩ := hasc.split hsep
  have hn' : n.hasNext cfg = true := by simp [Node.hasNext, hn.leaf]
  rw [hn', if_pos rfl] at h9 h10
  refine ⟨sep, ?_, h4.trans hsep, h5.trans hsep, h6, ?_, ?_, h9, h10, h7.trans hn.leaf, h8.trans hn.leaf, h11⟩
  · rw [h2, h3, pairs_live, pairs_live, h1, pairs_append]
  · intro x hx
    rw [h2, pairs_live] at hx
    obtain ⟨y, hy, hp⟩ := mem_pairs.1 hx
    obtain ⟨a, ha, hlt⟩ := hA y hy
    have := (pair_key hp).1
    rw [ha, Option.some.injEq] at this
    exact this ▸ hlt
  · intro x hx
    rw [h3, pairs_live] at hx
    obtain ⟨y, hy, hp⟩ := mem_pairs.1 hx
    have hkey := (pair_key hp).1
    rcases List.mem_cons.1 hy with rfl | hy
    · rw [hsep, Option.some.injEq] at hkey
      exact hkey.le
    · obtain ⟨a, ha, hlt⟩ := hB y hy
      rw [ha, Option.some.injEq] at hkey
      exact hkey ▸ hlt.le

/-- C10, inner nodes. Whenever `Split` returns with a non-empty left half: the children of the halves, one after the other, are the
children of the page, with the same upper border keys; separator and sibling links as for leaves (inner siblings are linked in the B-link variants). -/
theorem C10_split_inner {n l rn : Node K V} {r : Ptr} (hn : InnerPage n) (h : n.split cfg r = .ok (l, rn))
    (hne : l.recs ≠ []) :
    ∃ sep, slots n.recs n.high = slots l.recs l.high ++ slots rn.recs rn.high ∧
      l.high = some sep ∧ rn.low = some sep ∧ rn.high = n.high ∧
      (∀ x ∈ l.recs.tail, ∃ a, x.key = some a ∧ a < sep) ∧
      (∃ x B, rn.recs = x :: B ∧ x.key = some sep ∧ ∀ y ∈ B, ∃ a, y.key = some a ∧ sep < a) ∧
      (cfg.blink = true → l.next = some r ∧ rn.next = n.next) ∧ l.isInner = true ∧ rn.isInner = true := by
  obtain ⟨A, sr, B, h1, h2, h3, h4, h5, h6, h7, h8, h9, h10, h11⟩ := split_parts (fun _ => hn.live) h
  have hid : ∀ X : List (Rec K V), (∀ x ∈ X, x ∈ n.recs) → Node.liveRecs X = X := by
    intro X hX
    refine List.filter_eq_self.2 (fun x hx => ?_)
    simp [hn.live x (hX x hx)]
  rw [hid A (fun x hx => by rw [h1]; simp [hx])] at h2
  rw [hid (sr :: B) (fun x hx => by rw [h1]; exact List.mem_append_right _ hx)] at h3
  rw [h2] at hne
  obtain ⟨a0, A', rfl⟩ := List.exists_cons_of_ne_nil hne
  have hasc := hn.asc
  rw [h1, List.cons_append, List.tail_cons] at hasc
  obtain ⟨sep, hsep⟩ := hasc.keyed (x := sr) (by simp)
  obtain ⟨hA, hB⟩ := hasc.split hsep
  refine ⟨sep, ?_, h4.trans hsep, h5.trans hsep, h6, ?_, ⟨sr, B, h3, hsep, hB⟩, ?_, h7.trans hn.inner, h8.trans hn.inner⟩
  · rw [h1, slots_append, h2, h3, h4, h6]
    rfl
  · rw [h2]
    exact hA
  · intro hb
    have hn' : n.hasNext cfg = true := by simp [Node.hasNext, hb]
    rw [h9, h10, if_pos hn', if_pos hn']
    exact ⟨rfl, rfl⟩

/-- C10, total: a well-formed page (the invariant of all pages of reachable trees, `C16_pages`) that is as full as the code requires
before it splits (`Big`) is split without undefined behaviour, into two non-empty well-formed pages that both have room for one more
record of maximal length. -/
theorem C10_split_total {L : Nat} {b : Bool} {lo : Bd K} {n : Node K V} (hr : Roomy cfg L) (h : NodeOk cfg b lo n)
    (hbig : Big cfg n) (r : Ptr) : ∃ l rn sep, n.split cfg r = .ok (l, rn) ∧ NodeOk cfg b lo l ∧
      NodeOk cfg b (.key sep) rn ∧ Room cfg L l ∧ Room cfg L rn ∧ l.recs ≠ [] ∧ rn.recs ≠ [] := by
  obtain ⟨l, rn, sep, h1, h2⟩ := split_ok hr h hbig r
  exact ⟨l, rn, sep, h1, h2.left, h2.right, h2.roomL, h2.roomR, h2.neL, h2.neR⟩

/-- What a merge does in terms of the slot list, for both layouts. -/
theorem merge_parts {l r m : Node K V} (hl : cfg.layout = .fix → ∀ x ∈ l.recs ++ r.recs, x.del = false)
    (h : l.merge cfg r = .ok m) : m.recs = Node.liveRecs l.recs ++ Node.liveRecs r.recs ∧ m.low = l.low ∧
      m.high = r.high ∧ m.isInner = l.isInner ∧ m.next = (if l.hasNext cfg then r.next else l.next) := by
  unfold Node.merge at h
  cases hlay : cfg.layout with
  | var =>
    rw [hlay] at h
    have e := checked_eq h
    subst e
    exact ⟨rfl, rfl, rfl, rfl, rfl⟩
  | fix =>
    rw [hlay] at h
    have e := checked_eq h
    subst e
    refine ⟨?_, rfl, rfl, rfl, rfl⟩
    have hid : Node.liveRecs (l.recs ++ r.recs) = l.recs ++ r.recs := by
      refine List.filter_eq_self.2 (fun x hx => ?_)
      simp [hl hlay x hx]
    have : Node.liveRecs l.recs ++ Node.liveRecs r.recs = Node.liveRecs (l.recs ++ r.recs) :=
      (List.filter_append ..).symm
    rw [this, hid]

/-- C11, leaves. Whenever `Merge` returns, the page holds the live pairs of both, in order, with the left lower border, the right upper
border and the right sibling link. -/
theorem C11_merge_leaf {l r m : Node K V} (hl : LeafPage cfg l) (hr : LeafPage cfg r) (h : l.merge cfg r = .ok m) :
    pairs m.recs = pairs l.recs ++ pairs r.recs ∧ m.low = l.low ∧ m.high = r.high ∧ m.next = r.next ∧
      m.isInner = false := by
  obtain ⟨h1, h2, h3, h4, h5⟩ := merge_parts (fun hf x hx => by
    rcases List.mem_append.1 hx with hx | hx
    · exact hl.live hf x hx
    · exact hr.live hf x hx) h
  have hn : l.hasNext cfg = true := by simp [Node.hasNext, hl.leaf]
  rw [hn, if_pos rfl] at h5
  exact ⟨by rw [h1, pairs_append, pairs_live, pairs_live], h2, h3, h5, h4.trans hl.leaf⟩

/-- C11, inner nodes: the children of both with their upper border keys, provided the first slot of the right page carries the
border key between the two (it does in every tree: `C16_pages`). -/
theorem C11_merge_inner {l r m : Node K V} (hl : InnerPage l) (hr : InnerPage r) (hk : hdKey r.recs r.high = l.high)
    (h : l.merge cfg r = .ok m) :
    slots m.recs m.high = slots l.recs l.high ++ slots r.recs r.high ∧ m.low = l.low ∧ m.high = r.high ∧
      (cfg.blink = true → m.next = r.next) ∧ m.isInner = true := by
  have hid : ∀ n : Node K V, InnerPage n → Node.liveRecs n.recs = n.recs := by
    intro n hn
    refine List.filter_eq_self.2 (fun x hx => ?_)
    simp [hn.live x hx]
  obtain ⟨h1, h2, h3, h4, h5⟩ := merge_parts (fun hf x hx => by
    rcases List.mem_append.1 hx with hx | hx
    · exact hl.live x hx
    · exact hr.live x hx) h
  refine ⟨?_, h2, h3, fun hb => ?_, h4.trans hl.inner⟩
  · rw [h1, hid l hl, hid r hr, slots_append, h3, hk]
  · have hn : l.hasNext cfg = true := by simp [Node.hasNext, hb]
    rw [h5, if_pos hn]

/-- C11, total: two adjacent well-formed pages that pass the code's size test are merged without undefined behaviour. -/
theorem C11_merge_total {L : Nat} {b : Bool} {lo : Bd K} {l r : Node K V} (hr : Roomy cfg L) (hl : NodeOk cfg b lo l)
    (hrn : NodeOk cfg b (hiB l.high) r) (hcan : l.canMerge cfg r = true) :
    ∃ m, l.merge cfg r = .ok m ∧ NodeOk cfg b lo m := by
  obtain ⟨m, h1, h2⟩ := merge_ok hr hl hrn hcan
  exact ⟨m, h1, h2.ok⟩

/-- C12. Whenever the clean-up returns, live pairs, child list, borders, sibling link and kind are unchanged, no dead slot is left
and no dead bytes are accounted. -/
theorem C12_cleanUp {n n' : Node K V} (h : n.cleanUp cfg = .ok n') :
    pairs n'.recs = pairs n.recs ∧ n'.recs = n.recs.filter (fun r => !r.del) ∧ n'.low = n.low ∧ n'.high = n.high ∧
      n'.next = n.next ∧ n'.isInner = n.isInner ∧ n'.dead = 0 ∧ ∀ r ∈ n'.recs, r.del = false := by
  have e := checked_eq h
  subst e
  refine ⟨pairs_live _, rfl, rfl, rfl, rfl, rfl, rfl, fun r hr => ?_⟩
  simpa using (List.mem_filter.1 hr).2

/-- C12, total: the clean-up of a well-formed variable-length page never overflows it and never uses more bytes than before. -/
theorem C12_cleanUp_total {L : Nat} {b : Bool} {lo : Bd K} {n : Node K V} (hr : Roomy cfg L) (hlay : cfg.layout = .var)
    (h : NodeOk cfg b lo n) : ∃ n', n.cleanUp cfg = .ok n' ∧ NodeOk cfg b lo n' ∧
      cfg.metaLen * n'.recs.length + n'.block ≤ cfg.metaLen * n.recs.length + n.block - n.dead := by
  obtain ⟨n', h1, h2, -, -, -, h3⟩ := cleanUp_ok hr hlay h
  exact ⟨n', h1, h2, by omega⟩

theorem Ascending.kSorted {recs : List (Rec K V)} (h : Ascending recs) : KSorted recs := by
  obtain ⟨ks, h1, h2⟩ := h
  induction recs generalizing ks with
  | nil => exact List.Pairwise.nil
  | cons x xs ih =>
    cases ks with
    | nil => simp at h1
    | cons k ks =>
      simp only [List.map_cons, List.cons.injEq] at h1
      obtain ⟨hx, hxs⟩ := h1
      obtain ⟨g1, g2⟩ := List.pairwise_cons.1 h2
      refine List.pairwise_cons.2 ⟨?_, ih ks hxs g2⟩
      intro y hy a ha b hb
      rw [hx, Option.some.injEq] at ha
      have : y.key ∈ ks.map some := by rw [← hxs]; exact List.mem_map_of_mem hy
      obtain ⟨c, hc, hce⟩ := List.mem_map.1 this
      rw [hb, Option.some.injEq] at hce
      exact ha ▸ hce ▸ g1 c hc

/-- C14, leaves. The search always finishes. It answers with the slot of `k` (telling live from deleted) if there is one, and
otherwise with the only position where `k` can be inserted: all keys before it are smaller, all keys from it on are larger. -/
theorem C14_search_leaf {n : Node K V} (hn : LeafPage cfg n) (k : K) :
    (∃ T D, n.recs = T ++ D ∧ n.searchRecord k = .ok (.keyNotInserted, T.length) ∧
      (∀ r ∈ T, ∃ a, r.key = some a ∧ a < k) ∧ (∀ r ∈ D, ∃ a, r.key = some a ∧ k < a)) ∨
    (∃ T r D, n.recs = T ++ r :: D ∧ r.key = some k ∧
      n.searchRecord k = .ok (if r.del then .keyAlreadyDeleted else .keyAlreadyInserted, T.length)) := by
  have hk : ∀ r ∈ n.recs, ∃ a, r.key = some a := fun r hr => hn.asc.keyed hr
  rcases searchRecord_leaf k hn.leaf hn.asc.kSorted (fun r hr => by obtain ⟨a, ha⟩ := hk r hr; simp [ha]) with
    ⟨T, D, h1, h2, h3, h4⟩ | ⟨T, r, D, h1, h2, -, -, h5⟩
  · left
    refine ⟨T, D, h1, h2, fun r hr => ?_, fun r hr => ?_⟩
    · obtain ⟨a, ha⟩ := hk r (by rw [h1]; simp [hr])
      exact ⟨a, ha, h3 r hr a ha⟩
    · obtain ⟨a, ha⟩ := hk r (by rw [h1]; simp [hr])
      exact ⟨a, ha, h4 r hr a ha⟩
  · exact Or.inr ⟨T, r, D, h1, h2, h5⟩

/-- C14, inner nodes. The search always finishes and answers with the child whose interval contains `k`: its key (if it is not the
first child) is not above `k` and all later keys are above `k`. -/
theorem C14_search_inner {n : Node K V} (hn : InnerPage n) (hne : n.recs ≠ []) (k : K) :
    ∃ T r D rc c, n.recs = T ++ r :: D ∧ n.searchRecord k = .ok (rc, T.length) ∧ n.getChild T.length = .ok c ∧
      r.pay = .ptr c ∧ (T ≠ [] → ∃ a, r.key = some a ∧ a ≤ k) ∧ (∀ x ∈ D, ∃ a, x.key = some a ∧ k < a) := by
  have hk : ∀ r ∈ n.recs.tail, ∃ a, r.key = some a := fun r hr => hn.asc.keyed hr
  obtain ⟨T, r, D, rc, h1, h2, h3, h4⟩ := searchRecord_inner k hn.inner hn.asc.kSorted hne
    (fun r hr => by obtain ⟨a, ha⟩ := hk r hr; simp [ha]) hn.live
  obtain ⟨c, hc⟩ := hn.ptrs r (by rw [h1]; simp)
  refine ⟨T, r, D, rc, c, h1, h2, ?_, hc, ?_, ?_⟩
  · cases r
    cases hc
    simp [Node.getChild, h1]
  · intro hT
    rcases h4 with ⟨-, -, h⟩ | ⟨-, h⟩
    · exact ⟨k, h, le_refl _⟩
    · obtain ⟨a, ha, hlt⟩ := h hT
      exact ⟨a, ha, hlt.le⟩
  · intro x hx
    obtain ⟨a, ha⟩ := hk x (by
      rw [h1]
      cases T with
      | nil => simpa using hx
      | cons t T => simp [hx])
    exact ⟨a, ha, h3 x hx a ha⟩

/-- C39, scans. A scan stops at a page that has a right sibling only if no key at or above the page's upper border is in the range;
and it does stop there as soon as the end key is below the border. -/
theorem C39_scan_stop {n : Node K V} {h : K} (hh : n.high = some h) (hnext : n.next ≠ none) (e : ScanKey K) :
    (n.isRightmostOf e = true → ∀ k, h ≤ k → ¬ Spec.BelowHi e k) ∧
    (n.isRightmostOf e = true ↔ ∃ x c, e = some (x, c) ∧ x < h) := by
  obtain ⟨q, hq⟩ := Option.ne_none_iff_exists'.1 hnext
  have key : n.isRightmostOf e = true ↔ ∃ x c, e = some (x, c) ∧ x < h := by
    cases e with
    | none => simp [Node.isRightmostOf, hq]
    | some xc =>
      obtain ⟨x, c⟩ := xc
      simp [Node.isRightmostOf, hq, Node.compHighKey, hh]
  refine ⟨fun hr k hk hb => ?_, key⟩
  obtain ⟨x, c, rfl, hx⟩ := key.1 hr
  cases c <;> simp [Spec.BelowHi] at hb <;> order

/-- C39, scans: a page without right sibling always ends the scan. -/
theorem C39_scan_stop_last {n : Node K V} (hnext : n.next = none) (e : ScanKey K) : n.isRightmostOf e = true := by
  simp [Node.isRightmostOf, hnext]

/-- C39, side steps. Arriving at a page that is in use, a search stays there iff the key is below the page's upper border; otherwise it
continues at the right sibling. -/
theorem C39_side_step {s : St K V} {p : Ptr} {n : Node K V} (hp : s.heap p = some n) (hrem : n.removed = false) (k : K)
    (fuel : Nat) :
    ((n.high = none ∨ ∃ h, n.high = some h ∧ k < h) → checkKeyRange k (fuel + 1) p s = .ok (p, s)) ∧
    (∀ h q, n.high = some h → h ≤ k → n.next = some q → checkKeyRange k (fuel + 1) p s = checkKeyRange k fuel q s) := by
  constructor
  · intro h
    have hgt : (hiB n.high).gtKey k := by
      rcases h with h | ⟨x, h, hx⟩ <;> simp [h, hiB] <;> assumption
    exact checkKeyRange_ok hp hrem hgt (by omega)
  · intro h q hh hk hq
    have : ¬ n.compHighKey k = true := by simp [Node.compHighKey, hh, hk]
    rw [checkKeyRange, M.bind_ok (M.load_ok hp)]
    simp [hrem, this, hq]

/-! ### Non-vacuity -/

/-- A leaf of four slots, one of them deleted. -/
def demoLeaf : Node Nat Nat :=
  { isInner := false
    recs := [⟨some 1, .val 10, false⟩, ⟨some 4, .val 40, true⟩, ⟨some 6, .val 60, false⟩, ⟨some 7, .val 70, false⟩]
    high := some 9, next := some 7, block := 2 + 5 + 7 + 8 + 10 + 32, dead := 21 }

/-- An inner page of three children. -/
def demoInner : Node Nat Nat :=
  { isInner := true
    recs := [⟨none, .ptr 1, false⟩, ⟨some 4, .ptr 2, false⟩, ⟨some 6, .ptr 3, false⟩]
    high := some 9, next := some 7, block := 8 + 2 * 13 }

theorem demoLeaf_ok : LeafPage (varCfg true) demoLeaf :=
  ⟨rfl, ⟨[1, 4, 6, 7], rfl, by decide⟩, fun h => by cases h⟩
theorem demoInner_ok : InnerPage demoInner :=
  ⟨rfl, by simp [demoInner], ⟨[4, 6], rfl, by decide⟩, by simp [demoInner]⟩

example : ∃ l r, demoLeaf.split (varCfg true) 8 = .ok (l, r) := ⟨_, _, rfl⟩
example : ∃ l r, demoInner.split (varCfg true) 8 = .ok (l, r) ∧ l.recs ≠ [] := ⟨_, _, rfl, by decide⟩
example : ∃ m, demoLeaf.merge (varCfg true) demoLeaf = .ok m := ⟨_, rfl⟩
example : ∃ m, demoInner.merge (varCfg true) { demoInner with recs := [⟨some 9, .ptr 5, false⟩], high := none } = .ok m ∧
  hdKey [(⟨some 9, .ptr 5, false⟩ : Rec Nat Nat)] none = demoInner.high := ⟨_, rfl, rfl⟩
example : ∃ n, demoLeaf.cleanUp (varCfg true) = .ok n := ⟨_, rfl⟩

end BT
