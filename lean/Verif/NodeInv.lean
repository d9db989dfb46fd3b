import Verif.Node
import Mathlib.Order.Basic
import Mathlib.Tactic.Order
import Mathlib.Data.List.Basic

/-!
# Well-formed pages and correctness of the in-page search
-/

set_option linter.unusedSectionVars false

namespace BT
variable {K V : Type} [LinearOrder K]

/-- Key-interval borders: `-∞`, a key, `+∞`. -/
inductive Bd (K : Type) where
  | bot
  | key (k : K)
  | top

namespace Bd
/-- `lo ≤ k` -/
def leKey : Bd K → K → Prop
  | bot, _ => True
  | key x, k => x ≤ k
  | top, _ => False
/-- `k < hi` -/
def gtKey : Bd K → K → Prop
  | bot, _ => False
  | key x, k => k < x
  | top, _ => True
/-- strict order of borders -/
def lt : Bd K → Bd K → Prop
  | bot, bot => False
  | bot, _ => True
  | key x, key y => x < y
  | key _, top => True
  | key _, bot => False
  | top, _ => False

@[simp] theorem leKey_bot (k : K) : leKey bot k = True := rfl
@[simp] theorem leKey_key (x k : K) : leKey (key x) k = (x ≤ k) := rfl
@[simp] theorem leKey_top (k : K) : leKey top k = False := rfl
@[simp] theorem gtKey_bot (k : K) : gtKey bot k = False := rfl
@[simp] theorem gtKey_key (x k : K) : gtKey (key x) k = (k < x) := rfl
@[simp] theorem gtKey_top (k : K) : gtKey top k = True := rfl

theorem lt_of_leKey_gtKey {lo hi : Bd K} {k : K} (h : lo.leKey k) (h' : hi.gtKey k) : lo.lt hi := by
  cases lo <;> cases hi <;> simp_all [lt]
  order

theorem lt_trans {a b c : Bd K} (h : a.lt b) (h' : b.lt c) : a.lt c := by
  cases a <;> cases b <;> cases c <;> simp_all [lt]
  order

theorem lt_irrefl {a : Bd K} : ¬ a.lt a := by cases a <;> simp [lt]

theorem leKey_of_lt {a b : Bd K} {k : K} (h : a.lt b) (h' : b.leKey k) : a.leKey k := by
  cases a <;> cases b <;> simp_all [lt]
  order

theorem gtKey_of_lt {a b : Bd K} {k : K} (h : a.lt b) (h' : a.gtKey k) : b.gtKey k := by
  cases a <;> cases b <;> simp_all [lt]
  order

theorem gtKey_iff {a : Bd K} {k : K} : a.gtKey k ↔ (Bd.key k).lt a := by
  cases a <;> simp [lt]

theorem not_gt_le {a : Bd K} {k : K} (h : a.gtKey k) (h' : a.leKey k) : False := by
  cases a <;> simp_all
  order

theorem gt_or_le (a : Bd K) (k : K) : a.gtKey k ∨ a.leKey k := by
  cases a <;> simp
  exact lt_or_ge _ _
end Bd

/-- Upper border of a page from its highest key. -/
def hiB : Option K → Bd K
  | none => .top
  | some k => .key k

@[simp] theorem hiB_none : hiB (none : Option K) = .top := rfl
@[simp] theorem hiB_some (k : K) : hiB (some k) = .key k := rfl

/-- Slots are in strictly ascending key order. -/
def KSorted (recs : List (Rec K V)) : Prop :=
  recs.Pairwise (fun x y => ∀ a, x.key = some a → ∀ b, y.key = some b → a < b)

/-- all keys of `recs` are below `k` -/
def AllLt (recs : List (Rec K V)) (k : K) : Prop := ∀ r ∈ recs, ∀ a, r.key = some a → a < k
/-- all keys of `recs` are above `k` -/
def AllGt (recs : List (Rec K V)) (k : K) : Prop := ∀ r ∈ recs, ∀ a, r.key = some a → k < a

theorem insAt_length {α : Type} (A B : List α) (r : α) : insAt (A ++ B) A.length r = A ++ r :: B := by
  simp [insAt]
theorem insAt_length' {α : Type} (A B : List α) (c r : α) :
    insAt (A ++ c :: B) (A.length + 1) r = A ++ c :: r :: B := by
  have h := insAt_length (A ++ [c]) B r
  simp at h
  simpa using h
theorem updAt_length {α : Type} (A B : List α) (c r : α) :
    updAt (A ++ c :: B) A.length r = A ++ r :: B := by
  simp [updAt]
theorem delAt_length {α : Type} (A B : List α) (c : α) : delAt (A ++ c :: B) A.length = A ++ B := by
  simp [delAt]
theorem delAt_length' {α : Type} (A B : List α) (c d : α) :
    delAt (A ++ c :: d :: B) (A.length + 1) = A ++ c :: B := by
  have h := delAt_length (A ++ [c]) B d
  simp at h
  simpa using h

/-! ## Binary search -/

/-- Loop correctness of `SearchRecord`: positions before `b` hold smaller keys, positions from `e` on
larger ones; the loop ends with an exact hit or with the unique insertion point. -/
theorem searchLoop_spec (recs : List (Rec K V)) (k : K) (b0 : Nat) (hs : KSorted (recs.drop b0))
    (hk : ∀ i r, b0 ≤ i → recs[i]? = some r → r.key.isSome) :
    ∀ f b e, b0 ≤ b → b ≤ e → e ≤ recs.length → e - b < f →
      (∀ i r a, b0 ≤ i → i < b → recs[i]? = some r → r.key = some a → a < k) →
      (∀ i r a, e ≤ i → recs[i]? = some r → r.key = some a → k < a) →
      ∃ rc pos, Node.searchLoop recs k f b e = .ok (rc, pos) ∧ b0 ≤ pos ∧ pos ≤ recs.length ∧
        ((rc = .keyNotInserted ∧
          (∀ i r a, b0 ≤ i → i < pos → recs[i]? = some r → r.key = some a → a < k) ∧
          (∀ i r a, pos ≤ i → recs[i]? = some r → r.key = some a → k < a)) ∨
         (∃ r, recs[pos]? = some r ∧ r.key = some k ∧
           rc = if r.del then .keyAlreadyDeleted else .keyAlreadyInserted)) := by
  intro f
  induction f with
  | zero => intro b e _ _ _ h; omega
  | succ f ih =>
    intro b e hb0 hbe hel hf hlt hgt
    have hs' : ∀ (i j : Nat) (x y : Rec K V) (a b : K), b0 ≤ i → recs[i]? = some x →
        recs[j]? = some y → i < j → x.key = some a → y.key = some b → a < b := by
      intro i j x y a b h0 hi hj hij hx hy
      have hi2 : (recs.drop b0)[i - b0]? = some x := by
        rw [List.getElem?_drop]; rw [← hi]; congr 1; omega
      have hj2 : (recs.drop b0)[j - b0]? = some y := by
        rw [List.getElem?_drop]; rw [← hj]; congr 1; omega
      obtain ⟨hil, hi'⟩ := List.getElem?_eq_some_iff.1 hi2
      obtain ⟨hjl, hj'⟩ := List.getElem?_eq_some_iff.1 hj2
      have := List.pairwise_iff_getElem.1 hs (i - b0) (j - b0) hil hjl (by omega)
      rw [hi', hj'] at this
      exact this a hx b hy
    unfold Node.searchLoop
    by_cases hlt' : b < e
    · simp only [hlt', if_true]
      have hpos : (b + e - 1) / 2 < recs.length := by omega
      have hposb : b ≤ (b + e - 1) / 2 := by omega
      have hpose : (b + e - 1) / 2 < e := by omega
      have hget : recs[(b + e - 1) / 2]? = some recs[(b + e - 1) / 2] := by simp [hpos]
      rw [hget]
      generalize hr : recs[(b + e - 1) / 2] = r at hget ⊢
      have hsome := hk _ r (by omega) hget
      obtain ⟨ik, hik⟩ := Option.isSome_iff_exists.1 hsome
      simp only [hik]
      by_cases h1 : k < ik
      · simp only [h1, if_true]
        apply ih b _ hb0 hposb (by omega) (by omega) hlt
        intro i x a hi hx hxa
        rcases Nat.eq_or_lt_of_le hi with h | h
        · subst h
          rw [hget] at hx
          cases hx
          rw [hik] at hxa
          cases hxa
          exact h1
        · have := hs' _ _ _ _ _ _ (by omega) hget hx h hik hxa
          order
      · simp only [h1, if_false]
        by_cases h2 : ik < k
        · simp only [h2, if_true]
          apply ih _ e (by omega) (by omega) hel (by omega)
          · intro i x a hi0 hi hx hxa
            rcases Nat.lt_or_ge i ((b + e - 1) / 2) with h | h
            · have := hs' _ _ _ _ _ _ (by omega) hx hget h hxa hik
              order
            · have : i = (b + e - 1) / 2 := by omega
              subst this
              rw [hget] at hx
              cases hx
              rw [hik] at hxa
              cases hxa
              exact h2
          · exact hgt
        · simp only [h2, if_false]
          have : ik = k := by order
          subst this
          exact ⟨_, _, rfl, by omega, by omega, Or.inr ⟨r, hget, hik, rfl⟩⟩
    · simp only [hlt', if_false]
      have : b = e := by omega
      subst this
      exact ⟨_, _, rfl, hb0, hel, Or.inl ⟨rfl, hlt, hgt⟩⟩

/-- `SearchRecord` on a leaf. -/
theorem searchRecord_leaf {n : Node K V} (k : K) (hi : n.isInner = false) (hs : KSorted n.recs)
    (hk : ∀ r ∈ n.recs, r.key.isSome) :
    (∃ T D, n.recs = T ++ D ∧ n.searchRecord k = .ok (.keyNotInserted, T.length) ∧
        AllLt T k ∧ AllGt D k) ∨
    (∃ T r D, n.recs = T ++ r :: D ∧ r.key = some k ∧ AllLt T k ∧ AllGt D k ∧
      n.searchRecord k = .ok (if r.del then .keyAlreadyDeleted else .keyAlreadyInserted, T.length)) := by
  obtain ⟨rc, pos, h, -, hpl, hcase⟩ := searchLoop_spec n.recs k 0 (by simpa using hs)
    (by intro i r _ h; exact hk r (List.mem_of_getElem? h)) (n.rc + 1) 0 n.rc (le_refl _) (by omega)
    (by simp [Node.rc]) (by omega) (by intro i r a _ h; omega)
    (by intro i r a hi h; simp [Node.rc] at hi; simp [hi] at h)
  rcases hcase with ⟨rfl, hlt, hgt⟩ | ⟨r, hr, hrk, hrc⟩
  · left
    refine ⟨n.recs.take pos, n.recs.drop pos, by simp, ?_, ?_, ?_⟩
    · have : (List.take pos n.recs).length = pos := by simp [hpl]
      rw [this]
      simp [Node.searchRecord, hi, h]
    · intro r hr a ha
      obtain ⟨i, hi, hir⟩ := List.mem_iff_getElem.1 hr
      simp at hi
      exact hlt i r a (by omega) (by omega) (by simp at hir; simp [hir, hi]) ha
    · intro r hr a ha
      obtain ⟨i, hi, hir⟩ := List.mem_iff_getElem.1 hr
      simp at hi
      refine hgt (pos + i) r a (by omega) ?_ ha
      simp at hir
      rw [List.getElem?_eq_getElem (by omega), hir]
  · right
    obtain ⟨hposl, hr'⟩ := List.getElem?_eq_some_iff.1 hr
    have hdecomp : n.recs = n.recs.take pos ++ r :: n.recs.drop (pos + 1) := by
      rw [← hr', List.getElem_cons_drop, List.take_append_drop]
    have hs2 := hs
    unfold KSorted at hs2
    rw [hdecomp, List.pairwise_append] at hs2
    refine ⟨n.recs.take pos, r, n.recs.drop (pos + 1), hdecomp, hrk, ?_, ?_, ?_⟩
    · intro x hx a ha
      exact hs2.2.2 x hx r (by simp) a ha k hrk
    · intro x hx a ha
      exact (List.pairwise_cons.1 hs2.2.1).1 x hx k hrk a ha
    · have : (List.take pos n.recs).length = pos := by simp [hpl]
      rw [this]
      cases hd : r.del <;> simp [Node.searchRecord, hi, h, hrc, hd]

/-- `SearchRecord` on an inner node: the slot whose child covers `k`. -/
theorem searchRecord_inner {n : Node K V} (k : K) (hi : n.isInner = true) (hs : KSorted n.recs.tail)
    (hne : n.recs ≠ []) (hk : ∀ r ∈ n.recs.tail, r.key.isSome)
    (hd : ∀ r ∈ n.recs, r.del = false) :
    ∃ T r D rc, n.recs = T ++ r :: D ∧ n.searchRecord k = .ok (rc, T.length) ∧ AllGt D k ∧
      ((rc = .keyAlreadyInserted ∧ T ≠ [] ∧ r.key = some k) ∨
       (rc = .keyNotInserted ∧ (T ≠ [] → ∃ a, r.key = some a ∧ a < k))) := by
  have hlen : 0 < n.recs.length := List.length_pos_iff.2 hne
  have hk' : ∀ i r, 1 ≤ i → n.recs[i]? = some r → r.key.isSome := by
    intro i r h1 h
    apply hk
    cases hr : n.recs with
    | nil => simp [hr] at h
    | cons x xs =>
      simp [hr] at h ⊢
      obtain ⟨j, rfl⟩ : ∃ j, i = j + 1 := ⟨i - 1, by omega⟩
      simp at h
      exact List.mem_of_getElem? h
  obtain ⟨rc, pos, h, hp1, hpl, hcase⟩ := searchLoop_spec n.recs k 1 (by simpa using hs) hk'
    (n.rc + 1) 1 n.rc (le_refl _) (by simp [Node.rc]; omega)
    (by simp [Node.rc]) (by omega) (by intro i r a _ h; omega)
    (by intro i r a hi h; simp [Node.rc] at hi; simp [hi] at h)
  rcases hcase with ⟨rfl, hlt, hgt⟩ | ⟨r, hr, hrk, hrc⟩
  · have hposl : pos - 1 < n.recs.length := by omega
    have hdecomp : n.recs = n.recs.take (pos - 1) ++ n.recs[pos - 1] :: n.recs.drop (pos - 1 + 1) := by
      rw [List.getElem_cons_drop, List.take_append_drop]
    refine ⟨n.recs.take (pos - 1), n.recs[pos - 1], n.recs.drop (pos - 1 + 1), _, hdecomp, ?_, ?_, Or.inr ⟨rfl, ?_⟩⟩
    · have : (List.take (pos - 1) n.recs).length = pos - 1 := by simp; omega
      rw [this]
      simp [Node.searchRecord, hi, h]
    · intro r hr a ha
      obtain ⟨i, hi, hir⟩ := List.mem_iff_getElem.1 hr
      simp at hi
      refine hgt (pos - 1 + 1 + i) r a (by omega) ?_ ha
      simp at hir
      rw [List.getElem?_eq_getElem (by omega), hir]
    · intro hT
      have hpos1 : 1 ≤ pos - 1 := by
        rcases Nat.lt_or_ge 0 (pos - 1) with h | h
        · exact h
        · have : pos - 1 = 0 := by omega
          simp [this] at hT
      have hget : n.recs[pos - 1]? = some n.recs[pos - 1] := by simp [hposl]
      obtain ⟨a, ha⟩ := Option.isSome_iff_exists.1 (hk' _ _ hpos1 hget)
      exact ⟨a, ha, hlt (pos - 1) _ a hpos1 (by omega) hget ha⟩
  · obtain ⟨hposl, hr'⟩ := List.getElem?_eq_some_iff.1 hr
    have hdecomp : n.recs = n.recs.take pos ++ r :: n.recs.drop (pos + 1) := by
      rw [← hr', List.getElem_cons_drop, List.take_append_drop]
    have hT : n.recs.take pos ≠ [] := by
      intro h0
      have : (List.take pos n.recs).length = 0 := by rw [h0]; rfl
      rw [List.length_take] at this
      omega
    have hs2 := hs
    unfold KSorted at hs2
    rw [hdecomp, List.tail_append_of_ne_nil hT, List.pairwise_append] at hs2
    have hdel := hd r (List.mem_of_getElem? hr)
    simp [hdel] at hrc
    subst hrc
    refine ⟨n.recs.take pos, r, n.recs.drop (pos + 1), _, hdecomp, ?_, ?_, Or.inl ⟨rfl, hT, hrk⟩⟩
    · have : (List.take pos n.recs).length = pos := by simp [hpl]
      rw [this]
      simp [Node.searchRecord, hi, h]
    · intro x hx a ha
      exact (List.pairwise_cons.1 hs2.2.1).1 x hx k hrk a ha

end BT
