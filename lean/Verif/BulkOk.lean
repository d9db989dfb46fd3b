import Verif.Bulk
import Mathlib.Data.List.Perm.Basic

/-!
# Bulkloading builds a well-formed tree over exactly the given entries
-/

set_option linter.unusedSectionVars false

namespace BT
variable {K V : Type} [LinearOrder K]

/-- Pages are large enough for bulkloading: the capacity does not exceed the page, one record fits into an empty leaf and two
children fit into an empty inner node. -/
structure BulkRoomy (cfg : Cfg K) (bc : BulkCfg) : Prop where
  cap : bc.cap ≤ cfg.pageSize
  key : ∀ k, cfg.klen k ≤ cfg.maxKeyLen
  leaf : ∀ k, cfg.headerLen + 2 * cfg.maxKeyLen + bulkRec cfg false k ≤ bc.cap
  inner : ∀ k k', cfg.headerLen + 2 * cfg.maxKeyLen + bulkRec cfg true k + bulkRec cfg true k' ≤ bc.cap
  innerCap : 1 ≤ bc.innerCap

/-- the slot made of an entry -/
def erec (e : K × Pay V) : Rec K V := ⟨some e.1, e.2, false⟩

/-- bytes of slots as bulkloading counts them -/
def bulkSize (cfg : Cfg K) (inner : Bool) (c : List (Rec K V)) : Nat := (c.map (fun r => r.len cfg inner + cfg.mlen)).sum

@[simp] theorem bulkSize_nil (cfg : Cfg K) (b : Bool) : bulkSize cfg b ([] : List (Rec K V)) = 0 := rfl
@[simp] theorem bulkSize_cons (cfg : Cfg K) (b : Bool) (r : Rec K V) (c) :
    bulkSize cfg b (r :: c) = r.len cfg b + cfg.mlen + bulkSize cfg b c := rfl
@[simp] theorem bulkSize_append (cfg : Cfg K) (b : Bool) (c d : List (Rec K V)) :
    bulkSize cfg b (c ++ d) = bulkSize cfg b c + bulkSize cfg b d := by simp [bulkSize]

theorem bulkSize_eq (cfg : Cfg K) (b : Bool) (c : List (Rec K V)) :
    bulkSize cfg b c = Node.recBytes cfg b c + cfg.mlen * c.length := by
  induction c with
  | nil => simp [Node.recBytes]
  | cons r c ih =>
    rw [bulkSize_cons, ih]
    simp only [Node.recBytes, List.map_cons, List.sum_cons, List.length_cons, Nat.mul_add]
    omega

theorem bulkRec_eq (cfg : Cfg K) (b : Bool) (k : K) (pay : Pay V) :
    bulkRec cfg b k = (⟨some k, pay, false⟩ : Rec K V).len cfg b + cfg.mlen := rfl

theorem base_reserve (cfg : Cfg K) : bulkBase cfg + bulkReserve cfg = cfg.headerLen + 2 * cfg.maxKeyLen := by
  unfold bulkBase bulkReserve; cases cfg.layout <;> simp only <;> omega

theorem bulkFill_spec (cfg : Cfg K) (bc : BulkCfg) (b : Bool) (es : List (K × Pay V)) : ∀ size,
    es.map erec = (bulkFill cfg bc b size es).1 ++ (bulkFill cfg bc b size es).2.map erec ∧
    ((bulkFill cfg bc b size es).1 ≠ [] →
      size + bulkSize cfg b (bulkFill cfg bc b size es).1 + bulkReserve cfg ≤ bc.cap) ∧
    (∀ e es', (bulkFill cfg bc b size es).2 = e :: es' →
      bc.cap < size + bulkSize cfg b (bulkFill cfg bc b size es).1 + bulkRec cfg b e.1 + bulkReserve cfg) := by
  induction es with
  | nil => intro size; simp [bulkFill]
  | cons e es ih =>
    intro size
    obtain ⟨k, pay⟩ := e
    unfold bulkFill
    split
    · next h =>
      refine ⟨by simp, by simp, ?_⟩
      intro e es' he
      cases he
      simp only [bulkSize_nil]
      omega
    · next h =>
      obtain ⟨h1, h2, h3⟩ := ih (size + bulkRec cfg b k)
      refine ⟨?_, ?_, ?_⟩
      · simp only [List.map_cons, List.cons_append, ← h1]; rfl
      · intro _
        dsimp only
        rw [bulkSize_cons, ← bulkRec_eq]
        by_cases hn : (bulkFill cfg bc b (size + bulkRec cfg b k) es).1 = []
        · rw [hn]; simp only [bulkSize_nil]; omega
        · have := h2 hn; omega
      · intro e es' he
        have := h3 e es' he
        dsimp only
        rw [bulkSize_cons, ← bulkRec_eq]
        omega

/-- Slots of one bulkloaded page. -/
structure Fit (cfg : Cfg K) (bc : BulkCfg) (inner : Bool) (c : List (Rec K V)) : Prop where
  ne : c ≠ []
  keyed : ∀ r ∈ c, ∃ a, r.key = some a
  live : ∀ r ∈ c, r.del = false
  size : cfg.headerLen + 2 * cfg.maxKeyLen + bulkSize cfg inner c ≤ bc.cap

theorem Fit.hd {cfg : Cfg K} {bc : BulkCfg} {inner : Bool} {c : List (Rec K V)} (h : Fit cfg bc inner c) :
    ∃ k, hdKey c none = some k := by
  obtain ⟨r, rs, rfl⟩ := List.exists_cons_of_ne_nil h.ne
  obtain ⟨a, ha⟩ := h.keyed r (by simp)
  exact ⟨a, by simpa [hdKey] using ha⟩

/-- A bulkloaded page with its right neighbour. -/
def bulkPage (cfg : Cfg K) (inner : Bool) (c : List (Rec K V)) (hi : Option K) (nx : Option Ptr) : Node K V where
  isInner := inner
  recs := c
  low := hdKey c none
  high := hi
  next := if cfg.blink || !inner then nx else none
  block := match cfg.layout with
    | .var => cfg.maxKeyLen + Node.recBytes cfg inner c + cfg.oklen hi
    | .fix => cfg.plen inner * c.length

theorem bulkNode_eq (cfg : Cfg K) (inner : Bool) {c : List (Rec K V)} {k : K} (h : hdKey c none = some k) :
    bulkNode cfg inner k c = bulkPage cfg inner c none none := by
  unfold bulkNode bulkPage
  cases cfg.layout <;> simp [h]

/-- In the fixed-length layout all keyed slots have the same size. -/
theorem bulkSize_fix {cfg : Cfg K} {inner : Bool} {c : List (Rec K V)} (hl : cfg.layout = .fix)
    (h : ∀ r ∈ c, ∃ a, r.key = some a) : bulkSize cfg inner c = (cfg.maxKeyLen + cfg.plen inner) * c.length := by
  induction c with
  | nil => simp
  | cons r c ih =>
    obtain ⟨a, ha⟩ := h r (by simp)
    rw [bulkSize_cons, ih (fun x hx => h x (by simp [hx]))]
    simp only [Rec.len, ha, oklen_some, Cfg.klen, hl, Cfg.mlen, List.length_cons, Nat.mul_add]
    omega

theorem bulkPage_size {cfg : Cfg K} {bc : BulkCfg} (hb : BulkRoomy cfg bc) {inner : Bool} {c : List (Rec K V)}
    (h : Fit cfg bc inner c) (hi : Option K) (nx : Option Ptr) :
    SizeOk cfg (bulkPage cfg inner c hi nx) ∧ (bulkPage cfg inner c hi nx).fits cfg = true := by
  obtain ⟨k, hk⟩ := h.hd
  have hsz := h.size
  have hcap := hb.cap
  have hkk := hb.key k
  have hhi : cfg.oklen hi ≤ cfg.maxKeyLen := by
    cases hi
    · simp
    · exact hb.key _
  cases hl : cfg.layout with
  | var =>
    have hm : cfg.mlen = cfg.metaLen := by simp [Cfg.mlen, hl]
    have h1 := bulkSize_eq cfg inner c
    have h2 : lsize cfg inner c = bulkSize cfg inner c := by
      have : ∀ d : List (Rec K V), (∀ r ∈ d, r.del = false) → lsize cfg inner d = bulkSize cfg inner d := by
        intro d hd
        induction d with
        | nil => rfl
        | cons r d ih =>
          rw [lsize_cons, bulkSize_cons, ih (fun x hx => hd x (by simp [hx])), hd r (by simp), hm]
          simp
      exact this c h.live
    have h3 : dsize cfg inner c = 0 := by
      have : ∀ d : List (Rec K V), (∀ r ∈ d, r.del = false) → dsize cfg inner d = 0 := by
        intro d hd
        induction d with
        | nil => rfl
        | cons r d ih =>
          rw [dsize_cons, ih (fun x hx => hd x (by simp [hx])), hd r (by simp)]
          simp
      exact this c h.live
    rw [sizeOk_var hl, fits_var hl]
    unfold bulkPage Cfg.cap
    rw [hl]
    dsimp only
    rw [h2, h3, hk, oklen_some]
    rw [hm] at h1
    refine ⟨⟨?_, ?_, ?_, ?_⟩, ?_⟩ <;> omega
  | fix =>
    have h1 := bulkSize_fix (inner := inner) hl h.keyed
    rw [sizeOk_fix hl, fits_fix hl]
    have hbd : (bulkPage cfg inner c hi nx).borders ≤ 2 := by
      unfold Node.borders; split <;> split <;> omega
    have hmain : cfg.maxKeyLen * (c.length + (bulkPage cfg inner c hi nx).borders) + cfg.plen inner * c.length ≤ cfg.cap := by
      have : cfg.maxKeyLen * (bulkPage cfg inner c hi nx).borders ≤ cfg.maxKeyLen * 2 := Nat.mul_le_mul_left _ hbd
      rw [Nat.mul_add]
      rw [Nat.add_mul] at h1
      unfold Cfg.cap
      omega
    have hblk : (bulkPage cfg inner c hi nx).block = cfg.plen inner * c.length := by
      unfold bulkPage; rw [hl]
    refine ⟨⟨rfl, hblk, ?_, h.live⟩, ?_⟩
    · rw [hblk]; exact hmain
    · rw [hblk]; exact hmain

/-- One level: the slots of each page with its address, left to right. -/
abbrev Lvl (K V : Type) := List (List (Rec K V) × Ptr)

/-- first key of a level -/
def lvlKey : Lvl K V → Option K
  | [] => none
  | x :: _ => hdKey x.1 none
/-- first page of a level -/
def lvlPtr : Lvl K V → Option Ptr
  | [] => none
  | x :: _ => some x.2
/-- addresses of a level -/
def lvlPages (L : Lvl K V) : List Ptr := L.map Prod.snd

@[simp] theorem lvlPages_nil : lvlPages ([] : Lvl K V) = [] := rfl
@[simp] theorem lvlPages_cons (x) (L : Lvl K V) : lvlPages (x :: L) = x.2 :: lvlPages L := rfl
@[simp] theorem lvlPages_append (A B : Lvl K V) : lvlPages (A ++ B) = lvlPages A ++ lvlPages B := by simp [lvlPages]

/-- The pages of the level are in memory and linked to each other. -/
def LayerAt (cfg : Cfg K) (inner : Bool) (h : Heap K V) : Lvl K V → Prop
  | [] => True
  | x :: L => h x.2 = some (bulkPage cfg inner x.1 (lvlKey L) (lvlPtr L)) ∧ LayerAt cfg inner h L

theorem LayerAt.congr {cfg : Cfg K} {inner : Bool} {h h' : Heap K V} {L : Lvl K V} (hl : LayerAt cfg inner h L)
    (hh : ∀ p ∈ lvlPages L, h' p = h p) : LayerAt cfg inner h' L := by
  induction L with
  | nil => trivial
  | cons x L ih =>
    exact ⟨by rw [hh _ (by simp)]; exact hl.1, ih hl.2 (fun p hp => hh p (by simp [hp]))⟩

/-- the nodes a layer hands to the next one -/
def NodesOf (L : Lvl K V) (nodes : List (K × Ptr)) : Prop :=
  L.map (fun x => (hdKey x.1 none, x.2)) = nodes.map (fun x => (some x.1, x.2))

theorem NodesOf.append {A B : Lvl K V} {a b : List (K × Ptr)} (h1 : NodesOf A a) (h2 : NodesOf B b) :
    NodesOf (A ++ B) (a ++ b) := by
  unfold NodesOf at *; rw [List.map_append, List.map_append, h1, h2]

theorem NodesOf.length {A : Lvl K V} {a : List (K × Ptr)} (h : NodesOf A a) : a.length = A.length := by
  have := congrArg List.length h
  simpa using this.symm

/-- the slots of the level above -/
def upRecs (L : Lvl K V) : List (Rec K V) := L.map (fun x => ⟨hdKey x.1 none, .ptr x.2, false⟩)

theorem NodesOf.entries {A : Lvl K V} {a : List (K × Ptr)} (h : NodesOf A a) :
    (nodeEntries a : List (K × Pay V)).map erec = upRecs A := by
  have : (A.map (fun x => (hdKey x.1 none, x.2))).map (fun y => (⟨y.1, .ptr y.2, false⟩ : Rec K V)) = upRecs A := by
    simp [upRecs]
  rw [← this, h]
  simp only [nodeEntries, List.map_map]
  rfl

/-- everything allocated lies below the allocation counter -/
def Below (s : St K V) : Prop := ∀ p, s.heap p ≠ none → p < s.fresh

theorem linkNext_ok {cfg : Cfg K} {bc : BulkCfg} (hb : BulkRoomy cfg bc) {s : St K V} {inner : Bool} {c : List (Rec K V)}
    {l r : Ptr} {rn : Node K V} {k : K} (hl : s.heap l = some (bulkPage cfg inner c none none)) (hf : Fit cfg bc inner c)
    (hr : s.heap r = some rn) (hk : hdKey rn.recs none = some k) :
    linkNext cfg l r s = .ok ((), { s with heap := upd s.heap l (bulkPage cfg inner c (some k) (some r)) }) := by
  unfold linkNext
  rw [M.bind_ok (M.load_ok hl), M.bind_ok (M.load_ok hr)]
  rw [hk]
  dsimp only
  have e : ({ bulkPage cfg inner c none none with
      high := some k
      next := if (bulkPage cfg inner c none none).hasNext cfg then some r else (bulkPage cfg inner c none none).next
      block := match cfg.layout with
        | .var => (bulkPage cfg inner c none none).block + cfg.klen k
        | .fix => (bulkPage cfg inner c none none).block } : Node K V) = bulkPage cfg inner c (some k) (some r) := by
    unfold bulkPage Node.hasNext
    cases cfg.layout <;> simp
  refine (M.bind_ok (M.lift_of _ ((congrArg (Node.checked cfg) e).trans
    (checked_ok (bulkPage_size hb hf _ _).2)))).trans ?_
  exact M.store_ok hl

/-- What one pass of `ConstructSingleLayer` does, starting in the middle. -/
theorem layer_loop {cfg : Cfg K} {bc : BulkCfg} (hb : BulkRoomy cfg bc) (inner : Bool) : ∀ (fuel : Nat)
    (es : List (K × Pay V)) (s : St K V) (prev : Option (List (Rec K V) × Ptr)), es.length < fuel → Below s →
    (∀ x, prev = some x → s.heap x.2 = some (bulkPage cfg inner x.1 none none) ∧ Fit cfg bc inner x.1) →
    ∃ (Lv : Lvl K V) (nodes : List (K × Ptr)) (s' : St K V),
      constructLayer cfg bc inner fuel es (prev.map Prod.snd) s = .ok (nodes, s') ∧
      Lv.flatMap Prod.fst = es.map erec ∧ (∀ x ∈ Lv, Fit cfg bc inner x.1) ∧ NodesOf Lv nodes ∧
      lvlPages Lv = List.range' s.fresh Lv.length ∧ s'.fresh = s.fresh + Lv.length ∧ s'.root = s.root ∧ Below s' ∧
      (∀ q, q < s.fresh → (∀ x, prev = some x → q ≠ x.2) → s'.heap q = s.heap q) ∧
      LayerAt cfg inner s'.heap (prev.toList ++ Lv) ∧ (inner = true → 2 * Lv.length ≤ es.length + 1) := by
  intro fuel
  induction fuel with
  | zero => intro es s prev h; omega
  | succ f ih =>
    intro es s prev hlen hbel hprev
    cases es with
    | nil =>
      refine ⟨[], [], s, rfl, rfl, by simp, rfl, rfl, rfl, rfl, hbel, fun _ _ _ => rfl, ?_, by simp⟩
      cases prev with
      | none => trivial
      | some x => exact ⟨(hprev x rfl).1, trivial⟩
    | cons e es =>
      obtain ⟨k, pay⟩ := e
      rcases hfill : bulkFill cfg bc inner (bulkBase cfg) ((k, pay) :: es) with ⟨recs, rest⟩
      obtain ⟨f1, f2, f3⟩ := bulkFill_spec cfg bc inner ((k, pay) :: es) (bulkBase cfg)
      rw [hfill] at f1 f2 f3
      dsimp only at f1 f2 f3
      have hbr := base_reserve cfg
      have hone : cfg.headerLen + 2 * cfg.maxKeyLen + bulkRec cfg inner k ≤ bc.cap := by
        cases inner
        · exact hb.leaf k
        · have := hb.inner k k; omega
      have hne : recs ≠ [] := by
        rintro rfl
        cases rest with
        | nil => simp at f1
        | cons e es' =>
          simp only [List.nil_append, List.map_cons, List.cons.injEq] at f1
          have h1 := f3 e es' rfl
          have h2 : e.1 = k := by
            have := f1.1
            simp only [erec, Rec.mk.injEq] at this
            simpa using this.1.symm
          rw [h2] at h1
          simp only [bulkSize_nil] at h1
          omega
      obtain ⟨r0, rs, rfl⟩ := List.exists_cons_of_ne_nil hne
      have hr0 : r0 = erec (k, pay) := by
        simp only [List.map_cons, List.cons_append, List.cons.injEq] at f1
        exact f1.1.symm
      have hhd : hdKey (r0 :: rs) none = some k := by rw [hr0]; rfl
      have hmem : ∀ r ∈ r0 :: rs, ∃ e, r = (erec e : Rec K V) := by
        intro r hr
        have : r ∈ ((k, pay) :: es).map erec := by rw [f1]; exact List.mem_append_left _ hr
        obtain ⟨e, -, he⟩ := List.mem_map.1 this
        exact ⟨e, he.symm⟩
      have hfit : Fit cfg bc inner (r0 :: rs) := by
        refine ⟨by simp, ?_, ?_, ?_⟩
        · intro r hr; obtain ⟨e, rfl⟩ := hmem r hr; exact ⟨e.1, rfl⟩
        · intro r hr; obtain ⟨e, rfl⟩ := hmem r hr; rfl
        · have := f2 (by simp); omega
      have hlenrest : rest.length + (rs.length + 1) = es.length + 1 := by
        have := congrArg List.length f1
        simp at this
        omega
      -- one step of the loop
      unfold constructLayer
      rw [hfill]
      dsimp only
      have hck : (if cfg.layout = .fix ∧ r0 :: rs = [] then (.ub : Res (Node K V))
          else Node.checked cfg (bulkNode cfg inner k (r0 :: rs))) = .ok (bulkPage cfg inner (r0 :: rs) none none) := by
        rw [if_neg (by simp), bulkNode_eq cfg inner hhd]
        exact checked_ok (bulkPage_size hb hfit _ _).2
      rw [M.bind_ok (M.lift_of _ hck), M.bind_ok (M.alloc_run _ _)]
      have hfresh : s.heap s.fresh = none := by
        by_contra hc
        exact absurd (hbel _ hc) (by simp)
      -- the state after linking
      obtain ⟨s2, hs2, hp2, hbel2, hfr2, hrt2, hold2, hprev2⟩ : ∃ s2 : St K V,
          linkPrev cfg (prev.map Prod.snd) s.fresh
              { s with heap := upd s.heap s.fresh (bulkPage cfg inner (r0 :: rs) none none), fresh := s.fresh + 1 }
            = .ok ((), s2) ∧
          s2.heap s.fresh = some (bulkPage cfg inner (r0 :: rs) none none) ∧ Below s2 ∧ s2.fresh = s.fresh + 1 ∧
          s2.root = s.root ∧ (∀ q, q < s.fresh → (∀ x, prev = some x → q ≠ x.2) → s2.heap q = s.heap q) ∧
          (∀ x, prev = some x → x.2 < s.fresh ∧
            s2.heap x.2 = some (bulkPage cfg inner x.1 (some k) (some s.fresh))) := by
        have hb1 : Below { s with heap := upd s.heap s.fresh (bulkPage cfg inner (r0 :: rs) none none), fresh := s.fresh + 1 } := by
          intro q hq
          dsimp only at hq ⊢
          by_cases hqf : q = s.fresh
          · subst hqf; exact Nat.lt_succ_self _
          · rw [upd_other _ hqf] at hq
            exact Nat.lt_succ_of_lt (hbel q hq)
        cases prev with
        | none =>
          refine ⟨_, rfl, by simp, hb1, rfl, rfl, ?_, by simp⟩
          intro q hq _
          dsimp only
          exact upd_other _ (Nat.ne_of_lt hq)
        | some x =>
          obtain ⟨hx1, hx2⟩ := hprev x rfl
          have hxl : x.2 < s.fresh := hbel _ (by simp [hx1])
          have hxne : x.2 ≠ s.fresh := Nat.ne_of_lt hxl
          refine ⟨_, linkNext_ok hb (r := s.fresh) (inner := inner) (c := x.1) (k := k)
            (rn := bulkPage cfg inner (r0 :: rs) none none) ?_ hx2 ?_ ?_, ?_, ?_, rfl, rfl, ?_, ?_⟩
          · dsimp only; rw [upd_other _ hxne]; exact hx1
          · simp
          · exact hhd
          · dsimp only; rw [upd_other _ hxne.symm]; simp
          · intro q hq
            dsimp only at hq ⊢
            by_cases hqx : q = x.2
            · subst hqx; exact Nat.lt_succ_of_lt hxl
            · rw [upd_other _ hqx] at hq
              exact hb1 q hq
          · intro q hq hqx
            dsimp only
            rw [upd_other _ (hqx x rfl), upd_other _ (Nat.ne_of_lt hq)]
          · intro y hy
            cases hy
            exact ⟨hxl, by simp⟩
      obtain ⟨Lv, nodes, s', g1, g2, g3, g4, g5, g6, g7, g8, g9, g10, g11⟩ :=
        ih rest s2 (some (r0 :: rs, s.fresh)) (by simp at hlen; omega) hbel2 (by
          intro x hx; cases hx; exact ⟨hp2, hfit⟩)
      refine ⟨(r0 :: rs, s.fresh) :: Lv, (k, s.fresh) :: nodes, s', ?_, ?_, ?_, ?_, ?_, ?_, ?_, g8, ?_, ?_, ?_⟩
      · refine (M.bind_ok hs2).trans ?_
        have g1' : constructLayer cfg bc inner f rest (some s.fresh) s2 = .ok (nodes, s') := g1
        rw [M.bind_ok g1']
        rfl
      · rw [List.flatMap_cons, g2, f1]
      · intro x hx
        rcases List.mem_cons.1 hx with rfl | hx
        · exact hfit
        · exact g3 x hx
      · unfold NodesOf at g4 ⊢
        rw [List.map_cons, List.map_cons, g4, hhd]
      · rw [lvlPages_cons, g5, hfr2]; rfl
      · rw [g6, hfr2, List.length_cons, Nat.add_assoc, Nat.add_comm 1]
      · rw [g7, hrt2]
      · intro q hq hqx
        rw [g9 q (by rw [hfr2]; exact Nat.lt_succ_of_lt hq) (by intro x hx; cases hx; exact Nat.ne_of_lt hq)]
        exact hold2 q hq hqx
      · cases prev with
        | none => exact g10
        | some x =>
          obtain ⟨hx1, hx2⟩ := hprev2 x rfl
          refine ⟨?_, g10⟩
          rw [g9 x.2 (by rw [hfr2]; exact Nat.lt_succ_of_lt hx1) (by intro y hy; cases hy; exact Nat.ne_of_lt hx1), hx2]
          show _ = some (bulkPage cfg inner x.1 (hdKey (r0 :: rs) none) (some s.fresh))
          rw [hhd]
      · intro hin
        subst hin
        have := g11 rfl
        simp only [List.length_cons]
        cases rest with
        | nil =>
          cases Lv with
          | nil => simp
          | cons y ys =>
            exfalso
            have h1 := g3 y (by simp)
            simp only [List.flatMap_cons, List.map_nil, List.append_eq_nil_iff] at g2
            exact h1.ne g2.1
        | cons e es' =>
          have h1 := f3 e es' rfl
          have h2 : 1 ≤ rs.length := by
            by_contra hc
            have : rs = [] := List.length_eq_zero_iff.1 (by omega)
            subst this
            rw [hr0] at h1
            have h3 := hb.inner k e.1
            simp only [bulkSize_cons, bulkSize_nil] at h1
            have h4 := bulkRec_eq cfg true k pay
            simp only [erec] at h1
            omega
          simp only [List.length_cons] at this hlenrest ⊢
          omega

end BT
