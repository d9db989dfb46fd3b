import Verif.LoadRun
import Verif.Shape
import Verif.RetiredOk

/-!
# A tree that nobody works on

When no thread is in the middle of a change, the pages that are part of the tree make up a tree as one thread leaves it behind (`Good`).
-/

set_option linter.unusedSectionVars false

namespace BT
open Spec
variable {K V : Type} [LinearOrder K] {cfg : Cfg K} {w : World K V}

/-- The pages `ps` of level `i` cover the keys from `lo` on. -/
def World.Runs (w : World K V) (i : Nat) : Bd K → List Ptr → Prop
  | lo, [] => lo = .top
  | lo, p :: ps => w.st p = .live ∧ w.lvl p = i ∧ w.lo p = lo ∧ ∃ n, w.heap p = some n ∧ w.Runs i (hiB n.high) ps

namespace CInv
variable (hI : CInv cfg w)
include hI

theorem lo_ne_top {p : Ptr} (hp : w.st p = .live) : w.lo p ≠ .top := by
  obtain ⟨n, hn, -⟩ := hI.live p hp
  intro e
  have := hI.lo_lt hp hn
  rw [e] at this
  exact absurd this (not_lt.2 (Bd.le_top _))

/-- Two pages of a level that begin with the same key. -/
theorem lo_inj {p q : Ptr} (hp : w.st p = .live) (hq : w.st q = .live) (hl : w.lvl p = w.lvl q) (h : w.lo p = w.lo q) : p = q := by
  obtain ⟨n, hn, -⟩ := hI.live p hp
  obtain ⟨m, hm, -⟩ := hI.live q hq
  exact hI.disj p q n m hp hq hl hn hm (by rw [h]; exact hI.lo_lt hq hm) (by rw [← h]; exact hI.lo_lt hp hn)

open Classical in
/-- Following the borders to the right. -/
theorem runs_from : ∀ (N : Nat) (p : Ptr), w.st p = .live → ((List.range w.mem.fresh).filter (fun q => decide (w.lo p < w.lo q))).length ≤ N →
    ∃ ps, w.Runs (w.lvl p) (w.lo p) (p :: ps) := by
  intro N
  induction N with
  | zero =>
    intro p hp hN
    obtain ⟨n, hn, hok⟩ := hI.live p hp
    rcases hok.next with ⟨e, -⟩ | ⟨h, q, e, -, hq, hlq, hlo⟩
    · exact ⟨[], hp, rfl, rfl, n, hn, by rw [e]; rfl⟩
    · exfalso
      have hlt : w.lo p < w.lo q := by rw [hlo]; have := hI.lo_lt hp hn; rw [e] at this; exact this
      have hf : q < w.mem.fresh := by
        by_contra hc
        have := (hI.alloc q).1 (hI.fresh q (not_lt.1 hc))
        rw [hq] at this; cases this
      have : q ∈ (List.range w.mem.fresh).filter (fun q => decide (w.lo p < w.lo q)) := by
        rw [List.mem_filter]; exact ⟨List.mem_range.2 hf, by simpa using hlt⟩
      rw [List.length_eq_zero_iff.1 (Nat.le_zero.1 hN)] at this
      cases this
  | succ N ih =>
    intro p hp hN
    obtain ⟨n, hn, hok⟩ := hI.live p hp
    rcases hok.next with ⟨e, -⟩ | ⟨h, q, e, -, hq, hlq, hlo⟩
    · exact ⟨[], hp, rfl, rfl, n, hn, by rw [e]; rfl⟩
    · have hlt : w.lo p < w.lo q := by rw [hlo]; have := hI.lo_lt hp hn; rw [e] at this; exact this
      have hf : q < w.mem.fresh := by
        by_contra hc
        have := (hI.alloc q).1 (hI.fresh q (not_lt.1 hc))
        rw [hq] at this; cases this
      have hm : q ∈ (List.range w.mem.fresh).filter (fun q => decide (w.lo p < w.lo q)) := by
        rw [List.mem_filter]; exact ⟨List.mem_range.2 hf, by simpa using hlt⟩
      have hlen : ((List.range w.mem.fresh).filter (fun x => decide (w.lo q < w.lo x))).length ≤ N := by
        have e1 : (List.range w.mem.fresh).filter (fun x => decide (w.lo q < w.lo x)) =
            ((List.range w.mem.fresh).filter (fun x => decide (w.lo p < w.lo x))).filter (fun x => decide (w.lo q < w.lo x)) := by
          rw [List.filter_filter]
          congr 1
          funext x
          by_cases h1 : w.lo q < w.lo x
          · simp [h1, lt_trans hlt h1]
          · simp [h1]
        rw [e1]
        have := List.length_filter_lt_length_iff_exists (p := fun x => decide (w.lo q < w.lo x))
          (l := (List.range w.mem.fresh).filter (fun x => decide (w.lo p < w.lo x)))
        have h2 := this.2 ⟨q, hm, by simp⟩
        omega
      obtain ⟨ps, h1⟩ := ih q hq hlen
      rw [hlq, hlo] at h1
      exact ⟨q :: ps, hp, rfl, rfl, n, hn, by rw [e]; exact h1⟩

/-- Every level has a leftmost page. -/
theorem leftmost (hs : w.shr = none) : ∀ (d i : Nat), i + d = w.top → ∃ p, w.st p = .live ∧ w.lvl p = i ∧ w.lo p = .bot := by
  intro d
  induction d with
  | zero =>
    intro i h
    rcases hI.root with ⟨-, a, b, c⟩ | ⟨t, e, -⟩
    · exact ⟨_, a, by omega, b⟩
    · rw [hs] at e; cases e
  | succ d ih =>
    intro i h
    obtain ⟨p, a, b, c⟩ := ih (i + 1) (by omega)
    obtain ⟨n, hn, hok⟩ := hI.live p a
    have hin := hok.ok
    rw [b, show decide (i + 1 ≠ 0) = true by simp] at hin
    have hne := hin.inner.ne
    cases hr : n.recs with
    | nil => exact absurd hr hne
    | cons r rs =>
      obtain ⟨x, y, z⟩ := hok.kids i b (w.lo p) r.toPtr (by rw [hr, slots_cons]; simp [kidsOf])
      exact ⟨_, x, y, z.trans c⟩

theorem runs_live {i : Nat} : ∀ {ps : List Ptr} {lo : Bd K}, w.Runs i lo ps → ∀ p ∈ ps, w.st p = .live ∧ w.lvl p = i := by
  intro ps
  induction ps with
  | nil => intro lo _ p hp; cases hp
  | cons q ps ih =>
    rintro lo ⟨a, b, c, n, d, e⟩ p hp
    rcases List.mem_cons.1 hp with rfl | hp
    · exact ⟨a, b⟩
    · exact ih e p hp

/-- The run has all pages of the level. -/
theorem runs_all {i : Nat} {q : Ptr} (hq : w.st q = .live) (hl : w.lvl q = i) : ∀ {ps : List Ptr} {lo : Bd K}, w.Runs i lo ps →
    lo ≤ w.lo q → q ∈ ps := by
  intro ps
  induction ps with
  | nil =>
    intro lo h hlo
    have h : lo = .top := h
    rw [h] at hlo
    exact absurd (le_antisymm (Bd.le_top _) hlo) (hI.lo_ne_top hq)
  | cons p ps ih =>
    rintro lo ⟨a, b, c, n, d, e⟩ hlo
    by_cases h : w.lo q < hiB n.high
    · obtain ⟨m, hm, -⟩ := hI.live q hq
      have : p = q := hI.disj p q n m a hq (b.trans hl.symm) d hm (by rw [c]; exact lt_of_le_of_lt hlo (hI.lo_lt hq hm)) h
      simp [this]
    · exact List.mem_cons_of_mem _ (ih e (not_lt.1 h))

/-- The run is a chain of pages. -/
theorem runs_chain {i : Nat} {h : Heap K V} (hh : ∀ p, w.st p = .live → h p = w.heap p) : ∀ {ps : List Ptr} {lo : Bd K}, w.Runs i lo ps →
    Chain (PageAt cfg i) h lo ps .top none := by
  intro ps
  induction ps with
  | nil => intro lo h; exact h
  | cons p ps ih =>
    rintro lo ⟨a, b, c, n, d, e⟩
    refine ⟨n, by rw [hh p a]; exact d, ⟨?_, ?_⟩, ih e⟩
    · have := (hI.page a d).ok
      rw [b, c] at this
      exact this
    · intro hnx
      have hlk : Linked cfg (w.lvl p) := by
        have hk := (hI.page a d).ok.kind
        by_cases hb : cfg.blink = true
        · exact .inl hb
        · refine .inr ?_
          by_contra h0
          simp [Node.hasNext, hb, hk, h0] at hnx
      rcases (hI.page a d).next with ⟨x, y⟩ | ⟨k, q, x, y, z, u, v⟩
      · rw [y hlk]
        cases ps with
        | nil => rfl
        | cons r ps =>
          obtain ⟨a', -, c', -⟩ := e
          rw [x] at c'
          exact absurd c' (hI.lo_ne_top a')
      · rw [y hlk]
        cases ps with
        | nil =>
          have e : hiB n.high = .top := e
          rw [x] at e; cases e
        | cons r ps =>
          obtain ⟨a', b', c', -⟩ := e
          rw [x] at c'
          have : q = r := hI.lo_inj z a' (by rw [u, b, b']) (by rw [v, c']; rfl)
          simp [this]

/-- Without pages that are not known above, a page of the next level begins with key `k` if a page of this level does. -/
theorem known (hp : ∀ q, w.pend q = none) {q : Ptr} (hq : w.st q = .live) {k : K} (hk : w.lo q = .key k) :
    ∃ p n, w.st p = .live ∧ w.heap p = some n ∧ w.lvl p = w.lvl q + 1 ∧ (.key k, q) ∈ kidsOf (w.lo p) (slots n.recs n.high) := by
  rcases hI.full q hq with h | h | ⟨p, n, b, h1, h2, h3, h4⟩
  · rw [hk] at h; cases h
  · exact absurd (hp q) h
  · obtain ⟨j, hj⟩ := Nat.exists_eq_succ_of_ne_zero h3
    obtain ⟨-, x, y⟩ := (hI.page h1 h2).kids j hj b q h4
    rw [hk] at y
    exact ⟨p, n, h1, h2, by omega, by rw [y]; exact h4⟩

/-- The children of a page are the next pages of the run below. -/
theorem runs_kids (hp : ∀ q, w.pend q = none) {i : Nat} {u : Ptr} {n : Node K V} (hu : w.st u = .live) (hl : w.lvl u = i + 1)
    (hn : w.heap u = some n) : ∀ (sl : List (Ptr × Option K)) (X : List (Bd K × Ptr)) (b : Bd K) (ps : List Ptr),
    kidsOf (w.lo u) (slots n.recs n.high) = X ++ kidsOf b sl → (∀ x ∈ X, x.1 < b) → kidEnd b sl = hiB n.high → w.lo u ≤ b →
    (kidsOf b sl).Pairwise (fun x y => x.1 < y.1) → (∀ x ∈ kidsOf b sl, x.1 < hiB n.high) → w.Runs i b ps →
    ∃ ps1 ps2, ps = ps1 ++ ps2 ∧ sl = ps1.map (fun p => (p, highOf w.heap p)) ∧ w.Runs i (hiB n.high) ps2 := by
  intro sl
  induction sl with
  | nil =>
    intro X b ps _ _ he _ _ _ hr
    have he : b = hiB n.high := he
    exact ⟨[], ps, rfl, rfl, by rw [← he]; exact hr⟩
  | cons x sl ih =>
    obtain ⟨c, h⟩ := x
    intro X b ps hK hX he hub hpw hlt hr
    have hcm : (b, c) ∈ kidsOf (w.lo u) (slots n.recs n.high) := by rw [hK]; simp [kidsOf]
    obtain ⟨hc1, hc2, hc3⟩ := (hI.page hu hn).kids i hl b c hcm
    cases ps with
    | nil =>
      have hr : b = .top := hr
      rw [hr] at hc3
      exact absurd hc3 (hI.lo_ne_top hc1)
    | cons p ps =>
      obtain ⟨a1, a2, a3, m, a4, a5⟩ := hr
      have : p = c := hI.lo_inj a1 hc1 (by rw [a2, hc2]) (by rw [a3, hc3])
      subst this
      have hbm : b < hiB m.high := by rw [← hc3]; exact hI.lo_lt hc1 a4
      -- the next border
      have hnext : ∀ x ∈ kidsOf (hiB h) sl, hiB h ≤ x.1 := by
        intro x hx
        cases sl with
        | nil => cases hx
        | cons y sl =>
          obtain ⟨c2, h2⟩ := y
          simp only [kidsOf, List.mem_cons] at hx
          simp only [kidsOf, List.pairwise_cons] at hpw
          rcases hx with rfl | hx
          · exact le_refl _
          · exact le_of_lt (hpw.2.1 x (by simpa [kidsOf] using hx))
      have hle : hiB h ≤ hiB n.high := by
        cases sl with
        | nil =>
          have he : hiB h = hiB n.high := he
          exact le_of_eq he
        | cons y sl =>
          obtain ⟨c2, h2⟩ := y
          exact le_of_lt (hlt (hiB h, c2) (by simp [kidsOf]))
      have hbh : b < hiB h := by
        cases sl with
        | nil =>
          have he : hiB h = hiB n.high := he
          rw [he]
          exact hlt (b, p) (by simp [kidsOf])
        | cons y sl =>
          obtain ⟨c2, h2⟩ := y
          simp only [kidsOf, List.pairwise_cons] at hpw
          exact hpw.1 (hiB h, c2) (by simp)
      have heq : hiB m.high = hiB h := by
        rcases lt_trichotomy (hiB m.high) (hiB h) with hlt1 | e | hgt
        · exfalso
          rcases (hI.page hc1 a4).next with ⟨e, -⟩ | ⟨k, q, e, -, hq, hlq, hloq⟩
          · rw [e] at hlt1
            exact absurd hlt1 (not_lt.2 (Bd.le_top _))
          · rw [e] at hlt1 hbm
            obtain ⟨p', n', b1, b2, b3, b4⟩ := hI.known hp hq hloq
            have hk' := (hI.page b1 b2).ok
            rw [b3, show decide (w.lvl q + 1 ≠ 0) = true by simp] at hk'
            obtain ⟨r1, r2⟩ := kidsOf_range hk' b4
            have : p' = u := hI.disj p' u n' n b1 hu (by omega) b2 hn (lt_of_le_of_lt r1 (lt_of_lt_of_le hlt1 hle))
              (lt_of_le_of_lt hub (lt_trans hbm r2))
            subst this
            rw [hn] at b2; cases b2
            rw [hK] at b4
            rcases List.mem_append.1 b4 with hx | hx
            · exact absurd (hX _ hx) (not_lt.2 (le_of_lt hbm))
            · simp only [kidsOf, List.mem_cons, Prod.mk.injEq] at hx
              rcases hx with ⟨e1, -⟩ | hx
              · exact absurd hbm (by rw [← e1]; exact lt_irrefl _)
              · exact absurd hlt1 (not_lt.2 (hnext _ hx))
        · exact e
        · exfalso
          -- a page of the level begins there
          have hex : ∃ c2, w.st c2 = .live ∧ w.lvl c2 = i ∧ w.lo c2 = hiB h := by
            cases sl with
            | cons y sl =>
              obtain ⟨c2, h2⟩ := y
              exact ⟨c2, (hI.page hu hn).kids i hl (hiB h) c2 (by rw [hK]; simp [kidsOf])⟩
            | nil =>
              have he : hiB h = hiB n.high := he
              rw [he] at hgt ⊢
              rcases (hI.page hu hn).next with ⟨e, -⟩ | ⟨k, q, e, -, hq, hlq, hloq⟩
              · rw [e] at hgt
                exact absurd hgt (not_lt.2 (Bd.le_top _))
              · obtain ⟨nq, hnq, hokq⟩ := hI.live q hq
                have hin := hokq.ok
                rw [hlq, hl, show decide (i + 1 ≠ 0) = true by simp] at hin
                have hne := hin.inner.ne
                cases hrq : nq.recs with
                | nil => exact absurd hrq hne
                | cons r rs =>
                  obtain ⟨x, y, z⟩ := hokq.kids i (hlq.trans hl) (w.lo q) r.toPtr (by rw [hrq, slots_cons]; simp [kidsOf])
                  exact ⟨_, x, y, by rw [z, hloq, e]; rfl⟩
          obtain ⟨c2, d1, d2, d3⟩ := hex
          obtain ⟨m2, hm2, -⟩ := hI.live c2 d1
          have hlo2 := hI.lo_lt d1 hm2
          have : p = c2 := hI.disj p c2 m m2 hc1 d1 (by rw [hc2, d2]) a4 hm2 (by rw [hc3]; rw [d3] at hlo2; exact lt_trans hbh hlo2)
            (by rw [d3]; exact hgt)
          subst this
          rw [hc3] at d3
          rw [d3] at hbh
          exact lt_irrefl _ hbh
      have hhm : m.high = h := by
        cases h1 : m.high <;> cases h2 : h <;> rw [h1, h2] at heq
        · cases heq
        · cases heq
        · simp only [hiB, Bd.key.injEq] at heq; rw [heq]
      obtain ⟨ps1, ps2, e1, e2, e3⟩ := ih (X ++ [(b, p)]) (hiB h) ps (by rw [hK]; simp [kidsOf])
        (by
          intro x hx
          rcases List.mem_append.1 hx with hx | hx
          · exact lt_trans (hX x hx) hbh
          · rw [List.mem_singleton.1 hx]; exact hbh)
        he (le_of_lt (lt_of_le_of_lt hub hbh)) (by simp only [kidsOf, List.pairwise_cons] at hpw; exact hpw.2)
        (fun x hx => hlt x (by simp [kidsOf, hx])) (by rw [← heq]; exact a5)
      exact ⟨p :: ps1, ps2, by rw [e1]; rfl, by rw [e2]; simp [highOf, a4, hhm], e3⟩

omit hI in
/-- The borders of the children of a page ascend. -/
theorem kids_sorted {lo : Bd K} {n : Node K V} (h : NodeOk cfg true lo n) :
    (kidsOf lo (slots n.recs n.high)).Pairwise (fun x y => x.1 < y.1) := by
  have key : ∀ (rs : List (Rec K V)) (r : Rec K V) (lo : Bd K), KSorted rs → (∀ x ∈ rs, ∃ a, x.key = some a ∧ lo < .key a) →
      (kidsOf lo (slots (r :: rs) n.high)).Pairwise (fun x y => x.1 < y.1) := by
    intro rs
    induction rs with
    | nil => intro r lo _ _; simp [slots, kidsOf]
    | cons y rs ih =>
      intro r lo hs hk
      obtain ⟨a, ha, hla⟩ := hk y (by simp)
      unfold KSorted at hs
      rw [List.pairwise_cons] at hs
      rw [slots_cons]
      simp only [kidsOf, List.pairwise_cons]
      refine ⟨?_, ih y _ hs.2 ?_⟩
      · rintro ⟨b, c⟩ hb
        rcases kids_iff.1 hb with ⟨rfl, -⟩ | ⟨x, hx, rfl, -⟩
        · simp only [hdKey, ha]; exact hla
        · obtain ⟨a', ha', hla'⟩ := hk x (by simp [hx])
          simp only [ha']; exact hla'
      · intro x hx
        obtain ⟨a', ha', -⟩ := hk x (by simp [hx])
        refine ⟨a', ha', ?_⟩
        simp only [hdKey, ha]
        exact Bd.key_lt_key.2 (hs.1 x hx a ha a' ha')
  cases hr : n.recs with
  | nil => simp [slots, kidsOf]
  | cons r rs =>
    have h1 := h.inner.sorted
    have h2 := h.inner.keyed
    rw [hr] at h1 h2
    refine key rs r lo h1 fun x hx => ?_
    obtain ⟨a, ha, hb, -⟩ := h2 x hx
    exact ⟨a, ha, Bd.lt_iff.1 hb⟩

omit hI in
/-- Where a page of a run begins. -/
theorem runs_end {i : Nat} {p : Ptr} {B : List Ptr} : ∀ {A : List Ptr} {lo : Bd K}, w.Runs i lo (A ++ p :: B) →
    w.lo p = match A.getLast? with | none => lo | some q => hiB (highOf w.heap q) := by
  intro A
  induction A with
  | nil => rintro lo ⟨a, b, c, -⟩; exact c
  | cons q A ih =>
    rintro lo ⟨a, b, c, n, d, e⟩
    have := ih e
    rw [this]
    cases A with
    | nil => simp [highOf, d]
    | cons x A => rw [List.getLast?_cons_cons]; simp [List.getLast?_cons]

/-- The level above lists the pages of a level. -/
theorem runs_slots (hp : ∀ q, w.pend q = none) {i : Nat} : ∀ {us : List Ptr} {lo : Bd K} {ps : List Ptr}, w.Runs (i + 1) lo us → w.Runs i lo ps →
    us.flatMap (slotsOf w.heap) = ps.map (fun p => (p, highOf w.heap p)) := by
  intro us
  induction us with
  | nil =>
    intro lo ps h1 h2
    have h1 : lo = .top := h1
    cases ps with
    | nil => rfl
    | cons p ps =>
      obtain ⟨a, -, c, -⟩ := h2
      rw [h1] at c
      exact absurd c (hI.lo_ne_top a)
  | cons u us ih =>
    rintro lo ps ⟨a, b, c, n, d, e⟩ h2
    have hin := (hI.page a d).ok
    rw [b, show decide (i + 1 ≠ 0) = true by simp] at hin
    obtain ⟨ps1, ps2, e1, e2, e3⟩ := hI.runs_kids hp a b d (slots n.recs n.high) [] (w.lo u) ps rfl (fun x hx => by cases hx)
      (kidEnd_slots _ _ hin.inner.ne) (le_refl _) (kids_sorted hin) (fun x hx => (kidsOf_range hin hx).2) (by rw [c]; exact h2)
    rw [List.flatMap_cons, slotsOf_eq d, ih e e3, e2, e1, List.map_append]

/-- The pages of the tree make up a tree. -/
theorem good (hs : w.shr = none) (hp : ∀ q, w.pend q = none) : ∃ gr, Good cfg ⟨fun p => if w.st p = .live then w.heap p else none, w.mem.fresh, w.mem.root⟩ w.top gr ∧
    mapOf (contents (⟨fun p => if w.st p = .live then w.heap p else none, w.mem.fresh, w.mem.root⟩ : St K V) gr) = w.maps w.now := by
  have hex : ∀ i, ∃ ps, i ≤ w.top → w.Runs i .bot ps := by
    intro i
    by_cases hi : i ≤ w.top
    · obtain ⟨p, a, b, c⟩ := hI.leftmost hs (w.top - i) i (by omega)
      obtain ⟨ps, h⟩ := hI.runs_from _ p a (le_refl _)
      rw [b, c] at h
      exact ⟨_, fun _ => h⟩
    · exact ⟨[], fun h => absurd h hi⟩
  choose P hP using hex
  have hhp : ∀ p, w.st p = .live → (if w.st p = .live then w.heap p else none) = w.heap p := fun p h => by rw [if_pos h]
  have hfl : ∀ i, flat ((P i).map (fun p => ((p, []) : Grp))) = P i := by
    intro i
    unfold flat
    induction P i with
    | nil => rfl
    | cons p ps ih => rw [List.map_cons, List.flatMap_cons, ih]; rfl
  have hmem : ∀ p i, i ≤ w.top → (p ∈ P i ↔ w.st p = .live ∧ w.lvl p = i) := fun p i hi =>
    ⟨fun h => hI.runs_live (hP i hi) p h, fun h => hI.runs_all h.1 h.2 (hP i hi) (Bd.bot_le _)⟩
  have hwf : WF cfg ⟨fun p => if w.st p = .live then w.heap p else none, w.mem.fresh, w.mem.root⟩ w.top (fun i => (P i).map (fun p => (p, []))) := by
    refine ⟨⟨[], ?_⟩, ?_, ?_, ?_, ?_, ?_⟩
    · rcases hI.root with ⟨-, a, b, c⟩ | ⟨t, e, -⟩
      · have h0 := hP w.top (le_refl _)
        cases hps : P w.top with
        | nil => rw [hps] at h0; cases h0
        | cons p ps =>
          rw [hps] at h0
          obtain ⟨x, y, z, n, u, v⟩ := h0
          have : p = w.mem.root := hI.lo_inj x a (by rw [y, c]) (by rw [z, b])
          subst this
          cases ps with
          | nil => rfl
          | cons q ps =>
            exfalso
            obtain ⟨x', y', z', -⟩ := v
            have hne : w.lo q ≠ .bot := by
              intro h
              have := hI.lo_lt x u
              rw [← z', h] at this
              exact absurd this (not_lt.2 (Bd.bot_le _))
            rcases hI.full q x' with h | h | ⟨p', n', b', h1, h2, h3, h4⟩
            · exact hne h
            · exact h (hp q)
            · obtain ⟨j, hj⟩ := Nat.exists_eq_succ_of_ne_zero h3
              obtain ⟨-, k1, -⟩ := (hI.page h1 h2).kids j hj b' q h4
              have := hI.lvle p' h1
              omega
      · rw [hs] at e; cases e
    · intro i hi
      rw [hfl]
      exact hI.runs_chain hhp (hP i hi)
    · intro i hi
      unfold Kid
      rw [hfl]
      have h := hI.runs_slots hp (hP (i + 1) hi) (hP i (by omega))
      have e1 : (P (i + 1)).flatMap (slotsOf (fun p => if w.st p = .live then w.heap p else none)) = (P (i + 1)).flatMap (slotsOf w.heap) := by
        apply List.flatMap_congr
        intro p hpm
        simp only [slotsOf, hhp p ((hmem p _ hi).1 hpm).1]
      rw [e1, h, List.map_map]
      apply List.map_congr_left
      intro p hpm
      have hl := ((hmem p i (by omega)).1 hpm).1
      simp [lastOf, highOf, hl]
    · intro i hi j hj p h1 h2
      rw [hfl] at h1 h2
      rw [← ((hmem p i hi).1 h1).2, ← ((hmem p j hj).1 h2).2]
    · intro p
      constructor
      · intro h
        have hl : w.st p = .live := by
          by_contra hc
          exact h (if_neg hc)
        exact ⟨w.lvl p, hI.lvle p hl, by rw [hfl]; exact (hmem p _ (hI.lvle p hl)).2 ⟨hl, rfl⟩⟩
      · rintro ⟨i, hi, h⟩
        rw [hfl] at h
        have hl := ((hmem p i hi).1 h).1
        obtain ⟨n, hn, -⟩ := hI.live p hl
        show (if w.st p = .live then w.heap p else none) ≠ none
        rw [if_pos hl, hn]
        simp
    · intro p h
      by_contra hc
      apply h
      show (if w.st p = .live then w.heap p else none) = none
      have : w.heap p = none := hI.fresh p (Nat.le_of_not_lt hc)
      rw [this, ite_self]
  refine ⟨_, ⟨hwf, fun i _ g hg => ?_⟩, ?_⟩
  · simp only [List.mem_map] at hg
    obtain ⟨p, -, rfl⟩ := hg
    rfl
  · funext k
    obtain ⟨p, n, lo, hat, hlo, hhi⟩ := hwf.cover (Nat.zero_le _) k
    have hag := hwf.agrees hat k (Bd.leKey_iff'.1 hlo) (Bd.gtKey_iff'.1 hhi)
    have hpm : p ∈ P 0 := by have := hat.mem; rw [hfl] at this; exact this
    obtain ⟨hl, hl0⟩ := (hmem p 0 (Nat.zero_le _)).1 hpm
    have hn : w.heap p = some n := by
      have := hat.heap
      simpa [hl] using this
    have hlo' : w.lo p = lo := by
      obtain ⟨A, B, e⟩ := List.append_of_mem hpm
      have h1 := (hwf.at_mk (Nat.zero_le _) ((hfl 0).trans e) hat.heap)
      obtain ⟨A', B', e1, -, e3, -⟩ := h1
      have h2 : endB (fun p => if w.st p = .live then w.heap p else none) A = lo := by
        refine At.lo_eq hwf (Nat.zero_le _) hat e1 (e := some p) ?_
        exact e3
      have h3 := hP 0 (Nat.zero_le _)
      rw [e] at h3
      rw [runs_end h3, ← h2]
      rw [endB_congr (h := w.heap)]
      · rfl
      · intro q hq
        simp [highOf, hhp q ((hmem q 0 (Nat.zero_le _)).1 (by rw [e]; simp [hq])).1]
    have hag' := (hI.page hl hn).agree hl0 k (by rw [hlo']; exact Bd.leKey_iff'.1 hlo) (Bd.gtKey_iff'.1 hhi)
    refine Option.ext fun v => ?_
    exact (hag v).trans (hag' v).symm

end CInv
end BT
