import Verif.ConcRule

/-!
# What the search code of the B-link trees has to provide

`NavOk` is the contract between the searches (different in PSL and OSL) and the structure modifications (shared).
-/

set_option linter.unusedSectionVars false

namespace BT
open Spec
variable {K V : Type} [LinearOrder K] {cfg : Cfg K} {w w' : World K V} {t : Tid} {p : Ptr}

/-! ## Stability -/

theorem Ext.gone_imp (h : Ext w w') {a b : Ptr} (ha : w.Pub a) (hb : w.Pub b) (hl : w.lvl a ≤ w.lvl b)
    (hi : w.Gone a → w.Gone b) : w'.Gone a → w'.Gone b := by
  intro hg
  by_cases e : w.Gone a
  · exact h.gone_of hb (hi e)
  · exact h.gone a b ha hb hl e hg

theorem Ext.low (h : Ext w w') (hp : w.Pub p) {σ : Bd K} (hl : w.Gone p ∨ w.lo (w.rep p) ≤ σ) :
    w'.Gone p ∨ w'.lo (w'.rep p) ≤ σ := by
  rcases hl with hl | hl
  · exact Or.inl (h.gone_of hp hl)
  · exact Or.inr (le_trans (h.rep p hp).2 hl)

theorem Ext.st_gone (h : Ext w w') (hp : w.st p = .gone) : w'.st p = .gone := by
  have := h.st p
  rw [hp] at this
  exact this

theorem Kp.noPend {E : Ptr → Prop} (h : Kp t E w w') (hn : w.NoPend t) : w'.NoPend t := fun p e => hn p ((h.pend p).1 e)

/-- Without the fine-grained protocol every thread may write. -/
theorem CInv.wrOf (h : CInv cfg w) (hs : w.strict = true) : w.Wr t := fun e => by rw [(h.solo e).1] at hs; cases hs

theorem CInv.wr [hb : Fact (cfg.blink = false)] (h : CInv cfg w) : w.Wr t := h.wrOf (by rw [h.strict, hb.out]; rfl)

theorem CInv.crowd [hb : Fact (cfg.blink = false)] (h : CInv cfg w) (hs : w.solo = true) : False := by
  have := (h.solo hs).1
  rw [h.strict, hb.out] at this
  cases this

theorem Kp.noStaleT {E : Ptr → Prop} (h : Kp t E w w') (hn : w.NoStale t) : w'.NoStale t :=
  ⟨fun p τ q e => hn.1 p τ q ((h.noStale p τ q).1 e), fun e => hn.2 (h.shr.1 e)⟩

/-- A lock taken and given back. -/
theorem Kp.close (h : Kp t (· = p) w w') (h1 : ¬ w.Own t p) (h2 : ¬ w'.Own t p) (h3 : w.st p ≠ .priv t)
    (h4 : w.solo = true → w.Wr t → w'.heap p = w.heap p) : Kp t noE w w' := by
  refine ⟨h.ext, h.ph, h.noStale, h.pend, h.shr, fun q _ => ?_, fun q _ => ?_, fun q _ ho => ?_, fun q _ ho => ?_,
    fun hs hw q _ hq => ?_, h.rt, h.wr⟩
  · by_cases e : q = p
    · subst e; exact iff_of_false (fun e => h2 (Or.inl e)) (fun e => h1 (Or.inl e))
    · exact h.six q e
  · by_cases e : q = p
    · subst e; exact iff_of_false (fun e => h2 (Or.inr e)) (fun e => h1 (Or.inr e))
    · exact h.x q e
  · exact h.own q (by rintro rfl; exact h1 ho) ho
  · exact h.priv q (by rintro rfl; exact h3 ho) ho
  · by_cases e : q = p
    · subst e; exact h4 hs hw
    · exact h.calm hs hw q e hq

theorem Kp.toE {E : Ptr → Prop} (h : Kp t noE w w') : Kp t E w w' := h.mono (fun _ h => h.elim)

/-- A page published meanwhile was not private to the thread. -/
theorem Kp.not_priv (h : Kp t noE w w') (hp : w'.Pub p) : w.st p ≠ .priv t := by
  intro e
  exact World.not_pub_priv (h.priv p (fun e => e) e).1 hp

/-! ## Pages that a search meets -/

/-- Thread is at page `p`, which was part of the tree at time `t0` or later, or is a removed root; the key is not left of it. -/
structure AtP (w : World K V) (t0 : Nat) (k : K) (p : Ptr) : Prop where
  ge : w.Ge t0 p
  now : t0 ≤ w.now
  low : w.st p = .gone ∨ w.lo p ≤ .key k

theorem AtP.ext {t0 : Nat} {k : K} (h : AtP w t0 k p) (e : Ext w w') : AtP w' t0 k p := by
  refine ⟨e.ge h.ge h.now, le_trans h.now e.now, ?_⟩
  rcases h.low with a | a
  · exact Or.inl (e.st_gone a)
  · exact Or.inr (by rw [(e.fixed p h.ge.pub).2.1]; exact a)

theorem AtP.root (h : CInv cfg w) {t0 : Nat} (ht : t0 ≤ w.now) (k : K) : AtP w t0 k w.mem.root := by
  rcases h.root with ⟨-, a, b, -⟩ | ⟨u, -, a, -⟩
  · exact ⟨World.ge_live a _, ht, Or.inr (by rw [b]; exact Bd.bot_le _)⟩
  · exact ⟨World.ge_gone a _, ht, Or.inl a⟩

/-- A page that is not marked, as of some time since `t0`. -/
structure Snap (cfg : Cfg K) (w : World K V) (t0 : Nat) (p : Ptr) (n : Node K V) (τ : Nat) : Prop where
  lo : t0 ≤ τ
  hi : τ ≤ w.now
  pg : PageOk cfg w.lvl w.lo p n (w.Ref τ p) (w.maps τ)
  st : w.st p = .live ∨ ∃ q u, w.st p = .stale τ q u

theorem CInv.snap (h : CInv cfg w) {t0 : Nat} (hg : w.Ge t0 p) (ht : t0 ≤ w.now) {n : Node K V} (hn : w.heap p = some n)
    (hr : n.removed = false) : ∃ τ, Snap cfg w t0 p n τ := by
  rcases World.pub_cases hg.pub with e | ⟨τ, q, u, e⟩ | ⟨τ, q, e⟩ | e
  · exact ⟨w.now, ht, le_refl _, (h.page e hn).congr rfl rfl (fun c hc => ⟨⟨World.ge_live hc _, fun g => absurd g (h.rep_live hc),
      fun _ g => absurd g (h.rep_live e)⟩, rfl, rfl⟩)
      (fun _ _ _ _ => rfl), Or.inl e⟩
  · obtain ⟨a, -, -, -, -, m, f, g⟩ := h.stale p τ q u e
    rw [hn] at f; cases f
    unfold World.Ge at hg
    rw [e] at hg
    exact ⟨τ, hg, a, g, Or.inr ⟨q, u, e⟩⟩
  · obtain ⟨-, -, -, -, m, f, g, -⟩ := h.merged p τ q e
    rw [hn] at f; cases f
    rw [hr] at g; cases g
  · obtain ⟨-, m, f, g, -⟩ := h.gone p e
    rw [hn] at f; cases f
    rw [hr] at g; cases g

theorem World.ge_le {a b : Nat} (h : w.Ge b p) (hab : a ≤ b) : w.Ge a p := by
  unfold World.Ge at h ⊢
  cases e : w.st p <;> rw [e] at h <;> simp only at h ⊢ <;> omega

/-- The page behind a marked page. -/
theorem CInv.fwd (h : CInv cfg w) {t0 : Nat} (hg : w.Ge t0 p) {n : Node K V} (hn : w.heap p = some n)
    (hr : n.removed = true) : (∃ q, n.next = some q ∧ w.Ge t0 q ∧ w.lvl q = w.lvl p ∧ w.lo q ≤ w.lo p ∧ w.rep q = w.rep p ∧
      w.st p ≠ .gone) ∨ (w.st p = .gone ∧ n.next = none ∧ w.lvl p ≠ 0) := by
  rcases World.pub_cases hg.pub with e | ⟨τ, q, u, e⟩ | ⟨τ, q, e⟩ | e
  · have := (h.page e hn).ok.notRemoved
    rw [hr] at this; cases this
  · obtain ⟨-, -, -, -, -, m, f, g⟩ := h.stale p τ q u e
    rw [hn] at f; cases f
    have := g.ok.notRemoved
    rw [hr] at this; cases this
  · obtain ⟨-, b, c, d, m, f, -, g, -⟩ := h.merged p τ q e
    rw [hn] at f; cases f
    unfold World.Ge at hg
    rw [e] at hg
    exact Or.inl ⟨q, g, World.ge_le b hg, c, le_of_lt d, (h.repMerged p τ q e).symm, by rw [e]; simp⟩
  · obtain ⟨a, m, f, -, g, -⟩ := h.gone p e
    rw [hn] at f; cases f
    exact Or.inr ⟨e, g, a⟩

/-- The right sibling of an unmarked page, when the key is not in the page's range. -/
theorem Snap.sibling {t0 τ : Nat} {n : Node K V} (h : Snap cfg w t0 p n τ) (hl : Linked cfg (w.lvl p)) {k : K} (hk : n.compHighKey k ≠ true) :
    ∃ q, n.next = some q ∧ w.Ge t0 q ∧ w.lvl q = w.lvl p ∧ w.lo q ≤ .key k ∧ (w.Gone q → w.Gone p) := by
  rw [Ne, compHigh_iff, not_lt] at hk
  rcases h.pg.nextB hl with ⟨a, -⟩ | ⟨x, q, a, b, c, d, e⟩
  · rw [a] at hk
    exact absurd hk (not_le.2 (Bd.key_lt_top k))
  · rw [a] at hk
    exact ⟨q, b, World.ge_le c.1 h.lo, d, by rw [e]; exact hk, c.2.1⟩

/-- The same, with the fate of both pages. -/
theorem Snap.sibling' {t0 τ : Nat} {n : Node K V} (h : Snap cfg w t0 p n τ) (hl : Linked cfg (w.lvl p)) {k : K} (hk : n.compHighKey k ≠ true) :
    ∃ q, n.next = some q ∧ w.Ge t0 q ∧ w.lvl q = w.lvl p ∧ w.lo q ≤ .key k ∧ (w.Gone q ↔ w.Gone p) := by
  rw [Ne, compHigh_iff, not_lt] at hk
  rcases h.pg.nextB hl with ⟨a, -⟩ | ⟨x, q, a, b, c, d, e⟩
  · rw [a] at hk
    exact absurd hk (not_le.2 (Bd.key_lt_top k))
  · rw [a] at hk
    exact ⟨q, b, World.ge_le c.1 h.lo, d, by rw [e]; exact hk, c.2.1, c.2.2 d⟩

/-- The child of an unmarked inner page. -/
theorem Snap.child {t0 τ : Nat} {n : Node K V} (h : Snap cfg w t0 p n τ) {k : K} (hlo : w.lo p ≤ .key k)
    (hk : n.compHighKey k = true) {i : Nat} (hi : w.lvl p = i + 1) :
    ∃ rc pos c, n.searchRecord k = .ok (rc, pos) ∧ n.getChild pos = .ok c ∧ w.Ge t0 c ∧ w.lvl c = i ∧ w.lo c ≤ .key k ∧
      (w.Gone c → w.Gone p) := by
  have hok := h.pg.ok
  rw [decide_eq_true (by omega)] at hok
  obtain ⟨T, r, D, rc, c, h1, h2, h3, h4, -, -, h6, -⟩ := hok.search_inner k (Bd.gtKey_iff'.2 (compHigh_iff.1 hk))
  have hc : r.toPtr = c := by cases r; simp at h3; subst h3; rfl
  have hmem : ∃ b, b ≤ .key k ∧ (b, c) ∈ kidsOf (w.lo p) (slots n.recs n.high) := by
    rw [h1, slots_append, kidsOf_append, slots_cons]
    by_cases hT : T = []
    · subst hT
      refine ⟨w.lo p, hlo, ?_⟩
      simp [kidsOf, kidEnd, hc]
    · obtain ⟨a, ha, hak⟩ := h6 hT
      refine ⟨.key a, Bd.key_le_key.2 hak, ?_⟩
      rw [kidEnd_slots _ _ hT]
      simp [kidsOf, hc, hdKey, ha]
  obtain ⟨b, hb, hm⟩ := hmem
  obtain ⟨a1, a2, a3⟩ := h.pg.kids i hi b c hm
  exact ⟨rc, _, c, h2, h4, World.ge_le a1.1 h.lo, a2, by rw [a3]; exact hb, a1.2.1⟩

/-! ## Stacks -/

/-- The pages of a path, bottom up from level `i`: each one, or the page it has been merged into, is not right of `σ`,
unless the levels from there on have been removed from the tree. -/
def StackOk (w : World K V) (σ : Bd K) : Nat → List Ptr → Prop
  | _, [] => True
  | i, q :: s => w.Pub q ∧ (w.Gone q ∨ (w.lvl q = i ∧ w.lo (w.rep q) ≤ σ)) ∧ (w.Gone q → ∀ b ∈ s, w.Gone b) ∧ StackOk w σ (i + 1) s

theorem StackOk.mem {σ : Bd K} {i : Nat} {s : List Ptr} (h : StackOk w σ i s) {b : Ptr} (hb : b ∈ s) :
    w.Pub b ∧ (w.Gone b ∨ i ≤ w.lvl b) := by
  induction s generalizing i with
  | nil => cases hb
  | cons q s ih =>
    obtain ⟨h1, h2, -, h4⟩ := h
    rcases List.mem_cons.1 hb with rfl | hb
    · exact ⟨h1, h2.imp id (fun e => e.1.ge)⟩
    · obtain ⟨a, c⟩ := ih h4 hb
      exact ⟨a, c.imp id (fun e => by omega)⟩

theorem StackOk.ext {σ : Bd K} {i : Nat} {s : List Ptr} (h : StackOk w σ i s) (e : Ext w w') : StackOk w' σ i s := by
  induction s generalizing i with
  | nil => trivial
  | cons q s ih =>
    obtain ⟨h1, h2, h3, h4⟩ := h
    refine ⟨e.pub h1, ?_, ?_, ih h4⟩
    · rcases h2 with h2 | ⟨a, b⟩
      · exact Or.inl (e.gone_of h1 h2)
      · exact Or.inr ⟨by rw [(e.fixed q h1).1]; exact a, le_trans (e.rep q h1).2 b⟩
    · intro hg b hb
      obtain ⟨m1, m2⟩ := h4.mem hb
      by_cases hq : w.Gone q
      · exact e.gone_of m1 (h3 hq b hb)
      · rcases m2 with m2 | m2
        · exact e.gone_of m1 m2
        · rcases h2 with h2 | ⟨a, -⟩
          · exact absurd h2 hq
          · exact e.gone q b h1 m1 (by omega) hq hg

theorem StackOk.gone {σ : Bd K} {i : Nat} {s : List Ptr} (h : ∀ b ∈ s, w.Pub b ∧ w.Gone b) : StackOk w σ i s := by
  induction s generalizing i with
  | nil => trivial
  | cons q s ih =>
    exact ⟨(h q (by simp)).1, Or.inl (h q (by simp)).2, fun _ b hb => (h b (by simp [hb])).2, ih (fun b hb => h b (by simp [hb]))⟩

/-- The head of a stack is replaced by another page of its level. -/
theorem StackOk.swap {σ : Bd K} {i : Nat} {s : List Ptr} {q : Ptr} (h : StackOk w σ i (p :: s)) (hq : w.Pub q)
    (hl : w.lvl q = i) (hlo : w.lo (w.rep q) ≤ σ) (hg : w.Gone q → w.Gone p) : StackOk w σ i (q :: s) :=
  ⟨hq, Or.inr ⟨hl, hlo⟩, fun e => h.2.2.1 (hg e), h.2.2.2⟩

theorem StackOk.push {σ : Bd K} {i : Nat} {s : List Ptr} {q : Ptr} (h : StackOk w σ (i + 1) (p :: s)) (hq : w.Pub q)
    (hl : w.lvl q = i) (hlo : w.lo (w.rep q) ≤ σ) (hg : w.Gone q → w.Gone p) : StackOk w σ i (q :: p :: s) :=
  ⟨hq, Or.inr ⟨hl, hlo⟩, fun e b hb => by
    rcases List.mem_cons.1 hb with rfl | hb
    · exact hg e
    · exact h.2.2.1 (hg e) b hb, h⟩

theorem AtP.low_rep {t0 : Nat} {k : K} (h : AtP w t0 k p) (hI : CInv cfg w) : w.Gone p ∨ w.lo (w.rep p) ≤ .key k := by
  rcases h.low with a | a
  · left
    unfold World.Gone
    rw [hI.repSelf p (Or.inr a)]; exact a
  · exact Or.inr (le_trans (hI.rep p h.ge.pub).2.2 a)

/-- A search starts at the root. -/
theorem StackOk.start (hI : CInv cfg w) (k : K) {s : List Ptr} (hs : ∀ b ∈ s, w.Pub b ∧ w.Gone b) :
    StackOk w (.key k) (w.lvl w.mem.root) (w.mem.root :: s) := by
  have h := AtP.root hI (le_refl _) k
  refine ⟨h.ge.pub, ?_, fun _ b hb => (hs b hb).2, StackOk.gone hs⟩
  rcases h.low_rep hI with a | a
  · exact Or.inl a
  · exact Or.inr ⟨rfl, a⟩

theorem CInv.root_lvl (hI : CInv cfg w) {r : Ptr} (hr : w.st r = .live) : w.lvl r ≤ w.lvl w.mem.root := by
  have := hI.lvle r hr
  rcases hI.root with ⟨-, -, -, a⟩ | ⟨u, -, -, a⟩ <;> omega

/-! ## The contract -/

/-- Thread `t` keeps page `r` in the tree: it owns the page, or is about to link it to the level above. -/
def Held (w : World K V) (t : Tid) (r : Ptr) : Prop := w.pend r = some t ∨ (w.Own t r ∧ w.st r = .live)

theorem Held.live (hI : CInv cfg w) {r : Ptr} (h : Held w t r) : w.st r = .live := by
  rcases h with h | h
  · exact (hI.pend r t h).1
  · exact h.2

theorem Held.kp {r : Ptr} (h : Held w t r) (e : Kp t noE w w') : Held w' t r := by
  rcases h with h | ⟨h, h'⟩
  · exact Or.inl ((e.pend r).2 h)
  · exact Or.inr ⟨(e.own_iff (fun e => e)).2 h, (e.own r (fun e => e) h).2.trans h'⟩

/-- When there is one writer at a time, thread `t` owns no page of level `i`. -/
def World.Off (w : World K V) (t : Tid) (i : Nat) : Prop := w.solo = true → ∀ q, w.Pub q → w.lvl q = i → ¬ w.Own t q

theorem World.Off.kp {i : Nat} (h : w.Off t i) (hI : CInv cfg w) (k : Kp t noE w w') : w'.Off t i := by
  intro hs q hq hl ho
  have ho1 := (k.own_iff (fun e => e)).1 ho
  by_cases hp : w.Pub q
  · exact h (k.wr.1.symm.trans hs) q hp ((k.ext.fixed q hp).1.symm.trans hl) ho1
  · exact World.not_pub_priv (k.priv q (fun e => e) (hI.lkn q t hp (Or.inl ho1))).1 hq

/-- When there is one writer at a time, thread `t` owns no page. -/
def World.Bare (w : World K V) (t : Tid) : Prop := w.solo = true → ∀ q, ¬ w.Own t q

/-- When there is one writer at a time, thread `t` owns no page but `p`. -/
def World.Only (w : World K V) (t : Tid) (p : Ptr) : Prop := w.solo = true → ∀ q, w.Own t q → q = p

theorem Kp.ownLe {E : Ptr → Prop} (k : Kp t E w w') : ∀ q, ¬ E q → w'.Own t q → w.Own t q := fun _ he h => (k.own_iff he).1 h

theorem World.Bare.of (h : w.solo = false) : w.Bare t := fun hs => by rw [h] at hs; cases hs
theorem World.Bare.kp (h : w.Bare t) (k : Kp t noE w w') : w'.Bare t := fun hs q ho =>
  h (k.wr.1.symm.trans hs) q (k.ownLe q (fun e => e) ho)
theorem World.Bare.off {i : Nat} (h : w.Bare t) : w.Off t i := fun hs q _ _ => h hs q
theorem World.Bare.only (h : w.Bare t) (k : Kp t (· = p) w w') : w'.Only t p := fun hs q ho => by
  by_contra e
  exact h (k.wr.1.symm.trans hs) q (k.ownLe q e ho)
theorem World.Only.kp {E : Ptr → Prop} (h : w.Only t p) (k : Kp t E w w') (he : ∀ q, E q → q = p) : w'.Only t p := fun hs q ho => by
  by_contra e
  exact e (h (k.wr.1.symm.trans hs) q (k.ownLe q (fun x => e (he q x)) ho))

/-- Pages that the only writer has not written do not go away. -/
theorem Ext.not_gone (e : Ext w w') (hI : CInv cfg w) (hI' : CInv cfg w') (hs : w'.solo = true) (hw : w'.Wr t) (hns : w'.NoStale t)
    (hp : w.Pub p) (hc : w'.heap (w.rep p) = w.heap (w.rep p)) (hg : ¬ w.Gone p) : ¬ w'.Gone p := by
  intro hg'
  obtain ⟨a, b, -⟩ := hI.rep p hp
  have hl : w.st (w.rep p) = .live := a.resolve_right hg
  have hpr := World.pub_live hl
  obtain ⟨n, hn, pn⟩ := hI.live _ hl
  have hn' := hc.trans hn
  have hg2 := e.gone p (w.rep p) hp hpr (le_of_eq b.symm) hg hg'
  rcases World.pub_cases (e.pub hpr) with e | ⟨τ, q, u, e⟩ | ⟨τ, q, e⟩ | e
  · exact hI'.rep_live e hg2
  · have h1 := ((hI'.solo hs).2.2 _ τ q u e).1
    have h2 := hw hs
    rw [h1] at h2
    cases h2
    exact hns.1 _ τ q e
  · obtain ⟨-, -, -, -, m, f, g, -⟩ := hI'.merged _ τ q e
    rw [hn'] at f; cases f
    rw [pn.ok.notRemoved] at g; cases g
  · obtain ⟨-, m, f, g, -⟩ := hI'.gone _ e
    rw [hn'] at f; cases f
    rw [pn.ok.notRemoved] at g; cases g

theorem Kp.not_gone (k : Kp t noE w w') (hI : CInv cfg w) (hI' : CInv cfg w') (hs : w.solo = true) (hw : w.Wr t) (hns : w.NoStale t)
    (hp : w.Pub p) (hg : ¬ w.Gone p) : ¬ w'.Gone p :=
  k.ext.not_gone hI hI' (k.wr.1.trans hs) (k.wr.2 hw) (k.noStaleT hns) hp (k.calm hs hw _ (fun e => e) (by
    rcases (hI.rep p hp).1 with e | e
    · exact World.pub_live e
    · exact absurd e hg)) hg

/-- A path of the only writer: its pages are in the tree, and a path without pages starts at the highest level. -/
def Up (w : World K V) (s : List Ptr) (p : Ptr) : Prop :=
  w.solo = true → (∀ b ∈ s, w.Pub b ∧ ¬ w.Gone b) ∧ (s = [] → w.lvl p = w.lvl w.mem.root)

theorem CInv.root_pub (hI : CInv cfg w) : w.Pub w.mem.root := by
  rcases hI.root with ⟨-, a, -⟩ | ⟨u, -, a, -⟩
  · exact World.pub_live a
  · unfold World.Pub; rw [a]; trivial

theorem Up.kp {E : Ptr → Prop} {s : List Ptr} (h : Up w s p) (k : Kp t E w w') (hI : CInv cfg w) (hI' : CInv cfg w') (hw : w.Wr t) (hns : w.NoStale t)
    (hp : w.Pub p) (hE : w.solo = true → ∀ b ∈ s, E (w.rep b) → w'.heap (w.rep b) = w.heap (w.rep b)) : Up w' s p := by
  intro hs'
  have hs := k.wr.1.symm.trans hs'
  obtain ⟨a, b⟩ := h hs
  refine ⟨fun c hc => ⟨k.ext.pub (a c hc).1, ?_⟩, fun e => ?_⟩
  · refine k.ext.not_gone hI hI' hs' (k.wr.2 hw) (k.noStaleT hns) (a c hc).1 ?_ (a c hc).2
    by_cases e : E (w.rep c)
    · exact hE hs c hc e
    · refine k.calm hs hw _ e ?_
      rcases (hI.rep c (a c hc).1).1 with e | e
      · exact World.pub_live e
      · exact absurd e (a c hc).2
  · rw [k.rt hs hw, (k.ext.fixed p hp).1, (k.ext.fixed _ hI.root_pub).1]
    exact b e

theorem Up.kp0 {s : List Ptr} (h : Up w s p) (k : Kp t noE w w') (hI : CInv cfg w) (hI' : CInv cfg w') (hw : w.Wr t) (hns : w.NoStale t)
    (hp : w.Pub p) : Up w' s p := h.kp k hI hI' hw hns hp (fun _ _ _ e => e.elim)

/-- A page without mark is in the tree for the only writer. -/
theorem CInv.not_gone (hI : CInv cfg w) (hs : w.solo = true) (hw : w.Wr t) (hns : w.NoStale t) {n : Node K V} (hp : w.Pub p)
    (hn : w.heap p = some n) (hr : n.removed = false) : ¬ w.Gone p := by
  rcases World.pub_cases hp with e | ⟨τ, q, u, e⟩ | ⟨τ, q, e⟩ | e
  · exact hI.rep_live e
  · have h1 := ((hI.solo hs).2.2 _ τ q u e).1
    rw [hw hs] at h1
    cases h1
    exact absurd e (hns.1 _ τ q)
  · obtain ⟨-, -, -, -, m, f, g, -⟩ := hI.merged _ τ q e
    rw [hn] at f; cases f
    rw [hr] at g; cases g
  · obtain ⟨-, m, f, g, -⟩ := hI.gone _ e
    rw [hn] at f; cases f
    rw [hr] at g; cases g

def checkWPost (cfg : Cfg K) (t : Tid) (w : World K V) (k : K) (p : Ptr) : Option Ptr → World K V → Prop
  | none, w' => CInv cfg w' ∧ Kp t noE w w' ∧ w'.Gone p ∧ w.lvl p ≠ 0
  | some q, w' => CInv cfg w' ∧ Kp t (· = q) w w' ∧ ¬ w.Own t q ∧ w.st q ≠ .priv t ∧ (w'.lk q).six = some t ∧ w'.st q = .live ∧
      w'.lvl q = w.lvl p ∧ ¬ w.Gone p ∧ w'.lo q ≤ .key k ∧ (∃ n, w'.heap q = some n ∧ .key k < hiB n.high) ∧
      (w.solo = true → w.Wr t → w.Pub q → w'.heap q = w.heap q)

structure NavOk (cfg : Cfg K) (nav : CBlink.Nav K V) : Prop where
  checkW : ∀ t k f p w, CInv cfg w → w.Pub p → w.NoStale t → (w.Gone p ∨ w.lo (w.rep p) ≤ .key k) → w.Off t (w.lvl p) →
    WP cfg t (nav.checkW k f p) (checkWPost cfg t w k p) w
  searchParent : ∀ t k r f s w, CInv cfg w → Held w t r → w.lo r = .key k →
    StackOk w (.key k) (w.lvl w.mem.root) (w.mem.root :: s) →
    WP cfg t (nav.searchParent k r f s w.mem.root)
      (fun s' w' => CInv cfg w' ∧ Kp t noE w w' ∧ StackOk w' (.key k) (w'.lvl r + 1) s') w

end BT
