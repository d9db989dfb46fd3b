import Verif.PmlAct

/-!
# Allocating and writing pages, and the instants at which PML's tree changes
-/

set_option linter.unusedSectionVars false

namespace BT.PL
open Spec
variable {K V : Type} [LinearOrder K] {cfg : Cfg K} {t : Tid} {w w1 w2 w' : World K V} {α : Type}
  {S I X O S' I' X' O' : List Ptr} {p : Ptr} {Q : α → World K V → Prop}

/-- Nothing changes but pages of thread `t`. -/
abbrev KpO (cfg : Cfg K) (t : Tid) (w w2 : World K V) : Prop := Kp cfg t (fun q => w.own q = some t) w w2

theorem TS.not_own (ht : TS w t S I X O) (hp : p ∈ S ++ I ++ X ++ O) (hO : p ∉ O) : w.own p ≠ some t :=
  fun e => hO ((ht.own p (ht.live p hp)).1 e)
theorem KpO.keep (h : KpO cfg t w w2) (ht : TS w t S I X O) (hp : p ∈ S ++ I ++ X ++ O) (hO : p ∉ O) : Keep cfg w w2 p :=
  Kp.keep h p (ht.mine hp) (ht.not_own hp hO)

theorem step_page {β : Type} {a : Act K V β} {k : β → Prog K V α} {b : β}
    (hrun : a.run t w1.mem = .run (b, w2.mem)) (hpg : ∀ q, a.page = some q → q ∉ w1.mem.gc)
    (hok : PInv cfg w2 ∧ ∀ u, u ≠ t → Rely cfg u w1 w2) (hpast : ∀ {m0 : Map K V} h, Past parts m0 w1.ps h → Past parts m0 w2.ps h)
    (hk : WP cfg t (k b) Q w2) :
    a.run t w1.mem ≠ .ub ∧ (∀ q, a.page = some q → q ∉ w1.mem.gc) ∧ (a.run t w1.mem = .wait → (lg cfg).Wait t w1 a) ∧
      ∀ b m, a.run t w1.mem = .run (b, m) →
        (m.raced = true ∧ (lg cfg).Race t w1 a) ∨ ∃ w2, (lg cfg).mem w2 = m ∧ (lg cfg).Ok t w1 w2 ∧ (lg cfg).wp t (k b) Q w2 := by
  rw [hrun]
  refine ⟨by simp, hpg, by simp, ?_⟩
  intro b m e
  cases e
  exact Or.inr ⟨w2, rfl, ⟨hok.1, hok.2, hpast, trivial⟩, hk⟩

/-! ## A new page -/

/-- The world after an allocation. -/
def World.new (w : World K V) (t : Tid) (n : Node K V) : World K V :=
  { w with mem := { w.mem.setHeap w.mem.fresh n with fresh := w.mem.fresh + 1 }, own := Spec.upd w.own w.mem.fresh (some t) }

theorem WF.more {s : St K V} {H : Nat} {gr : Nat → List Grp} (h : WF cfg s H gr) {f : Nat} (hf : s.fresh ≤ f) :
    WF cfg ⟨s.heap, f, s.root⟩ H gr :=
  ⟨h.top, h.chain, h.kid, h.disj, h.alloc, fun p hp => lt_of_lt_of_le (h.fresh p hp) hf⟩

theorem new_heap (w : World K V) (t : Tid) (n : Node K V) (q : Ptr) :
    (w.new t n).mem.heap q = if q = w.mem.fresh then some n else w.mem.heap q := rfl
theorem new_own (w : World K V) (t : Tid) (n : Node K V) (q : Ptr) :
    (w.new t n).own q = if q = w.mem.fresh then some t else w.own q := rfl

theorem new_ok (hi : PInv cfg w) (n : Node K V) : PInv cfg (w.new t n) ∧ ∀ u, u ≠ t → Rely cfg u w (w.new t n) := by
  have hc := hi.cells_none (Nat.le_refl w.mem.fresh)
  have hf := hi.fresh w.mem.fresh (Nat.le_refl _)
  refine ⟨⟨⟨WF.more hi.good.wf (Nat.le_succ _), hi.good.np⟩, ⟨hi.zero.1, Nat.succ_pos _⟩, hi.map, hi.raced, hi.lkx, hi.nodup,
    ?_, ?_, ?_, ?_, ?_, ?_⟩, ?_⟩
  · intro q
    rw [new_heap, new_own]
    by_cases e : q = w.mem.fresh
    · rw [if_pos e]; intro h; cases h
    · rw [if_neg e, if_neg e]; exact hi.clean q
  · intro q u
    rw [new_heap, new_own]
    by_cases e : q = w.mem.fresh
    · rw [if_pos e, if_pos e, e]
      intro h
      refine ⟨by simp, hf.2.1, Or.inl hf.2.2.1, Or.inl hf.2.2.2⟩
    · rw [if_neg e, if_neg e]; exact hi.owned q u
  · intro q u
    rw [new_own]
    by_cases e : q = w.mem.fresh
    · rw [if_pos e, e]
      intro _ h
      exact absurd hc h
    · rw [if_neg e]
      exact hi.guard q u
  · intro q u
    rw [new_own]
    by_cases e : q = w.mem.fresh
    · intro h
      rw [e] at h
      have : (w.lk w.mem.fresh).x = some u := h
      rw [hf.2.2.2] at this; cases this
    · rw [if_neg e]; exact hi.xown q u
  · intro q hq
    refine ⟨(hi.gc q hq).1, ?_⟩
    rw [new_own]
    split
    · simp
    · exact (hi.gc q hq).2
  · intro q hq
    have hlt : w.mem.fresh < q := hq
    rw [new_own, if_neg (by intro e; rw [e] at hlt; exact lt_irrefl _ hlt)]
    exact hi.fresh q hlt.le
  · intro u hu
    refine ⟨fun _ => Iff.rfl, fun _ => Iff.rfl, fun _ => Iff.rfl, ?_, ?_, fun _ h => h, rfl, Nat.le_refl _, fun _ _ => rfl, ?_⟩
    · intro q
      rw [new_own]
      by_cases e : q = w.mem.fresh
      · rw [if_pos e, e, hf.1]
        constructor
        · intro h; cases h; exact absurd rfl hu
        · intro h; cases h
      · rw [if_neg e]
    · intro q hq
      have hlt := hi.mine_lt hq
      exact ⟨by rw [new_heap, if_neg (Nat.ne_of_lt hlt)], rfl, id, fun _ => rfl, fun _ _ _ h1 h2 => ⟨h1, h2⟩⟩
    · rintro p ⟨q, h1, h2, h3⟩
      have hlt := hi.lt_fresh (hi.vis h2)
      exact ⟨⟨q, h1, h2, h3⟩, by rw [new_heap, if_neg (Nat.ne_of_lt hlt)], rfl, id, fun _ => rfl, fun _ _ _ h1 h2 => ⟨h1, h2⟩⟩

theorem wp_alloc {k : Ptr → Prog K V α} {n : Node K V} (hts : TS w t S I X O)
    (hk : ∀ w2 r, PInv cfg w2 → Kp0 cfg t w w2 → TS w2 t S I X (r :: O) → r ∉ S ++ I ++ X ++ O → r ≠ 0 → w2.mem.heap r = some n →
      w2.cells r = none → WP cfg t (k r) Q w2) : WP cfg t (Prog.alloc n >>= k) Q w := by
  intro (w1 : World K V) (hr : Rely cfg t w w1) (hi : PInv cfg w1)
  have hts1 := hts.rely hr
  have hok := new_ok (t := t) hi n
  have hlt : ∀ q, w1.Mine t q → q ≠ w1.mem.fresh := fun q hq => Nat.ne_of_lt (hi.mine_lt hq)
  have hf := hi.fresh w1.mem.fresh (Nat.le_refl _)
  refine step_page (w2 := w1.new t n) (by rfl) (by intro q e; cases e) hok (fun _ h => h) ?_
  refine hk _ _ hok.1 (hr.kp_trans ⟨?_, rfl, Nat.le_refl _⟩) ?_ ?_ ?_ ?_ (hi.cells_none (Nat.le_refl _))
  · intro q hq _
    exact ⟨by rw [new_heap, if_neg (hlt q hq)], rfl, id, fun _ => rfl, fun _ _ _ h1 h2 => ⟨h1, h2⟩⟩
  · refine ⟨hts1.s, hts1.six, hts1.x, ?_, ?_⟩
    · intro q hq
      rw [new_own]
      by_cases e : q = w1.mem.fresh
      · rw [if_pos e, e]; simp
      · rw [if_neg e, List.mem_cons]
        rw [hts1.own q hq]
        constructor
        · exact Or.inr
        · rintro (h | h)
          · exact absurd h e
          · exact h
    · intro q hq
      by_cases e : q = w1.mem.fresh
      · rw [e]
        intro h
        exact (hi.gc _ h).2 hf.1
      · refine hts1.live q ?_
        simp only [List.mem_append, List.mem_cons] at hq ⊢
        tauto
  · intro h
    exact hlt _ (hts1.mine h) rfl
  · exact (Nat.ne_of_gt hi.zero.2)
  · rw [new_heap, if_pos rfl]

/-! ## Writing a page -/

theorem wp_store {k : Unit → Prog K V α} {n : Node K V} (hts : TS w t S I X O) (hp : p ∈ X)
    (h : ∀ w1, PInv cfg w1 → Rely cfg t w w1 → TS w1 t S I X O → ∃ w2, w2.mem = w1.mem.setHeap p n ∧ Cm cfg t w1 w2 ∧
      (∀ {m0 : Map K V} h, Past parts m0 w1.ps h → Past parts m0 w2.ps h) ∧ (PInv cfg w2 → WP cfg t (k ()) Q w2)) : WP cfg t (Prog.store p n >>= k) Q w := by
  intro (w1 : World K V) (hr : Rely cfg t w w1) (hi : PInv cfg w1)
  have hts1 := hts.rely hr
  have hg := hts1.live p (by simp [hp])
  have hx : (w1.mem.lk p).x = some t := (hts1.x p hg).2 hp
  obtain ⟨m, hm⟩ := Option.ne_none_iff_exists'.1 (hi.owned p t (hi.xown p t hx)).1
  obtain ⟨w2, h1, h2, h3, h4⟩ := h w1 hi hr hts1
  have hok := h2.ok hi
  refine step_page (w2 := w2) ?_ ?_ hok h3 (h4 hok.1)
  · simp only [Act.run, hm, hx, if_true, h1]
  · intro q e; cases e; exact hg

theorem setHeap_heap (m : Mem K V) (p : Ptr) (n : Node K V) (q : Ptr) : (m.setHeap p n).heap q = if q = p then some n else m.heap q := rfl

/-- Writing a page without any effect on the tree. -/
theorem wp_store_plain {k : Unit → Prog K V α} {n : Node K V} (hts : TS w t S I X O) (hp : p ∈ X)
    (hk : ∀ w2, PInv cfg w2 → Kp cfg t (· = p) w w2 → TS w2 t S I X O → w2.mem.heap p = some n → w2.cells p = w.cells p →
      (∀ i m lo, Pg cfg w i p m lo → Pg cfg w2 i p m lo) → (p = 0 → w2.H = w.H) → WP cfg t (k ()) Q w2) :
    WP cfg t (Prog.store p n >>= k) Q w := by
  refine wp_store hts hp ?_
  intro w1 hi hr hts1
  have hg := hts1.live p (by simp [hp])
  have hx : (w1.lk p).x = some t := (hts1.x p hg).2 hp
  have hown := hi.xown p t hx
  have hkp := hr.kp0.keep (hts.mine (p := p) (by simp [hp]))
  refine ⟨{ w1 with mem := w1.mem.setHeap p n }, rfl, ?_, fun _ h => h, ?_⟩
  · exact {
      good := hi.good
      zero := hi.zero.1
      map := hi.map
      raced := hi.raced
      lk := rfl
      fresh := rfl
      heap := fun q hq => by
        show (w1.mem.setHeap p n).heap q = _
        rw [setHeap_heap, if_neg]; rintro rfl; exact hq hown
      heap' := fun q hq => by
        have hq : (w1.mem.setHeap p n).heap q = none := hq
        rw [setHeap_heap] at hq
        split at hq
        · cases hq
        · exact hq
      own := fun q _ => ⟨rfl, rfl⟩
      own' := fun q hq => Or.inr hq
      clean := fun q h1 h2 => by
        have : w1.own q = none := h2
        rw [h1] at this; cases this
      guard := fun q h1 h2 h3 => hi.guard q t h1 h3
      xown := fun q hq => hi.xown q t hq
      gc := fun q hq => hq
      gc' := fun q hq => ⟨fun h => ⟨h, (hi.gc q hq).1⟩, fun _ => hq⟩
      at' := fun q i m lo _ h1 h2 => ⟨h1, h2⟩
      top := fun _ => rfl
      ph := fun _ _ => rfl
      now := Nat.le_refl _
      maps := fun _ _ => rfl }
  · intro hi2
    refine hk _ hi2 (hr.kp_trans ⟨?_, rfl, Nat.le_refl _⟩) ⟨hts1.s, hts1.six, hts1.x, hts1.own, hts1.live⟩ ?_ hkp.cells ?_ hkp.top
    · intro q _ hne
      exact ⟨by show (w1.mem.setHeap p n).heap q = _; rw [setHeap_heap, if_neg hne], rfl, id, fun _ => rfl,
        fun _ _ _ h1 h2 => ⟨h1, h2⟩⟩
    · show (w1.mem.setHeap p n).heap p = _
      rw [setHeap_heap, if_pos rfl]
    · intro i m lo hpg
      obtain ⟨h1, h2⟩ := hkp.pg hpg
      exact ⟨h1, h2⟩

/-- Writing a page of the tree with the same borders: the tree changes at once. -/
theorem wp_store_page {k : Unit → Prog K V α} {i : Nat} {n n' : Node K V} {lo : Bd K} {ps' : PState K V → PState K V}
    (hts : TS w t S I X O) (hp : p ∈ X) (hOX : ∀ q ∈ O, q ∈ X) (hpg : Pg cfg w i p n lo)
    (hok : NodeOk cfg (decide (i ≠ 0)) lo n') (hf : SameFrame n n') (hin : i ≠ 0 → slots n'.recs n'.high = slots n.recs n.high)
    (hps : ∀ w1, PInv cfg w1 → Rely cfg t w w1 →
      mapOf (contents { w1.st with heap := upd w1.vh p n' } w1.gr) = (ps' w1.ps).maps (ps' w1.ps).now ∧
      (∀ u, u ≠ t → (ps' w1.ps).ph u = w1.ps.ph u) ∧ w1.ps.now ≤ (ps' w1.ps).now ∧
      (∀ j, j ≤ w1.ps.now → (ps' w1.ps).maps j = w1.ps.maps j) ∧ ∀ {m0 : Map K V} h, Past parts m0 w1.ps h → Past parts m0 (ps' w1.ps) h)
    (hk : ∀ w1 w2, Rely cfg t w w1 → w2.ps = ps' w1.ps → PInv cfg w2 → (∀ q, w.Mine t q → q ≠ p → Keep cfg w w2 q) → TS w2 t S I X O →
      w2.mem.heap p = some n' → w2.cells p = some n' → Pg cfg w2 i p n' lo → WP cfg t (k ()) Q w2) :
    WP cfg t (Prog.store p n' >>= k) Q w := by
  refine wp_store hts hp ?_
  intro w1 hi hr hts1
  have hg := hts1.live p (by simp [hp])
  have hx : (w1.lk p).x = some t := (hts1.x p hg).2 hp
  have hown := hi.xown p t hx
  have hpg1 := hr.kp0.pg hts (p := p) (by simp [hp]) hpg
  obtain ⟨q1, q2, q3, q4, q5⟩ := hps w1 hi hr
  have hp0 := hi.at_ne hpg1.at'
  have w2wf := hi.good.wf.replacePage hpg1.le hpg1.at' hok hf.next hf.high (fun h => hin (by omega))
  have hhigh : ∀ q, highOf (upd w1.vh p n') q = highOf w1.vh q := fun q => highOf_upd hpg1.at'.heap hf.high q
  have hcells : ∀ q, q ≠ p → (if q = 0 then some (treePage w1.root) else upd w1.vh p n' q) = w1.cells q := by
    intro q hq
    unfold World.cells
    rw [upd_other _ hq]
  have hat : ∀ q j m lo, q ≠ p → j ≤ w1.H → At cfg w1.st w1.gr j q m lo →
      At cfg { w1.st with heap := upd w1.vh p n' } w1.gr j q m lo := by
    intro q j m lo hq hj h
    exact h.transfer w2wf hj rfl (fun q _ => hhigh q) (by dsimp only; rw [upd_other _ hq]; exact h.heap)
  refine ⟨{ w1 with mem := w1.mem.setHeap p n', vh := upd w1.vh p n', ps := ps' w1.ps }, rfl, ?_, q5, ?_⟩
  · exact {
      good := ⟨w2wf, hi.good.np⟩
      zero := by show upd w1.vh p n' 0 = none; rw [upd_other _ (Ne.symm hp0)]; exact hi.zero.1
      map := q1
      raced := hi.raced
      lk := rfl
      fresh := rfl
      heap := fun q hq => by
        show (w1.mem.setHeap p n').heap q = _
        rw [setHeap_heap, if_neg]; rintro rfl; exact hq hown
      heap' := fun q hq => by
        have hq : (w1.mem.setHeap p n').heap q = none := hq
        rw [setHeap_heap] at hq
        split at hq
        · cases hq
        · exact hq
      own := fun q hq => ⟨rfl, hcells q (by rintro rfl; exact hq hown)⟩
      own' := fun q hq => Or.inr hq
      clean := fun q h1 h2 => by
        have : w1.own q = none := h2
        rw [h1] at this; cases this
      guard := fun q h1 h2 h3 => by
        by_cases e : q ∈ w1.mem.gc
        · exfalso
          have hne : q ≠ p := by rintro rfl; exact hg e
          have h3 : (if q = 0 then some (treePage w1.root) else upd w1.vh p n' q) ≠ none := h3
          rw [hcells q hne] at h3
          exact h3 (hi.gc q e).1
        · exact Or.inl ((hts1.x q e).2 (hOX q ((hts1.own q e).1 h1)))
      xown := fun q hq => hi.xown q t hq
      gc := fun q hq => hq
      gc' := fun q hq => ⟨fun h => ⟨h, by
        have hne : q ≠ p := by rintro rfl; exact hg hq
        show (if q = 0 then some (treePage w1.root) else upd w1.vh p n' q) = none
        rw [hcells q hne]
        exact (hi.gc q hq).1⟩, fun _ => hq⟩
      at' := fun q i m lo h0 h1 h2 => ⟨h1, hat q i m lo (by rintro rfl; exact h0 hown) h1 h2⟩
      top := fun _ => rfl
      ph := q2
      now := q3
      maps := q4 }
  · intro hi2
    refine hk w1 _ hr rfl hi2 ?_ ⟨hts1.s, hts1.six, hts1.x, hts1.own, hts1.live⟩ ?_ ?_ ⟨hpg1.le, ?_⟩
    · intro q hm hne
      refine (hr.kp0.keep hm).trans ⟨?_, hcells q hne, id, fun _ => rfl, fun j m lo h1 h2 => ⟨h1, hat q j m lo hne h1 h2⟩⟩
      show (w1.mem.setHeap p n').heap q = _
      rw [setHeap_heap, if_neg hne]
    · show (w1.mem.setHeap p n').heap p = _
      rw [setHeap_heap, if_pos rfl]
    · show (if p = 0 then some (treePage w1.root) else upd w1.vh p n' p) = _
      rw [if_neg hp0, upd_same]
    · exact hpg1.at'.transfer w2wf hpg1.le rfl (fun q _ => hhigh q) (by simp)

/-- Writing an equivalent page. -/
theorem wp_store_same {k : Unit → Prog K V α} {i : Nat} {n n' : Node K V} {lo : Bd K}
    (hts : TS w t S I X O) (hp : p ∈ X) (hOX : ∀ q ∈ O, q ∈ X) (hpg : Pg cfg w i p n lo)
    (hok : NodeOk cfg (decide (i ≠ 0)) lo n') (hs : SamePage n n')
    (hk : ∀ w2, PInv cfg w2 → Kp cfg t (· = p) w w2 → TS w2 t S I X O →
      w2.mem.heap p = some n' → w2.cells p = some n' → Pg cfg w2 i p n' lo → WP cfg t (k ()) Q w2) :
    WP cfg t (Prog.store p n' >>= k) Q w := by
  refine wp_store_page (ps' := id) hts hp hOX hpg hok hs.frame ?_ ?_ ?_
  · intro h0
    refine hs.slots ?_
    rw [hpg.at'.ok.kind]
    simp [h0]
  · intro w1 hi hr
    have hpg1 := hr.kp0.pg hts (p := p) (by simp [hp]) hpg
    refine ⟨?_, fun _ _ => rfl, Nat.le_refl _, fun _ _ => rfl, fun _ h => h⟩
    rw [(hi.good.wf.samePage hpg1.le hpg1.at' hok hs).2.1]
    exact hi.map
  · intro w1 w2 hr e hi2 h1 h2 h3 h4 h5
    refine hk w2 hi2 ⟨fun q hq hne => h1 q hq hne, ?_, ?_⟩ h2 h3 h4 h5
    · rw [e]; exact hr.ph
    · rw [e]; exact hr.now

theorem set_self {M : Map K V} {k : K} : Spec.set M k (M k) = M := by
  funext x
  unfold Spec.set
  split
  · next h => rw [h]
  · rfl

/-- Writing a leaf: the call takes effect. -/
theorem wp_store_leaf {L : Nat} {kc : Unit → Prog K V α} {n n' : Node K V} {lo : Bd K} {k : K} {A B : List (K × V)} {C C' : Option V}
    {op : Op K V} {t0 : Nat} {out : Out K V}
    (hts : TS w t S I X O) (hp : p ∈ X) (hOX : ∀ q ∈ O, q ∈ X) (hpg : Pg cfg w 0 p n lo) (hlo : lo.leKey k) (hhi : (hiB n.high).gtKey k)
    (hroom : Room cfg L n) (ha : Around k (pairs n.recs) A C B) (ha' : Around k (pairs n'.recs) A C' B)
    (hok : NodeOk cfg false lo n') (hf : SameFrame n n') (hph : w.ps.ph t = .waiting op t0)
    (hst : ∀ M : Map K V, M k = C → Step M op out (Spec.set M k C'))
    (hk : ∀ w2, PInv cfg w2 → w2.ps.ph t = .done out → TS w2 t S I X O →
      w2.mem.heap p = some n' → w2.cells p = some n' → WP cfg t (kc ()) Q w2) :
    WP cfg t (Prog.store p n' >>= kc) Q w := by
  refine wp_store_page (i := 0)
    (ps' := fun s => ⟨s.now + 1, Spec.upd s.maps (s.now + 1) (Spec.set (s.maps s.now) k C'), Spec.upd s.ph t (.done out)⟩) hts hp hOX hpg
    hok hf (by simp) ?_ ?_
  · intro w1 hi hr
    have hpg1 := hr.kp0.pg hts (p := p) (by simp [hp]) hpg
    have rd : Ready cfg L w1.st w1.H w1.gr 0 k p n lo := ⟨hi.good, hpg1.le, hpg1.at', hlo, hhi, hroom⟩
    obtain ⟨-, h1, h2⟩ := rd.commit ha hok hf
    refine ⟨?_, ?_, Nat.le_succ _, ?_, ?_⟩
    · rw [h2 _ ha']
      dsimp only
      rw [show Spec.upd w1.ps.maps (w1.ps.now + 1) (Spec.set (w1.ps.maps w1.ps.now) k C') (w1.ps.now + 1)
        = Spec.set (w1.ps.maps w1.ps.now) k C' by simp [Spec.upd]]
      rw [hi.map]
    · intro u hu
      simp [Spec.upd, hu]
    · intro j hj
      have : j ≠ w1.ps.now + 1 := by omega
      simp [Spec.upd, this]
    · intro m0 h hp
      refine Past.effect hp (hr.ph.trans hph) (hst _ ?_)
      rw [← hi.map]
      exact h1
  · intro w1 w2 hr e hi2 h1 h2 h3 h4 h5
    refine hk w2 hi2 ?_ h2 h3 h4
    rw [e]
    simp [Spec.upd]

end BT.PL
