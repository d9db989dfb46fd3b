import Verif.ConcNav

/-!
# Node operations of the B-link trees under their locks
-/

set_option linter.unusedSectionVars false

namespace BT
open Spec
variable {K V : Type} [LinearOrder K] {cfg : Cfg K} {L : Nat} {w w' : World K V} {t : Tid} {p : Ptr}

/-! ## Pages in exclusive use -/

/-- Thread `t` holds the SIX lock of `p`, which is part of the tree and contains `n`. -/
structure Hold (w : World K V) (t : Tid) (p : Ptr) (n : Node K V) : Prop where
  six : (w.lk p).six = some t
  st : w.st p = .live
  heap : w.heap p = some n
  wr : w.Wr t

theorem Hold.own {n : Node K V} (h : Hold w t p n) : w.Own t p := Or.inl h.six
theorem Hold.pub {n : Node K V} (h : Hold w t p n) : w.Pub p := World.pub_live h.st
theorem Hold.kp {n : Node K V} {E : Ptr → Prop} (h : Hold w t p n) (e : Kp t E w w') (hp : ¬ E p) : Hold w' t p n := by
  obtain ⟨a, b⟩ := e.own p hp h.own
  exact ⟨(e.six p hp).2 h.six, b.trans h.st, a.trans h.heap, e.wr.2 h.wr⟩
theorem Hold.rely {n : Node K V} (h : Hold w t p n) (e : Rely t w w') : Hold w' t p n := h.kp e.kp (fun e => e)

/-- The same with the X lock. -/
structure HoldX (w : World K V) (t : Tid) (p : Ptr) (n : Node K V) : Prop where
  x : (w.lk p).x = some t
  st : w.st p = .live
  heap : w.heap p = some n
  wr : w.Wr t

theorem HoldX.own {n : Node K V} (h : HoldX w t p n) : w.Own t p := Or.inr h.x
theorem HoldX.pub {n : Node K V} (h : HoldX w t p n) : w.Pub p := World.pub_live h.st
theorem HoldX.kp {n : Node K V} {E : Ptr → Prop} (h : HoldX w t p n) (e : Kp t E w w') (hp : ¬ E p) : HoldX w' t p n := by
  obtain ⟨a, b⟩ := e.own p hp h.own
  exact ⟨(e.x p hp).2 h.x, b.trans h.st, a.trans h.heap, e.wr.2 h.wr⟩
theorem HoldX.rely {n : Node K V} (h : HoldX w t p n) (e : Rely t w w') : HoldX w' t p n := h.kp e.kp (fun e => e)

section rules
variable {α : Type} {k : Unit → Prog K V α} {Q : α → World K V → Prop} {n : Node K V}

theorem Hold.upgrade (h : Hold w t p n)
    (h' : ∀ w', Kp t (· = p) w w' → CInv cfg w' → HoldX w' t p n → WP cfg t (k ()) Q w') :
    WP cfg t (Prog.upgradeX p >>= k) Q w :=
  WP.upgradeX (Or.inl h.pub) h.six fun w1 k1 i1 _ x1 e1 e2 => h' w1 k1 i1 ⟨x1, e2.trans h.st, e1.trans h.heap, k1.wr.2 h.wr⟩

theorem HoldX.downgrade (h : HoldX w t p n)
    (h' : ∀ w', Kp t (· = p) w w' → CInv cfg w' → Hold w' t p n → WP cfg t (k ()) Q w') :
    WP cfg t (Prog.downgradeSIX p >>= k) Q w :=
  WP.downgradeSIX (Or.inl h.pub) h.x fun w1 k1 i1 _ x1 e1 e2 => h' w1 k1 i1 ⟨x1, e2.trans h.st, e1.trans h.heap, k1.wr.2 h.wr⟩

theorem HoldX.unlock (h : HoldX w t p n)
    (h' : ∀ w', Kp t (· = p) w w' → CInv cfg w' → ¬ w'.Own t p → (w'.solo = true → w'.heap p = some n) → WP cfg t (k ()) Q w') :
    WP cfg t (Prog.unlockX p >>= k) Q w :=
  WP.unlockX h.pub h.x (by intro _ _; rw [h.st]; simp) fun w1 k1 i1 rk o1 => h' w1 k1 i1 o1
    fun s => ((rk.2.2 (k1.wr.1.symm.trans s) h.wr).1 p h.pub).trans h.heap

theorem Hold.unlock (h : Hold w t p n)
    (h' : ∀ w', Kp t (· = p) w w' → CInv cfg w' → ¬ w'.Own t p → (w'.solo = true → w'.heap p = some n) → WP cfg t (k ()) Q w') :
    WP cfg t (Prog.unlockSIX p >>= k) Q w :=
  WP.unlockSIX h.pub h.six (by intro _ _; rw [h.st]; simp) fun w1 k1 i1 rk o1 => h' w1 k1 i1 o1
    fun s => ((rk.2.2 (k1.wr.1.symm.trans s) h.wr).1 p h.pub).trans h.heap

theorem HoldX.store {n' : Node K V} (h : HoldX w t p n)
    (h' : ∀ w1, Rely t w w1 → CInv cfg w1 → HoldX w1 t p n →
      ∃ w2 : World K V, w2.mem = w1.mem.setHeap p n' ∧ OkB cfg t w1 w2 ∧ WP cfg t (k ()) Q w2) :
    WP cfg t (Prog.store p n' >>= k) Q w :=
  WP.store h.x (fun _ => ⟨h.pub, by unfold World.Dead; rw [h.st]; exact id⟩) fun w1 r1 i1 _ _ _ => h' w1 r1 i1 (h.rely r1)

theorem Hold.load {k : Node K V → Prog K V α} (h : Hold w t p n)
    (h' : ∀ w', Rely t w w' → CInv cfg w' → Hold w' t p n → WP cfg t (k n) Q w') : WP cfg t (Prog.load p >>= k) Q w :=
  WP.load h.own h.heap fun w1 r1 i1 => h' w1 r1 i1 (h.rely r1)

theorem HoldX.load {k : Node K V → Prog K V α} (h : HoldX w t p n)
    (h' : ∀ w', Rely t w w' → CInv cfg w' → HoldX w' t p n → WP cfg t (k n) Q w') : WP cfg t (Prog.load p >>= k) Q w :=
  WP.load h.own h.heap fun w1 r1 i1 => h' w1 r1 i1 (h.rely r1)

theorem Hold.loadG {k : Node K V → Prog K V α} (h : Hold w t p n)
    (h' : ∀ w1, Rely t w w1 → CInv cfg w1 → Hold w1 t p n →
      ∃ w2 : World K V, w2.mem = w1.mem ∧ OkB cfg t w1 w2 ∧ WP cfg t (k n) Q w2) : WP cfg t (Prog.load p >>= k) Q w :=
  WP.loadG h.own h.heap fun w1 r1 i1 _ _ => h' w1 r1 i1 (h.rely r1)
end rules

/-! ## Steps that change one page -/

theorem specUpd_self {γ : Type} (f : Nat → γ) (t : Nat) : Spec.upd f t (f t) = f := by
  funext u
  by_cases h : u = t
  · subst h; rw [Spec.upd_same]
  · rw [Spec.upd_ne _ _ h]

theorem World.setPh_self (w : World K V) (t : Tid) : w.setPh t (w.ps.ph t) = w := by
  unfold World.setPh
  rw [specUpd_self]

/-- `w` with the call of thread `t` answered. -/
abbrev World.done (w : World K V) (t : Tid) (out : Out K V) : World K V := w.setPh t (.done out)

theorem kp_store {w2 : World K V} (he : Ext w w2) {x : PPhase K V} (hph : w2.ps.ph t = x) (hst : w2.st = w.st)
    (hpend : w2.pend = w.pend) (hshr : w2.shr = w.shr) (hlk : w2.lk = w.lk) (hheap : ∀ q, q ≠ p → w2.heap q = w.heap q)
    (hsolo : w2.solo = w.solo := by rfl) (hwr : w2.wr = w.wr := by rfl) (hroot : w2.mem.root = w.mem.root := by rfl) :
    Kp t (· = p) (w.setPh t x) w2 := by
  obtain ⟨e1, e2, e3, e4, e5, e6⟩ := he
  refine ⟨⟨e1, e2, e3, e4, e5, e6⟩, ?_, fun q τ c => by rw [hst]; rfl, fun q => by rw [hpend]; rfl, by rw [hshr]; rfl, fun q _ => by rw [hlk]; rfl,
    fun q _ => by rw [hlk]; rfl, fun q hq _ => ⟨hheap q hq, by rw [hst]; rfl⟩, fun q hq hs => ⟨by rw [hst]; exact hs, hheap q hq, by rw [hlk]; rfl⟩,
    fun _ _ q hq _ => hheap q hq, fun _ _ => hroot, hsolo, fun h => ?_⟩
  · rw [hph]
    exact (Spec.upd_same _ _ _).symm
  · have h : w.Wr t := h
    unfold World.Wr at h ⊢
    rwa [hsolo, hwr]

theorem kp_store' {w2 : World K V} (he : Ext w w2) (hph : w2.ps.ph t = w.ps.ph t) (hst : w2.st = w.st)
    (hpend : w2.pend = w.pend) (hshr : w2.shr = w.shr) (hlk : w2.lk = w.lk) (hheap : ∀ q, q ≠ p → w2.heap q = w.heap q)
    (hsolo : w2.solo = w.solo := by rfl) (hwr : w2.wr = w.wr := by rfl) (hroot : w2.mem.root = w.mem.root := by rfl) :
    Kp t (· = p) w w2 := by
  have := kp_store he hph hst hpend hshr hlk hheap hsolo hwr hroot
  rwa [World.setPh_self] at this

theorem Kp.setPh {E : Ptr → Prop} (h : Kp t E w w') (x : PPhase K V) : Kp t E (w.setPh t x) (w'.setPh t x) := by
  obtain ⟨⟨e1, e2, e3, e4, e5, e6⟩, k2, k3, k4, k5, k6, k7, k8, k9, kc, kt, k10⟩ := h
  refine ⟨⟨e1, e2, e3, e4, e5, e6⟩, ?_, k3, k4, k5, k6, k7, k8, k9, kc, kt, k10⟩
  exact (Spec.upd_same _ _ _).trans (Spec.upd_same _ _ _).symm

/-- The page keeps its contents. -/
theorem PageOk.same {lvl : Ptr → Nat} {lo : Ptr → Bd K} {n n' : Node K V} {R : Ptr → Prop} {m : Map K V}
    (h : PageOk cfg lvl lo p n R m) (hs : SamePage n n') (hok : NodeOk cfg (decide (lvl p ≠ 0)) (lo p) n') :
    PageOk cfg lvl lo p n' R m where
  ok := hok
  next := by rw [hs.frame.high, hs.frame.next]; exact h.next
  kids i hi := by
    rw [hs.frame.high, hs.recs (by rw [h.ok.kind, hi]; simp)]
    exact h.kids i hi
  agree h0 := by
    have := h.agree h0
    unfold Agrees at this ⊢
    rw [hs.frame.high, hs.pairs]
    exact this

theorem CInv.pend_same (hI : CInv cfg w) {n n' : Node K V} (hn : w.heap p = some n) (hs : SamePage n n') (hl : w.st p = .live) :
    ∀ r u, w.pend r = some u → w.st r = .live ∧ (∃ σ, w.lo r = .key σ) ∧
      ∀ q m b, w.st q = .live → (w.mem.setHeap p n').heap q = some m → w.lvl q ≠ 0 →
        (b, r) ∉ kidsOf (w.lo q) (slots m.recs m.high) := by
  intro r u hr
  obtain ⟨a, b, c⟩ := hI.pend r u hr
  refine ⟨a, b, fun q m bb hq hm h0 => ?_⟩
  by_cases e : q = p
  · subst e
    rw [setHeap_same] at hm; cases hm
    rw [hs.frame.high, hs.recs (by rw [(hI.page hl hn).ok.kind]; simp [h0])]
    exact c q n bb hq hn h0
  · exact c q m bb hq ((setHeap_ne _ _ e).symm.trans hm) h0

/-- Pages that are leaves. -/
theorem CInv.pend_leaf (hI : CInv cfg w) {n' : Node K V} (h0 : w.lvl p = 0) :
    ∀ r u, w.pend r = some u → w.st r = .live ∧ (∃ σ, w.lo r = .key σ) ∧
      ∀ q m b, w.st q = .live → (w.mem.setHeap p n').heap q = some m → w.lvl q ≠ 0 →
        (b, r) ∉ kidsOf (w.lo q) (slots m.recs m.high) := by
  intro r u hr
  obtain ⟨a, b, c⟩ := hI.pend r u hr
  refine ⟨a, b, fun q m bb hq hm hne => ?_⟩
  have e : q ≠ p := by rintro rfl; exact hne h0
  exact c q m bb hq ((setHeap_ne _ _ e).symm.trans hm) hne

theorem ok_same (hI : CInv cfg w) {n n' : Node K V} (h : HoldX w t p n) (hs : SamePage n n')
    (hok : NodeOk cfg (decide (w.lvl p ≠ 0)) (w.lo p) n') :
    OkB cfg t w { w with mem := w.mem.setHeap p n' } ∧ Kp t (· = p) w { w with mem := w.mem.setHeap p n' } := by
  have h1 := ok_page hI h.x h.st h.heap hs.frame.high w.pend w.ps (fun _ h => h) (le_refl _) (fun _ _ => rfl) (fun _ _ => rfl)
    (fun _ _ _ _ _ _ _ _ _ => rfl) ((hI.page h.st h.heap).same hs hok) (fun _ _ _ => Iff.rfl) (hI.pend_same h.heap hs h.st)
    h.wr (fun h0 b c hb => Or.inl (by rw [hs.frame.high, hs.recs (by rw [(hI.page h.st h.heap).ok.kind]; simp [h0])]; exact hb)) (fun _ e => Or.inl e)
  exact ⟨h1, kp_store' (OkB.ext h1) rfl rfl rfl rfl rfl (fun q hq => setHeap_ne _ _ hq)⟩

/-! ## Effects -/

theorem Around.mem_iff {l : List (K × V)} {k : K} {A B : List (K × V)} {C : Option V} (ha : Around k l A C B) (v : V) :
    (k, v) ∈ l ↔ C = some v := by
  rw [ha.eq]
  cases C with
  | none =>
    simp only [Option.map_none, Option.toList_none, List.append_nil, List.mem_append, reduceCtorEq, iff_false, not_or]
    exact ⟨fun e => lt_irrefl _ (ha.lo _ e), fun e => lt_irrefl _ (ha.hi _ e)⟩
  | some c =>
    simp only [Option.map_some, Option.toList_some, List.mem_append, List.mem_singleton, Prod.mk.injEq, true_and, Option.some.injEq]
    constructor
    · rintro ((e | e) | e)
      · exact absurd (ha.lo _ e) (lt_irrefl _)
      · exact e.symm
      · exact absurd (ha.hi _ e) (lt_irrefl _)
    · intro e; exact Or.inl (Or.inr e.symm)

theorem Around.agree {m : Map K V} {lo : Bd K} {n : Node K V} {k : K} {A B : List (K × V)} {C : Option V}
    (h : Agrees m lo n) (h1 : lo ≤ .key k) (h2 : .key k < hiB n.high) (ha : Around k (pairs n.recs) A C B) : m k = C := by
  have hm : ∀ v, m k = some v ↔ C = some v := fun v => (h k h1 h2 v).trans (ha.mem_iff v)
  cases C with
  | none =>
    cases hk : m k with
    | none => rfl
    | some v => exact absurd ((hm v).1 hk) (by simp)
  | some c => exact (hm c).2 rfl

/-- One entry changes. -/
theorem Around.agree_set {m : Map K V} {lo : Bd K} {n n' : Node K V} {k : K} {A B : List (K × V)} {C o : Option V}
    (h : Agrees m lo n) (hf : n'.high = n.high) (ha : Around k (pairs n.recs) A C B) (ha' : Around k (pairs n'.recs) A o B) :
    Agrees (Spec.set m k o) lo n' := by
  intro k' h1 h2 v
  rw [hf] at h2
  unfold Spec.set
  by_cases e : k' = k
  · subst e
    rw [if_pos rfl, ha'.mem_iff v]
  · rw [if_neg e, h k' h1 h2 v, ha.eq, ha'.eq]
    cases C <;> cases o <;> simp [e]

/-- A thread waits for the answer of `op`. -/
def World.Wait (w : World K V) (t : Tid) (op : Op K V) : Prop := ∃ t0, w.ps.ph t = .waiting op t0

theorem Kp.wait {E : Ptr → Prop} {op : Op K V} (h : Kp t E w w') (hw : w.Wait t op) : w'.Wait t op := by
  obtain ⟨t0, e⟩ := hw
  exact ⟨t0, h.ph.trans e⟩

/-- The call takes effect with a store into the leaf that covers the key. -/
theorem ok_effect (hI : CInv cfg w) {n n' : Node K V} (h : HoldX w t p n) (h0 : w.lvl p = 0) (hf : SameFrame n n')
    (hok : NodeOk cfg false (w.lo p) n') {k : K} (hlo : w.lo p ≤ .key k) (hhi : .key k < hiB n.high) {op : Op K V} (hw : w.Wait t op)
    {out : Out K V} {o : Option V} (hs : Step (w.maps w.now) op out (Spec.set (w.maps w.now) k o)) {A B : List (K × V)} {C : Option V}
    (ha : Around k (pairs n.recs) A C B) (ha' : Around k (pairs n'.recs) A o B) :
    ∃ w2 : World K V, w2.mem = w.mem.setHeap p n' ∧ OkB cfg t w w2 ∧ Kp t (· = p) (w.done t out) w2 ∧ HoldX w2 t p n' := by
  obtain ⟨t0, hw⟩ := hw
  set ps' : PState K V := ⟨w.ps.now + 1, Spec.upd w.ps.maps (w.ps.now + 1) (Spec.set (w.maps w.now) k o), Spec.upd w.ps.ph t (.done out)⟩
    with hps
  have hcur : ps'.maps ps'.now = Spec.set (w.maps w.now) k o := Spec.upd_same _ _ _
  have pg := hI.page h.st h.heap
  have h1 := ok_page (ps' := ps') hI h.x h.st h.heap hf.high w.pend (fun _ hp => Past.effect hp hw hs) (Nat.le_succ _)
    (fun i hi => Spec.upd_ne _ _ (by have : i ≤ w.ps.now := hi; omega)) (fun u hu => Spec.upd_ne _ _ hu) (by
      intro q m hq hl hq0 hm k' h1 h2
      rw [hcur]
      unfold Spec.set
      refine if_neg ?_
      rintro rfl
      exact hq (hI.same_page hl h.st (hq0.trans h0.symm) hm h.heap h1 h2 hlo hhi)) (by
      rw [hcur]
      refine ⟨by rw [h0]; exact hok, ?_, fun i hi => by omega, fun _ => ha.agree_set (pg.agree h0) hf.high ha'⟩
      rw [hf.high, hf.next]; exact pg.next) (fun _ _ _ => Iff.rfl) (hI.pend_leaf h0) h.wr
    (fun e => absurd h0 e) (fun _ e => Or.inl e)
  refine ⟨_, rfl, h1, ?_, h.x, h.st, setHeap_same _ _ _, h.wr⟩
  exact kp_store (OkB.ext h1) (Spec.upd_same _ _ _) rfl rfl rfl rfl (fun q hq => setHeap_ne _ _ hq)

/-- The call takes effect without a change of the contents. -/
theorem ok_effect' (hI : CInv cfg w) {op : Op K V} (hw : w.Wait t op) {out : Out K V} (hs : Step (w.maps w.now) op out (w.maps w.now)) :
    ∃ w2 : World K V, w2.mem = w.mem ∧ OkB cfg t w w2 ∧ Kp t noE (w.done t out) w2 ∧ w2.st = w.st := by
  obtain ⟨t0, hw⟩ := hw
  have h1 := ok_ps (t := t) (ps' := ⟨w.ps.now + 1, Spec.upd w.ps.maps (w.ps.now + 1) (w.maps w.now), Spec.upd w.ps.ph t (.done out)⟩) hI
    (fun _ hp => Past.effect hp hw hs) (Nat.le_succ _) (fun i hi => Spec.upd_ne _ _ (by have : i ≤ w.ps.now := hi; omega))
    (Spec.upd_same _ _ _) (fun u hu => Spec.upd_ne _ _ hu)
  refine ⟨{ w with ps := ⟨w.ps.now + 1, Spec.upd w.ps.maps (w.ps.now + 1) (w.maps w.now), Spec.upd w.ps.ph t (.done out)⟩ }, rfl, h1, ?_, rfl⟩
  have e := OkB.ext h1
  obtain ⟨e1, e2, e3, e4, e5, e6⟩ := e
  exact ⟨⟨e1, e2, e3, e4, e5, e6⟩, rfl, fun _ _ _ => Iff.rfl, fun _ => Iff.rfl, Iff.rfl, fun _ _ => Iff.rfl, fun _ _ => Iff.rfl,
    fun _ _ _ => ⟨rfl, rfl⟩, fun _ _ h => ⟨h, rfl, rfl⟩, fun _ _ _ _ _ => rfl, fun _ _ => rfl, rfl, id⟩

/-- A read takes effect at an instant since its invocation. -/
theorem ok_read (hI : CInv cfg w) {k : K} {t0 τ : Nat} (hw : w.ps.ph t = .waiting (.read k) t0) (h1 : t0 ≤ τ) (h2 : τ ≤ w.now) :
    ∃ w2 : World K V, w2.mem = w.mem ∧ OkB cfg t w w2 ∧ w2 = w.done t (.payload (w.maps τ k)) := by
  have h1 := ok_ps (t := t) (ps' := ⟨w.ps.now, w.ps.maps, Spec.upd w.ps.ph t (.done (.payload (w.maps τ k)))⟩) hI
    (fun _ hp => Past.pastRead hp hw h1 h2) (le_refl _) (fun i _ => rfl) rfl (fun u hu => Spec.upd_ne _ _ hu)
  exact ⟨w.done t _, rfl, h1, rfl⟩

/-! ## Node operations -/

namespace CBlink

theorem wants_ok {n n' : Node K V} {len : Nat} (h : Blink.cleanUpIfNeeded cfg n len = .ok n') :
    (Blink.wantsCleanUp cfg n len = true ∧ n.cleanUp cfg = .ok n') ∨ (Blink.wantsCleanUp cfg n len = false ∧ n' = n) := by
  unfold Blink.cleanUpIfNeeded at h
  unfold Blink.wantsCleanUp
  cases hl : cfg.layout <;> simp only [hl] at h ⊢
  · right; cases h; simp
  · split at h
    · next hc => right; cases h; simp only [Bool.not_eq_eq_eq_not, Bool.not_false, decide_eq_true_eq, and_true]; exact hc
    · next hc => left; refine ⟨?_, h⟩; simp only [Bool.not_eq_eq_eq_not, Bool.not_true, decide_eq_false_iff_not]; exact hc

theorem cleanUpIfNeeded_wp {n n' : Node K V} {len : Nat} (h : Hold w t p n) (hc : Blink.cleanUpIfNeeded cfg n len = .ok n')
    (hs : SamePage n n') (hok : NodeOk cfg (decide (w.lvl p ≠ 0)) (w.lo p) n') :
    WP cfg t (cleanUpIfNeeded cfg p len) (fun _ w' => CInv cfg w' ∧ Kp t (· = p) w w' ∧ Hold w' t p n') w := by
  unfold cleanUpIfNeeded
  refine h.load fun w1 r1 i1 h1 => ?_
  rcases wants_ok hc with ⟨e, hc⟩ | ⟨e, rfl⟩
  · rw [if_pos e]
    refine h1.upgrade fun w2 k2 i2 h2 => ?_
    refine WP.lift hc ?_
    refine h2.store fun w3 r3 i3 h3 => ?_
    have kp : Kp t (· = p) w w3 := ((r1.kpE _).trans k2).trans (r3.kpE _)
    have f3 := kp.ext.fixed p h.pub
    obtain ⟨o, k4⟩ := ok_same i3 h3 hs (by rw [f3.1, f3.2.1]; exact hok)
    refine ⟨_, rfl, o, ?_⟩
    have h4 : HoldX { w3 with mem := w3.mem.setHeap p n' } t p n' := ⟨h3.x, h3.st, setHeap_same _ _ _, h3.wr⟩
    refine WP.unit (h4.downgrade fun w5 k5 i5 h5 => WP.ret ⟨i5, (kp.trans k4).trans k5, h5⟩)
  · rw [if_neg (by rw [e]; simp)]
    exact WP.ret ⟨i1, r1.kpE _, h1⟩

/-- A leaf that covers the key, with its lock held. -/
structure Leaf (w : World K V) (t : Tid) (p : Ptr) (k : K) (n : Node K V) : Prop where
  hold : Hold w t p n
  lvl : w.lvl p = 0
  low : w.lo p ≤ .key k
  high : .key k < hiB n.high

theorem Leaf.kp {n : Node K V} {k : K} {E : Ptr → Prop} (h : Leaf w t p k n) (e : Kp t E w w') (hp : ¬ E p) : Leaf w' t p k n := by
  obtain ⟨f1, f2, -⟩ := e.ext.fixed p h.hold.pub
  exact ⟨h.hold.kp e hp, f1.trans h.lvl, by rw [f2]; exact h.low, h.high⟩

theorem Leaf.ok {n : Node K V} {k : K} (h : Leaf w t p k n) (hI : CInv cfg w) : NodeOk cfg false (w.lo p) n := by
  have := (hI.page h.hold.st h.hold.heap).ok
  rw [h.lvl] at this
  exact this

theorem _root_.BT.Blink.leafWriteCore_split {n n' : Node K V} {k : K} {v : V}
    (e1 : Blink.leafWriteCore cfg n k v = .ok (.needSplit, n')) :
    n' = n ∧ Blink.needSplit cfg n (cfg.klen k + cfg.payLen) = true := by
  unfold Blink.leafWriteCore at e1
  cases hs : n.searchRecord k with
  | ub => rw [hs] at e1; simp at e1
  | fuel => rw [hs] at e1; simp at e1
  | ok x =>
    obtain ⟨rc, pos⟩ := x
    rw [hs] at e1
    simp only [Res.ok_bind] at e1
    split at e1
    · split at e1
      · next h => cases e1; exact ⟨rfl, h⟩
      · cases hh : n.insertRecord cfg k (.val v) pos <;> rw [hh] at e1 <;> simp at e1
    · split at e1
      · cases hh : n.reuseRecord cfg pos v <;> rw [hh] at e1 <;> simp at e1
      · cases hh : n.setPayload pos v <;> rw [hh] at e1 <;> simp at e1

theorem _root_.BT.Blink.leafInsertCore_split {n n' : Node K V} {k : K} {v : V}
    (e1 : Blink.leafInsertCore cfg n k v = .ok (.needSplit, n')) :
    n' = n ∧ Blink.needSplit cfg n (cfg.klen k + cfg.payLen) = true := by
  unfold Blink.leafInsertCore at e1
  cases hs : n.searchRecord k with
  | ub => rw [hs] at e1; simp at e1
  | fuel => rw [hs] at e1; simp at e1
  | ok x =>
    obtain ⟨rc, pos⟩ := x
    rw [hs] at e1
    simp only [Res.ok_bind] at e1
    split at e1
    · split at e1
      · next h => cases e1; exact ⟨rfl, h⟩
      · cases hh : n.insertRecord cfg k (.val v) pos <;> rw [hh] at e1 <;> simp at e1
    · split at e1
      · cases hh : n.reuseRecord cfg pos v <;> rw [hh] at e1 <;> simp at e1
      · cases e1

theorem noRoom {n n1 : Node K V} {len : Nat} (h : ∀ L, Roomy cfg L → len ≤ L + cfg.maxPayLen)
    (hc : Blink.cleanUpIfNeeded cfg n len = .ok n1) (hs : Blink.needSplit cfg n1 len = true) :
    ∀ L, Roomy cfg L → ¬ Room cfg L n := by
  intro L hr hroom
  obtain ⟨a, b⟩ := cleanUpIfNeeded_room hr hroom (h L hr)
  rw [a] at hc
  cases hc
  rw [hs] at b
  cases b

/-- If `t` is the only thread that writes, a page that it has unlocked still has its low and high key. -/
def Kept (w' : World K V) (p : Ptr) (n : Node K V) : Prop :=
  w'.solo = true → ∃ m, w'.heap p = some m ∧ m.low = n.low ∧ m.high = n.high

/-- Outcome of `Write` on a page. -/
def writePost (cfg : Cfg K) (t : Tid) (w : World K V) (p : Ptr) (k : K) (n : Node K V) (rc : NodeRC) (w' : World K V) : Prop :=
  CInv cfg w' ∧
  ((rc = .needSplit ∧ Kp t (· = p) w w' ∧ ∃ n', Leaf w' t p k n' ∧ SamePage n n' ∧ Big cfg n' ∧
     (∀ L, Roomy cfg L → ¬ Room cfg L n) ∧ ∃ A B, Around k (pairs n.recs) A none B) ∨
   (rc = .completed ∧ Kp t (· = p) (w.done t (.code .success)) w' ∧ ¬ w'.Own t p ∧ Kept w' p n))

theorem leafWrite_wp (hr : Roomy cfg L) (hI : CInv cfg w) {n : Node K V} {k : K} {v : V} (h : Leaf w t p k n) (hw : w.Wait t (.write k v)) :
    WP cfg t (leafWrite cfg p k v) (writePost cfg t w p k n) w := by
  have hok := h.ok hI
  obtain ⟨n1, c1, c2, c3, -, -⟩ := cleanUpIfNeeded_ok hr hok (leafLen_le hr k)
  obtain ⟨rc, n', e1, e2, e3⟩ := Blink.leafWrite_ok hr hok (Bd.leKey_iff'.2 h.low) (Bd.gtKey_iff'.2 h.high) v
  rw [Blink.leafWrite_core, c1, Res.ok_bind] at e1
  unfold leafWrite
  refine WP.bind ((cleanUpIfNeeded_wp h.hold c1 c3 (by rw [h.lvl]; exact c2)).mono ?_)
  rintro - w1 ⟨i1, k1, h1⟩
  refine h1.load fun w2 r2 i2 h2 => ?_
  refine WP.lift e1 ?_
  have k2 : Kp t (· = p) w w2 := k1.trans (r2.kpE _)
  obtain ⟨f1, f2, -⟩ := k2.ext.fixed p h.hold.pub
  rcases e3 with ⟨rfl, s1, s2, s3⟩ | ⟨rfl, s1, A, C, B, s2, s3⟩
  · simp only [commit]
    refine WP.ret ⟨i2, Or.inl ⟨rfl, k2, n1, ⟨h2, f1.trans h.lvl, by rw [f2]; exact h.low, by rw [c3.frame.high]; exact h.high⟩, c3, ?_⟩⟩
    obtain ⟨rfl, hns⟩ := Blink.leafWriteCore_split e1
    exact ⟨s2, noRoom (fun _ hr => leafLen_le hr k) c1 hns, s3⟩
  · simp only [commit]
    refine h2.upgrade fun w3 k3 i3 h3 => ?_
    refine h3.store fun w4 r4 i4 h4 => ?_
    have k4 : Kp t (· = p) w w4 := (k2.trans k3).trans (r4.kpE _)
    obtain ⟨g1, g2, -⟩ := k4.ext.fixed p h.hold.pub
    rw [← c3.pairs] at s2
    obtain ⟨w5, m5, o5, k5, h5⟩ := ok_effect i4 h4 (g1.trans h.lvl) (n' := n')
      ⟨s1.isInner.trans c3.frame.isInner.symm, s1.removed.trans c3.frame.removed.symm, s1.low.trans c3.frame.low.symm,
        s1.high.trans c3.frame.high.symm, s1.next.trans c3.frame.next.symm⟩ (by rw [g2]; exact e2) (by rw [g2]; exact h.low)
      (by rw [c3.frame.high]; exact h.high) (k4.wait hw) (Step.write k v) s2 s3
    refine ⟨w5, m5, o5, ?_⟩
    refine h5.unlock fun w6 k6 i6 o6 s6 => WP.ret ⟨i6, Or.inr ⟨rfl, ?_, o6, fun s => ⟨n', s6 s, s1.low, s1.high⟩⟩⟩
    exact ((k4.setPh _).trans k5).trans k6

/-- Outcome of `Insert` on a page. -/
def insertPost (cfg : Cfg K) (t : Tid) (w : World K V) (p : Ptr) (k : K) (n : Node K V) (rc : NodeRC) (w' : World K V) : Prop :=
  CInv cfg w' ∧
  ((rc = .needSplit ∧ Kp t (· = p) w w' ∧ ∃ n', Leaf w' t p k n' ∧ SamePage n n' ∧ Big cfg n' ∧
     (∀ L, Roomy cfg L → ¬ Room cfg L n) ∧ ∃ A B, Around k (pairs n.recs) A none B) ∨
   (rc = .completed ∧ Kp t (· = p) (w.done t (.code .success)) w' ∧ ¬ w'.Own t p ∧ Kept w' p n) ∨
   (rc = .keyAlreadyInserted ∧ Kp t (· = p) (w.done t (.code .keyExist)) w' ∧ ¬ w'.Own t p ∧
     ∃ A C B, Around k (pairs n.recs) A C B ∧ C ≠ none))

theorem leafInsert_wp (hr : Roomy cfg L) (hI : CInv cfg w) {n : Node K V} {k : K} {v : V} (h : Leaf w t p k n) (hw : w.Wait t (.insert k v)) :
    WP cfg t (leafInsert cfg p k v) (insertPost cfg t w p k n) w := by
  have hok := h.ok hI
  obtain ⟨n1, c1, c2, c3, -, -⟩ := cleanUpIfNeeded_ok hr hok (leafLen_le hr k)
  obtain ⟨rc, n', e1, e2, e3⟩ := Blink.leafInsert_ok hr hok (Bd.leKey_iff'.2 h.low) (Bd.gtKey_iff'.2 h.high) v
  rw [Blink.leafInsert_core, c1, Res.ok_bind] at e1
  unfold leafInsert
  refine WP.bind ((cleanUpIfNeeded_wp h.hold c1 c3 (by rw [h.lvl]; exact c2)).mono ?_)
  rintro - w1 ⟨i1, k1, h1⟩
  rcases e3 with ⟨rfl, s1, s2, s3⟩ | ⟨rfl, s1, A, B, s2, s3⟩ | ⟨rfl, s1, A, C, B, s2, s3⟩
  · refine h1.load fun w2 r2 i2 h2 => ?_
    refine WP.lift e1 ?_
    have k2 : Kp t (· = p) w w2 := k1.trans (r2.kpE _)
    obtain ⟨f1, f2, -⟩ := k2.ext.fixed p h.hold.pub
    simp only [commit]
    refine WP.ret ⟨i2, Or.inl ⟨rfl, k2, n1, ⟨h2, f1.trans h.lvl, by rw [f2]; exact h.low, by rw [c3.frame.high]; exact h.high⟩, c3, ?_⟩⟩
    obtain ⟨rfl, hns⟩ := Blink.leafInsertCore_split e1
    exact ⟨s2, noRoom (fun _ hr => leafLen_le hr k) c1 hns, s3⟩
  · refine h1.load fun w2 r2 i2 h2 => ?_
    refine WP.lift e1 ?_
    have k2 : Kp t (· = p) w w2 := k1.trans (r2.kpE _)
    simp only [commit]
    refine h2.upgrade fun w3 k3 i3 h3 => ?_
    refine h3.store fun w4 r4 i4 h4 => ?_
    have k4 : Kp t (· = p) w w4 := (k2.trans k3).trans (r4.kpE _)
    obtain ⟨g1, g2, -⟩ := k4.ext.fixed p h.hold.pub
    rw [← c3.pairs] at s2
    have hmk : w4.maps w4.now k = none := s2.agree ((i4.page h4.st h4.heap).agree (g1.trans h.lvl)) (by rw [g2]; exact h.low)
      (by rw [c3.frame.high]; exact h.high)
    obtain ⟨w5, m5, o5, k5, h5⟩ := ok_effect i4 h4 (g1.trans h.lvl) (n' := n')
      ⟨s1.isInner.trans c3.frame.isInner.symm, s1.removed.trans c3.frame.removed.symm, s1.low.trans c3.frame.low.symm,
        s1.high.trans c3.frame.high.symm, s1.next.trans c3.frame.next.symm⟩ (by rw [g2]; exact e2) (by rw [g2]; exact h.low)
      (by rw [c3.frame.high]; exact h.high) (k4.wait hw) (Step.insertNew k v hmk) s2 s3
    refine ⟨w5, m5, o5, ?_⟩
    refine h5.unlock fun w6 k6 i6 o6 s6 => WP.ret ⟨i6, Or.inr (Or.inl ⟨rfl, ?_, o6, fun s => ⟨n', s6 s, s1.low, s1.high⟩⟩)⟩
    exact ((k4.setPh _).trans k5).trans k6
  · refine h1.loadG fun w2 r2 i2 h2 => ?_
    have k2 : Kp t (· = p) w w2 := k1.trans (r2.kpE _)
    obtain ⟨g1, g2, -⟩ := k2.ext.fixed p h.hold.pub
    have hmk : w2.maps w2.now k = C := by
      have s2' := s2
      rw [← c3.pairs] at s2'
      exact s2'.agree ((i2.page h2.st h2.heap).agree (g1.trans h.lvl)) (by rw [g2]; exact h.low) (by rw [c3.frame.high]; exact h.high)
    obtain ⟨w3, m3, o3, k3, s3'⟩ := ok_effect' i2 (k2.wait hw) (Step.insertOld k v (by rw [hmk]; exact s3))
    refine ⟨w3, m3, o3, WP.lift e1 ?_⟩
    have h3 : Hold w3 t p n1 := by
      refine ⟨?_, ?_, ?_, k3.wr.2 h2.wr⟩
      · unfold World.lk; rw [m3]; exact h2.six
      · rw [s3']; exact h2.st
      · unfold World.heap; rw [m3]; exact h2.heap
    simp only [commit]
    refine h3.unlock fun w4 k4 i4 o4 _ => WP.ret ⟨i4, Or.inr (Or.inr ⟨rfl, ?_, o4, A, C, B, s2, s3⟩)⟩
    exact ((k2.setPh _).trans k3.toE).trans k4

/-- Outcome of `Delete` on a page. -/
def deletePost (cfg : Cfg K) (t : Tid) (w : World K V) (p : Ptr) (k : K) (rc : NodeRC) (w' : World K V) : Prop :=
  CInv cfg w' ∧
  ((rc = .needMerge ∧ Kp t (· = p) (w.done t (.code .success)) w' ∧ ∃ n', Leaf w' t p k n') ∨
   (rc = .completed ∧ Kp t (· = p) (w.done t (.code .success)) w' ∧ ¬ w'.Own t p) ∨
   (rc = .keyNotInserted ∧ Kp t (· = p) (w.done t (.code .keyNotExist)) w' ∧ ¬ w'.Own t p))

theorem leafDelete_wp (hr : Roomy cfg L) (hI : CInv cfg w) {n : Node K V} {k : K} (h : Leaf w t p k n) (hw : w.Wait t (.delete k)) :
    WP cfg t (leafDelete cfg p k) (deletePost cfg t w p k) w := by
  have hok := h.ok hI
  obtain ⟨rc, n', e1, e2, e3, A, C, B, s2, e4⟩ := Blink.leafDelete_ok hr hok k
  unfold leafDelete
  rcases e4 with ⟨hrc, hC, s3⟩ | ⟨rfl, rfl, rfl⟩
  · refine h.hold.load fun w2 r2 i2 h2 => ?_
    refine WP.lift e1 ?_
    have key : ∀ w4, CInv cfg w4 → Kp t (· = p) w w4 → HoldX w4 t p n → ∃ w5 : World K V, w5.mem = w4.mem.setHeap p n' ∧ OkB cfg t w4 w5 ∧
        Kp t (· = p) (w.done t (.code .success)) w5 ∧ HoldX w5 t p n' ∧ w5.lvl p = 0 ∧ w5.lo p ≤ .key k := by
      intro w4 i4 k4 h4
      obtain ⟨g1, g2, -⟩ := k4.ext.fixed p h.hold.pub
      have hmk : w4.maps w4.now k = C := s2.agree ((i4.page h4.st h4.heap).agree (g1.trans h.lvl)) (by rw [g2]; exact h.low) h.high
      obtain ⟨w5, m5, o5, k5, h5⟩ := ok_effect i4 h4 (g1.trans h.lvl) (n' := n') e3 (by rw [g2]; exact e2) (by rw [g2]; exact h.low)
        h.high (k4.wait hw) (Step.deleteOld k (by rw [hmk]; exact hC)) s2 s3
      have kk := (k4.setPh (.done (.code .success))).trans k5
      obtain ⟨f1, f2, -⟩ := kk.ext.fixed p h.hold.pub
      exact ⟨w5, m5, o5, kk, h5, f1.trans h.lvl, by rw [f2]; exact h.low⟩
    rcases hrc with rfl | rfl
    · simp only [commit]
      refine h2.upgrade fun w3 k3 i3 h3 => ?_
      refine h3.store fun w4 r4 i4 h4 => ?_
      obtain ⟨w5, m5, o5, k5, h5, l5, lo5⟩ := key w4 i4 (((r2.kpE _).trans k3).trans (r4.kpE _)) h4
      refine ⟨w5, m5, o5, ?_⟩
      refine h5.downgrade fun w6 k6 i6 h6 => WP.ret ⟨i6, Or.inl ⟨rfl, k5.trans k6, n', ?_⟩⟩
      obtain ⟨f1, f2, -⟩ := k6.ext.fixed p h5.pub
      exact ⟨h6, f1.trans l5, by rw [f2]; exact lo5, by rw [e3.high]; exact h.high⟩
    · simp only [commit]
      refine h2.upgrade fun w3 k3 i3 h3 => ?_
      refine h3.store fun w4 r4 i4 h4 => ?_
      obtain ⟨w5, m5, o5, k5, h5, l5, lo5⟩ := key w4 i4 (((r2.kpE _).trans k3).trans (r4.kpE _)) h4
      refine ⟨w5, m5, o5, ?_⟩
      exact h5.unlock fun w6 k6 i6 o6 _ => WP.ret ⟨i6, Or.inr (Or.inl ⟨rfl, k5.trans k6, o6⟩)⟩
  · refine h.hold.loadG fun w2 r2 i2 h2 => ?_
    obtain ⟨g1, g2, -⟩ := r2.kp.ext.fixed p h.hold.pub
    have hmk : w2.maps w2.now k = none := s2.agree ((i2.page h2.st h2.heap).agree (g1.trans h.lvl)) (by rw [g2]; exact h.low) h.high
    obtain ⟨w3, m3, o3, k3, s3'⟩ := ok_effect' i2 (r2.kp.wait hw) (Step.deleteNew k hmk)
    refine ⟨w3, m3, o3, WP.lift e1 ?_⟩
    have h3 : Hold w3 t p n' := by
      refine ⟨?_, ?_, ?_, k3.wr.2 h2.wr⟩
      · unfold World.lk; rw [m3]; exact h2.six
      · rw [s3']; exact h2.st
      · unfold World.heap; rw [m3]; exact h2.heap
    simp only [commit]
    refine h3.unlock fun w4 k4 i4 o4 _ => WP.ret ⟨i4, Or.inr (Or.inr ⟨rfl, ?_, o4⟩)⟩
    exact ((r2.kp.toE.setPh _).trans k3.toE).trans k4

end CBlink
end BT
