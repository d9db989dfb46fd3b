import Verif.ConcInv

/-!
# The steps of the B-link trees keep the invariant and respect the rely conditions
-/

set_option linter.unusedSectionVars false

namespace BT
open Spec
variable {K V : Type} [LinearOrder K] {cfg : Cfg K} {w w' : World K V} {t : Tid} {p : Ptr}

/-! ## Helpers -/

theorem World.pub_live (h : w.st p = .live) : w.Pub p := by simp [World.Pub, h]
theorem World.pub_stale {τ q u} (h : w.st p = .stale τ q u) : w.Pub p := by simp [World.Pub, h]
theorem World.pub_merged {τ q} (h : w.st p = .merged τ q) : w.Pub p := by simp [World.Pub, h]
theorem World.pub_gone (h : w.st p = .gone) : w.Pub p := by simp [World.Pub, h]
theorem World.ge_live (h : w.st p = .live) (τ : Nat) : w.Ge τ p := by simp [World.Ge, h]
theorem World.ge_gone (h : w.st p = .gone) (τ : Nat) : w.Ge τ p := by simp [World.Ge, h]
theorem World.Ge.pub {τ : Nat} (h : w.Ge τ p) : w.Pub p := by
  unfold World.Ge at h
  unfold World.Pub
  cases hs : w.st p <;> rw [hs] at h <;> trivial
theorem World.not_pub_priv {u} (h : w.st p = .priv u) : ¬ w.Pub p := by simp [World.Pub, h]
theorem World.not_pub_free (h : w.st p = .free) : ¬ w.Pub p := by simp [World.Pub, h]
theorem World.pub_cases (h : w.Pub p) : w.st p = .live ∨ (∃ τ q u, w.st p = .stale τ q u) ∨ (∃ τ q, w.st p = .merged τ q) ∨
    w.st p = .gone := by
  unfold World.Pub at h
  cases hs : w.st p <;> rw [hs] at h <;> simp at h ⊢

theorem Ext.ge (h : Ext w w') {τ : Nat} (hg : w.Ge τ p) (hn : τ ≤ w.now) : w'.Ge τ p := by
  have := h.st p
  unfold World.Ge at hg ⊢
  cases hs : w.st p <;> rw [hs] at hg this <;> simp only [StLe] at this hg
  · cases hs' : w'.st p <;> rw [hs'] at this <;> simp only at this ⊢ <;> omega
  · rcases this with e | e <;> rw [e] <;> exact hg
  · rw [this]; exact hg
  · rw [this]; trivial

theorem Ext.gone_of (h : Ext w w') (hp : w.Pub p) (hg : w.Gone p) : w'.Gone p := (h.rep p hp).1 hg

theorem Ext.same (h1 : w'.lvl = w.lvl) (h2 : w'.lo = w.lo) (h3 : w'.born = w.born) (h4 : w'.st = w.st) (h5 : w'.rep = w.rep)
    (h6 : w.now ≤ w'.now) (h7 : ∀ i, i ≤ w.now → w'.maps i = w.maps i) : Ext w w' where
  fixed p _ := by rw [h1, h2, h3]; exact ⟨rfl, rfl, rfl⟩
  st p := by rw [h4]; exact StLe.refl _ _
  rep p _ := by
    refine ⟨?_, ?_⟩
    · unfold World.Gone; rw [h4, h5]; exact id
    · rw [h2, h5]
  gone a b _ _ _ hn hg := by
    exfalso; apply hn; unfold World.Gone at hg ⊢; rw [h4, h5] at hg; exact hg
  now := h6
  maps := h7

/-- Pages keep their meaning when the ghost state of what they refer to is kept. -/
theorem PageOk.congr {lvl lvl' : Ptr → Nat} {lo lo' : Ptr → Bd K} {n : Node K V} {R R' : Ptr → Prop} {m m' : Map K V}
    (h : PageOk cfg lvl lo p n R m) (hl : lvl' p = lvl p) (ho : lo' p = lo p)
    (hR : ∀ c, R c → R' c ∧ lvl' c = lvl c ∧ lo' c = lo c)
    (hm : lvl p = 0 → ∀ k, lo p ≤ .key k → .key k < hiB n.high → m' k = m k) : PageOk cfg lvl' lo' p n R' m' where
  ok := by rw [hl, ho]; exact h.ok
  next := by
    rcases h.next with h | ⟨k, q, a, b, c, d, e⟩
    · exact Or.inl (by rw [hl]; exact h)
    · obtain ⟨r1, r2, r3⟩ := hR q c
      exact Or.inr ⟨k, q, a, by rw [hl]; exact b, r1, by rw [r2, hl, d], by rw [r3, e]⟩
  kids i hi b c hk := by
    rw [hl] at hi
    rw [ho] at hk
    obtain ⟨a1, a2, a3⟩ := h.kids i hi b c hk
    obtain ⟨r1, r2, r3⟩ := hR c a1
    exact ⟨r1, by rw [r2, a2], by rw [r3, a3]⟩
  agree h0 := by
    rw [hl] at h0
    intro k h1 h2 v
    rw [ho] at h1
    rw [hm h0 k h1 h2]
    exact h.agree h0 k h1 h2 v

theorem PageOk.lt {lvl : Ptr → Nat} {lo : Ptr → Bd K} {n : Node K V} {R : Ptr → Prop} {m : Map K V}
    (h : PageOk cfg lvl lo p n R m) : lo p < hiB n.high := Bd.lt_iff.1 h.ok.lt

theorem Lk.not_own_x {w : World K V} (hI : CInv cfg w) (hx : (w.lk p).x = some t) {u : Tid} (hu : u ≠ t) :
    ¬ w.Own u p ∧ u ∉ (w.lk p).s := by
  obtain ⟨a, b⟩ := hI.lkx p t hx
  unfold World.Own
  rw [a, b, hx]
  simp
  exact fun e => hu e.symm

theorem CInv.own_excl {w : World K V} (hI : CInv cfg w) (h : w.Own t p) {u : Tid} (hu : w.Own u p) : u = t := by
  rcases h with h | h
  · rcases hu with e | e
    · rw [h] at e; cases e; rfl
    · have := (hI.lkx p u e).1
      rw [h] at this; cases this
  · by_contra hne
    exact (Lk.not_own_x hI h hne).1 hu

/-- Rely conditions of steps that leave the locks alone. -/
theorem rely_of {u : Tid} (hI : CInv cfg w) (hu : u ≠ t) (hlk : w'.lk = w.lk) (hext : Ext w w') (hph : w'.ps.ph u = w.ps.ph u)
    (hns : ∀ p τ q, w'.st p = .stale τ q u ↔ w.st p = .stale τ q u) (hpend : ∀ p, w'.pend p = some u ↔ w.pend p = some u)
    (hshr : w'.shr = some u ↔ w.shr = some u)
    (hheap : ∀ p, w'.heap p = w.heap p ∨ (w.lk p).x = some t ∨ w.st p = .priv t ∨ w.st p = .free)
    (hst : ∀ p, w.Own u p → w'.st p = w.st p) (hpr : ∀ p, w.st p = .priv u → w'.st p = .priv u)
    (hroot : ∀ n, w.Own u w.mem.root → w.st w.mem.root = .live → w.heap w.mem.root = some n → (w.strict = true ∨ n.high = none) →
      w'.mem.root = w.mem.root ∧ w'.top = w.top)
    (hshr' : w.shr = some u → w'.mem.root = w.mem.root ∧ w'.top = w.top)
    (hg : w.Wr t ∨ ((∀ p, w.Pub p → w'.heap p = w.heap p) ∧ w'.mem.root = w.mem.root)) (hstrict : w'.strict = w.strict := by rfl)
    (hsolo : w'.solo = w.solo := by rfl) (hwr : w'.wr = w.wr := by rfl) : Rely u w w' := by
  have key : ∀ p, w.Own u p ∨ u ∈ (w.lk p).s → w'.heap p = w.heap p := by
    intro p hp
    rcases hheap p with h | h | h | h
    · exact h
    · obtain ⟨a, b⟩ := Lk.not_own_x hI h hu
      exact absurd hp (by tauto)
    · have := hI.lkn p u (World.not_pub_priv h) hp
      rw [h] at this
      cases this
      exact absurd rfl hu
    · have := hI.lkn p u (World.not_pub_free h) hp
      rw [h] at this
      cases this
  refine ⟨⟨hext, hph, hns, hpend, hshr, fun p _ => by rw [hlk], fun p _ => by rw [hlk],
    fun p _ ho => ⟨key p (Or.inl ho), hst p ho⟩, fun p _ hp => ⟨hpr p hp, ?_, by rw [hlk]⟩, fun hs hw p _ hp => ?_, fun hs hw => ?_, hsolo, fun e h => ?_⟩, fun p => by rw [hlk],
    fun p hp => key p (Or.inr hp), hroot, hshr', fun p hp => ⟨by rw [hlk], ?_, fun _ _ => by rw [hlk]⟩, hstrict, fun hs hw => ?_⟩
  · rcases hheap p with h | h | h | h
    · exact h
    · have := hI.lkn p t (World.not_pub_priv hp) (Or.inl (Or.inr h))
      rw [hp] at this
      cases this
      exact absurd rfl hu
    · rw [h] at hp; cases hp; exact absurd rfl hu
    · rw [h] at hp; cases hp
  · rcases hg with hg | hg
    · have := (hw hs).symm.trans (hg hs)
      cases this
      exact absurd rfl hu
    · exact hg.1 p hp
  · rcases hg with hg | hg
    · have := (hw hs).symm.trans (hg hs)
      cases this
      exact absurd rfl hu
    · exact hg.2
  · rw [hwr]; exact e (hsolo ▸ h)
  · intro hx _ _
    rcases hheap p with h | h | h | h
    · exact h
    · rw [hx] at h; cases h
    · exact absurd hp (World.not_pub_priv h)
    · exact absurd hp (World.not_pub_free h)
  · rcases hg with hg | hg
    · have := (hw hs).symm.trans (hg hs)
      cases this
      exact absurd rfl hu
    · exact hg

/-! ## Locks -/

def World.setLk (w : World K V) (p : Ptr) (l : Lk) : World K V := { w with mem := w.mem.setLk p l }

theorem World.setLk_same (w : World K V) (p : Ptr) (l : Lk) : (w.setLk p l).lk p = l := by
  simp [World.lk, World.setLk, Mem.setLk]
theorem World.setLk_ne (w : World K V) {p q : Ptr} (l : Lk) (h : q ≠ p) : (w.setLk p l).lk q = w.lk q := by
  simp [World.lk, World.setLk, Mem.setLk, h]

/-- `l'` is what thread `t` may make of the lock `l`. -/
structure LkOk (t : Tid) (l l' : Lk) : Prop where
  x : ∀ u, l'.x = some u → l'.six = none ∧ l'.s = []
  six : ∀ u, u ≠ t → (l'.six = some u ↔ l.six = some u)
  ex : ∀ u, u ≠ t → (l'.x = some u ↔ l.x = some u)
  s : ∀ u, u ≠ t → l'.s.count u = l.s.count u
  ver : l.ver ≤ l'.ver
  ver' : l'.ver = l.ver → l.x ≠ none → l'.x = l.x

theorem LkOk.mem {l l' : Lk} (h : LkOk t l l') {u : Tid} (hu : u ≠ t) : u ∈ l'.s ↔ u ∈ l.s := by
  rw [← List.count_pos_iff, h.s u hu, List.count_pos_iff]

theorem inv_setLk (hI : CInv cfg w) {l : Lk} (hl : LkOk t (w.lk p) l) (hp : w.Pub p ∨ w.st p = .priv t)
    (hs : ∀ τ q, w.st p = .stale τ q t → l.six = some t ∨ l.x = some t) : CInv cfg (w.setLk p l) := by
  obtain ⟨h1, h2, h2', h3, h4, h5, h6, h7, h8, h9, h10, h11, h12, h13, h14, h15, h16, h17, h18, h19, h20⟩ := hI
  refine ⟨h1, ?_, ?_, h3, h4, h5, h6, ?_, h8, h9, h10, h11, h12, h13, h14, h15, h16, h17, h18, h19, h20⟩
  · intro q u hq
    by_cases e : q = p
    · subst e
      rw [World.setLk_same] at hq ⊢
      exact hl.x u hq
    · rw [World.setLk_ne _ _ e] at hq ⊢
      exact h2 q u hq
  · intro q u hn hq
    have hn' : ¬ w.Pub q := hn
    by_cases e : q = p
    · subst e
      rcases hp with hp | hp
      · exact absurd hp hn'
      · by_cases hu : u = t
        · subst hu; exact hp
        · refine h2' q u hn' ?_
          unfold World.Own at hq ⊢
          rw [World.setLk_same, hl.six u hu, hl.ex u hu, hl.mem hu] at hq
          exact hq
    · refine h2' q u hn' ?_
      unfold World.Own at hq ⊢
      rw [World.setLk_ne _ _ e] at hq
      exact hq
  · intro q τ c u hq
    obtain ⟨a, b, r⟩ := h7 q τ c u hq
    refine ⟨a, ?_, r⟩
    by_cases e : q = p
    · subst e
      unfold World.Own at b ⊢
      rw [World.setLk_same]
      by_cases hu : u = t
      · subst hu; exact hs τ c hq
      · rw [hl.six u hu, hl.ex u hu]; exact b
    · unfold World.Own at b ⊢
      rw [World.setLk_ne _ _ e]; exact b

theorem ext_setLk (w : World K V) (p : Ptr) (l : Lk) : Ext w (w.setLk p l) :=
  Ext.same rfl rfl rfl rfl rfl (le_refl _) (fun _ _ => rfl)

theorem rely_setLk {l : Lk} (hl : LkOk t (w.lk p) l) (hp : w.Pub p ∨ w.st p = .priv t) {u : Tid} (hu : u ≠ t) :
    Rely u w (w.setLk p l) := by
  refine ⟨⟨ext_setLk w p l, rfl, fun _ _ _ => Iff.rfl, fun _ => Iff.rfl, Iff.rfl, fun q _ => ?_, fun q _ => ?_,
    fun _ _ _ => ⟨rfl, rfl⟩, fun q _ hq => ⟨hq, rfl, ?_⟩, fun _ _ _ _ _ => rfl, fun _ _ => rfl, rfl, id⟩, fun q => ?_, fun _ _ => rfl, fun _ _ _ _ _ => ⟨rfl, rfl⟩,
    fun _ => ⟨rfl, rfl⟩, fun q _ => ?_, rfl, fun _ _ => ⟨fun _ _ => rfl, rfl⟩⟩
  · by_cases e : q = p
    · subst e; rw [World.setLk_same]; exact hl.six u hu
    · rw [World.setLk_ne _ _ e]
  · by_cases e : q = p
    · subst e; rw [World.setLk_same]; exact hl.ex u hu
    · rw [World.setLk_ne _ _ e]
  · have e : q ≠ p := by
      rintro rfl
      rcases hp with hp | hp
      · exact World.not_pub_priv hq hp
      · rw [hq] at hp; cases hp; exact hu rfl
    rw [World.setLk_ne _ _ e]
  · by_cases e : q = p
    · subst e; rw [World.setLk_same]; exact hl.s u hu
    · rw [World.setLk_ne _ _ e]
  · by_cases e : q = p
    · subst e; rw [World.setLk_same]; exact ⟨hl.ver, fun _ _ _ => rfl, hl.ver'⟩
    · rw [World.setLk_ne _ _ e]; exact ⟨le_refl _, fun _ _ _ => rfl, fun _ _ => rfl⟩

theorem ok_setLk (hI : CInv cfg w) {l : Lk} (hl : LkOk t (w.lk p) l) (hp : w.Pub p ∨ w.st p = .priv t)
    (hs : ∀ τ q, w.st p = .stale τ q t → l.six = some t ∨ l.x = some t) : (blg V cfg).Ok t w (w.setLk p l) :=
  ⟨inv_setLk hI hl hp hs, fun _ hu => rely_setLk hl hp hu, fun _ h => h, rfl, rfl⟩

theorem kp_setLk {E : Ptr → Prop} {l : Lk} (hE : E p) : Kp t E w (w.setLk p l) := by
  refine ⟨ext_setLk w p l, rfl, fun _ _ _ => Iff.rfl, fun _ => Iff.rfl, Iff.rfl, fun q hq => ?_, fun q hq => ?_,
    fun _ _ _ => ⟨rfl, rfl⟩, fun q hq hs => ⟨hs, rfl, ?_⟩, fun _ _ _ _ _ => rfl, fun _ _ => rfl, rfl, id⟩
  all_goals
    have e : q ≠ p := by rintro rfl; exact hq hE
    rw [World.setLk_ne _ _ e]

/-- Shared locks do not disturb what the thread owns. -/
theorem kp_setS {E : Ptr → Prop} {l : Lk} (h6 : l.six = (w.lk p).six) (hx : l.x = (w.lk p).x) (hp : w.Pub p) :
    Kp t E w (w.setLk p l) := by
  refine ⟨ext_setLk w p l, rfl, fun _ _ _ => Iff.rfl, fun _ => Iff.rfl, Iff.rfl, fun q hq => ?_, fun q hq => ?_,
    fun _ _ _ => ⟨rfl, rfl⟩, fun q hq hs => ⟨hs, rfl, ?_⟩, fun _ _ _ _ _ => rfl, fun _ _ => rfl, rfl, id⟩
  · by_cases e : q = p
    · subst e; rw [World.setLk_same, h6]
    · rw [World.setLk_ne _ _ e]
  · by_cases e : q = p
    · subst e; rw [World.setLk_same, hx]
    · rw [World.setLk_ne _ _ e]
  · have e : q ≠ p := by rintro rfl; exact World.not_pub_priv hs hp
    rw [World.setLk_ne _ _ e]

/-! ## Ghost steps and bookkeeping -/

/-- A step of the abstract map that does not change the contents, with no effect on the memory. -/
theorem ok_ps (hI : CInv cfg w) {ps' : PState K V} (hpast : ∀ {m0 : Map K V} h, Past true m0 w.ps h → Past true m0 ps' h) (hnow : w.now ≤ ps'.now)
    (hmaps : ∀ i, i ≤ w.now → ps'.maps i = w.maps i) (hcur : ps'.maps ps'.now = w.maps w.now)
    (hph : ∀ u, u ≠ t → ps'.ph u = w.ps.ph u) : (blg V cfg).Ok t w { w with ps := ps' } := by
  refine ⟨?_, fun u hu => ?_, hpast, rfl, rfl⟩
  · have hI' := hI
    obtain ⟨h1, h2, h2', h3, h4, h5, h6, h7, h8, h9, h10, h11, h12, h13, h14, h15, h16, h17, h18, h19, h20⟩ := hI
    refine ⟨h1, h2, h2', h3, h4, ?_, h6, ?_, ?_, h9, h10, h11, h12, h13, ?_, h15, h16, h17, h18, h19, h20⟩
    · intro p hp
      obtain ⟨n, a, b⟩ := h5 p hp
      exact ⟨n, a, b.congr rfl rfl (fun _ h => ⟨h, rfl, rfl⟩) (fun _ k _ _ => by
        show ps'.maps ps'.now k = _
        rw [hcur])⟩
    · intro p τ q u hp
      obtain ⟨a, b, c, d, e, n, f, g⟩ := h7 p τ q u hp
      exact ⟨le_trans a hnow, b, c, d, e, n, f, g.congr rfl rfl (fun _ h => ⟨h, rfl, rfl⟩) (fun _ k _ _ => by
        show ps'.maps τ k = _
        rw [hmaps τ a])⟩
    · intro p τ q hp
      obtain ⟨a, b, c, d, m, f, g1, g2, g3, g4⟩ := h8 p τ q hp
      refine ⟨le_trans a hnow, b, c, d, m, f, g1, g2, g3, ?_⟩
      rw [show World.maps { w with ps := ps' } τ = w.maps τ from hmaps τ a]
      exact g4
    · intro p hp
      exact le_trans (h14 p hp) hnow
  · exact rely_of hI hu rfl (Ext.same rfl rfl rfl rfl rfl hnow hmaps) (hph u hu) (fun _ _ _ => Iff.rfl) (fun _ => Iff.rfl) Iff.rfl
      (fun _ => Or.inl rfl) (fun _ _ => rfl) (fun _ h => h) (fun _ _ _ _ _ => ⟨rfl, rfl⟩) (fun _ => ⟨rfl, rfl⟩)
      (Or.inr ⟨fun _ _ => rfl, rfl⟩)

/-- `AddGarbage`. -/
theorem ok_gc (hI : CInv cfg w) (g : List Ptr) : (blg V cfg).Ok t w { w with mem := { w.mem with gc := g } } := by
  refine ⟨?_, fun u hu => ?_, fun _ h => h, rfl, rfl⟩
  · obtain ⟨h1, h2, h2', h3, h4, h5, h6, h7, h8, h9, h10, h11, h12, h13, h14, h15, h16, h17, h18, h19, h20⟩ := hI
    exact ⟨h1, h2, h2', h3, h4, h5, h6, h7, h8, h9, h10, h11, h12, h13, h14, h15, h16, h17, h18, h19, h20⟩
  · exact rely_of hI hu rfl (Ext.same rfl rfl rfl rfl rfl (le_refl _) (fun _ _ => rfl)) rfl (fun _ _ _ => Iff.rfl) (fun _ => Iff.rfl)
      Iff.rfl (fun _ => Or.inl rfl) (fun _ _ => rfl) (fun _ h => h) (fun _ _ _ _ _ => ⟨rfl, rfl⟩) (fun _ => ⟨rfl, rfl⟩)
      (Or.inr ⟨fun _ _ => rfl, rfl⟩)

/-! ## Private pages -/

theorem setHeap_same (m : Mem K V) (p : Ptr) (n : Node K V) : (m.setHeap p n).heap p = some n := by simp [Mem.setHeap]
theorem setHeap_ne (m : Mem K V) {p q : Ptr} (n : Node K V) (h : q ≠ p) : (m.setHeap p n).heap q = m.heap q := by
  simp [Mem.setHeap, h]

/-- Store into a page that is not published yet. -/
theorem ok_priv (hI : CInv cfg w) (hp : w.st p = .priv t) (n : Node K V) :
    (blg V cfg).Ok t w { w with mem := w.mem.setHeap p n } := by
  have hne : ∀ {q}, w.Pub q → q ≠ p := by rintro q hq rfl; exact World.not_pub_priv hp hq
  refine ⟨?_, fun u hu => ?_, fun _ h => h, rfl, rfl⟩
  · obtain ⟨h1, h2, h2', h3, h4, h5, h6, h7, h8, h9, h10, h11, h12, h13, h14, h15, h16, h17, h18, h19, h20⟩ := hI
    refine ⟨h1, h2, h2', ?_, ?_, ?_, h6, ?_, ?_, ?_, ?_, ?_, h12, ?_, h14, h15, h16, h17, h18, ?_, fun s => ⟨(h20 s).1, (h20 s).2.1, fun q τ c u hq => ?_⟩⟩
    · intro q
      by_cases e : q = p
      · subst e; simp [World.heap, hp, setHeap_same]
      · show (w.mem.setHeap p n).heap q = none ↔ _
        rw [setHeap_ne _ _ e]; exact h3 q
    · intro q hq
      have e : q ≠ p := by
        rintro rfl
        have := (h3 q).1 (h4 q hq)
        rw [hp] at this; cases this
      exact (setHeap_ne _ _ e).trans (h4 q hq)
    · intro q hq
      obtain ⟨m, a, b⟩ := h5 q hq
      exact ⟨m, (setHeap_ne _ _ (hne (World.pub_live hq))).trans a, b⟩
    · intro q τ c u hq
      obtain ⟨a, b, c, d, e, m, f, g⟩ := h7 q τ c u hq
      exact ⟨a, b, c, d, e, m, (setHeap_ne _ _ (hne (World.pub_stale hq))).trans f, g⟩
    · intro q τ c hq
      obtain ⟨a, b, c, d, m, f, g⟩ := h8 q τ c hq
      exact ⟨a, b, c, d, m, (setHeap_ne _ _ (hne (World.pub_merged hq))).trans f, g⟩
    · intro q hq
      obtain ⟨a, m, f, g⟩ := h9 q hq
      exact ⟨a, m, (setHeap_ne _ _ (hne (World.pub_gone hq))).trans f, g⟩
    · intro q r n' m hq hr hl hn hm
      replace hn := (setHeap_ne _ _ (hne (World.pub_live hq))).symm.trans hn
      replace hm := (setHeap_ne _ _ (hne (World.pub_live hr))).symm.trans hm
      exact h10 q r n' m hq hr hl hn hm
    · intro r u hr
      obtain ⟨a, b, c⟩ := h11 r u hr
      refine ⟨a, b, fun q m k hq hm => ?_⟩
      replace hm := (setHeap_ne _ _ (hne (World.pub_live hq))).symm.trans hm
      exact c q m k hq hm
    · intro q τ c u m r hq hm
      replace hm := (setHeap_ne _ _ (hne (World.pub_stale hq))).symm.trans hm
      exact h13 q τ c u m r hq hm
    · intro r hr
      rcases h19 r hr with a | a | ⟨q, m, b, a, c, d⟩
      · exact Or.inl a
      · exact Or.inr (Or.inl a)
      · exact Or.inr (Or.inr ⟨q, m, b, a, (setHeap_ne _ _ (hne (World.pub_live a))).trans c, d⟩)
    · obtain ⟨a, b⟩ := (h20 s).2.2 q τ c u hq
      exact ⟨a, fun m x hm => b m x ((setHeap_ne _ _ (hne (World.pub_stale hq))).symm.trans hm)⟩
  · refine rely_of hI hu rfl (Ext.same rfl rfl rfl rfl rfl (le_refl _) (fun _ _ => rfl)) rfl (fun _ _ _ => Iff.rfl) (fun _ => Iff.rfl)
      Iff.rfl (fun q => ?_) (fun _ _ => rfl) (fun _ h => h) (fun _ _ _ _ _ => ⟨rfl, rfl⟩) (fun _ => ⟨rfl, rfl⟩)
      (Or.inr ⟨fun q hq => setHeap_ne _ _ (hne hq), rfl⟩)
    by_cases e : q = p
    · subst e; exact Or.inr (Or.inr (Or.inl hp))
    · exact Or.inl (setHeap_ne _ _ e)

/-- The world after `alloc`. -/
def World.alloc (w : World K V) (t : Tid) (n : Node K V) : World K V :=
  { w with mem := { w.mem.setHeap w.mem.fresh n with fresh := w.mem.fresh + 1 }, st := Spec.upd w.st w.mem.fresh (.priv t) }

theorem World.alloc_ne (w : World K V) (t : Tid) (n : Node K V) {q : Ptr} (h : q ≠ w.mem.fresh) :
    (w.alloc t n).heap q = w.heap q ∧ (w.alloc t n).st q = w.st q :=
  ⟨setHeap_ne _ _ h, Spec.upd_ne _ _ h⟩

theorem World.alloc_same (w : World K V) (t : Tid) (n : Node K V) :
    (w.alloc t n).heap w.mem.fresh = some n ∧ (w.alloc t n).st w.mem.fresh = .priv t :=
  ⟨setHeap_same _ _ _, Spec.upd_same _ _ _⟩

theorem CInv.fresh_free (hI : CInv cfg w) : w.st w.mem.fresh = .free := (hI.alloc _).1 (hI.fresh _ (le_refl _))

theorem World.alloc_pub (w : World K V) (t : Tid) (n : Node K V) (hf : w.st w.mem.fresh = .free) (q : Ptr) :
    (w.alloc t n).Pub q ↔ w.Pub q := by
  by_cases e : q = w.mem.fresh
  · subst e
    simp [World.Pub, (w.alloc_same t n).2, hf]
  · unfold World.Pub
    rw [(w.alloc_ne t n e).2]

theorem World.alloc_ge (w : World K V) (t : Tid) (n : Node K V) (hf : w.st w.mem.fresh = .free) (τ : Nat) (q : Ptr) :
    (w.alloc t n).Ge τ q ↔ w.Ge τ q := by
  by_cases e : q = w.mem.fresh
  · subst e
    simp [World.Ge, (w.alloc_same t n).2, hf]
  · unfold World.Ge
    rw [(w.alloc_ne t n e).2]

theorem World.alloc_st (w : World K V) (t : Tid) (n : Node K V) (hf : w.st w.mem.fresh = .free) {q : Ptr} {s : PSt}
    (hs : s ≠ .free ∧ ∀ u, s ≠ .priv u) : (w.alloc t n).st q = s ↔ w.st q = s := by
  by_cases e : q = w.mem.fresh
  · subst e
    rw [(w.alloc_same t n).2, hf]
    exact ⟨fun h => absurd h.symm (hs.2 t), fun h => absurd h.symm hs.1⟩
  · rw [(w.alloc_ne t n e).2]

theorem World.alloc_gone (w : World K V) (t : Tid) (n : Node K V) (hf : w.st w.mem.fresh = .free) (q : Ptr) :
    (w.alloc t n).Gone q ↔ w.Gone q := w.alloc_st t n hf ⟨by simp, by simp⟩

theorem ext_alloc (w : World K V) (t : Tid) (n : Node K V) (hf : w.st w.mem.fresh = .free) : Ext w (w.alloc t n) where
  fixed p _ := ⟨rfl, rfl, rfl⟩
  st p := by
    by_cases e : p = w.mem.fresh
    · subst e; rw [hf]; trivial
    · rw [(w.alloc_ne t n e).2]; exact StLe.refl _ _
  rep p _ := ⟨fun h => (w.alloc_gone t n hf p).2 h, le_refl _⟩
  gone a b _ _ _ hn hg := absurd ((w.alloc_gone t n hf a).1 hg) hn
  now := le_refl _
  maps _ _ := rfl

theorem ok_alloc (hI : CInv cfg w) (n : Node K V) : (blg V cfg).Ok t w (w.alloc t n) := by
  have hf := hI.fresh_free
  have hst : ∀ {q : Ptr} {s : PSt}, (s ≠ .free ∧ ∀ u, s ≠ .priv u) → ((w.alloc t n).st q = s ↔ w.st q = s) :=
    fun hs => w.alloc_st t n hf hs
  have hheap : ∀ q, w.Pub q → (w.alloc t n).heap q = w.heap q := by
    intro q hq
    refine (w.alloc_ne t n ?_).1
    rintro rfl
    exact World.not_pub_free hf hq
  have hR : ∀ τ p c, w.Ref τ p c → (w.alloc t n).Ref τ p c := by
    intro τ p c hc
    refine ⟨(w.alloc_ge t n hf τ c).2 hc.1, ?_⟩
    rw [w.alloc_gone t n hf, w.alloc_gone t n hf]
    exact hc.2
  refine ⟨?_, fun u hu => ?_, fun _ h => h, rfl, rfl⟩
  · have hI' := hI
    obtain ⟨h1, h2, h2', h3, h4, h5, h6, h7, h8, h9, h10, h11, h12, h13, h14, h15, h16, h17, h18, h19, h20⟩ := hI
    refine ⟨h1, h2, ?_, ?_, ?_, ?_, ?_, ?_, ?_, ?_, ?_, ?_, ?_, ?_, ?_, ?_, ?_, ?_, ?_, ?_, fun s => ⟨(h20 s).1, (h20 s).2.1, fun q τ c u hq => ?_⟩⟩
    · intro q u hq hl
      have hq' : ¬ w.Pub q := fun h => hq ((w.alloc_pub t n hf q).2 h)
      have := h2' q u hq' hl
      by_cases e : q = w.mem.fresh
      · subst e; rw [hf] at this; cases this
      · rw [(w.alloc_ne t n e).2]; exact this
    · intro q
      by_cases e : q = w.mem.fresh
      · subst e; simp [(w.alloc_same t n).1, (w.alloc_same t n).2]
      · rw [(w.alloc_ne t n e).1, (w.alloc_ne t n e).2]; exact h3 q
    · intro q hq
      have hq' : w.mem.fresh + 1 ≤ q := hq
      rw [(w.alloc_ne t n (by show ¬ (q : Nat) = w.mem.fresh; exact Nat.ne_of_gt hq')).1]
      exact h4 q (Nat.le_of_succ_le hq')
    · intro q hq
      have hq' := (hst ⟨by simp, by simp⟩).1 hq
      obtain ⟨m, a, b⟩ := h5 q hq'
      exact ⟨m, (hheap q (World.pub_live hq')).trans a,
        b.congr rfl rfl (fun c hc => ⟨(hst ⟨by simp, by simp⟩).2 hc, rfl, rfl⟩) (fun _ _ _ _ => rfl)⟩
    · intro q hq
      exact h6 q ((hst ⟨by simp, by simp⟩).1 hq)
    · intro q τ c u hq
      have hq' := (hst ⟨by simp, by simp⟩).1 hq
      obtain ⟨a, b, c1, d, e, m, f, g⟩ := h7 q τ c u hq'
      exact ⟨a, b, (w.alloc_ge t n hf τ c).2 c1, d, e, m, (hheap q (World.pub_stale hq')).trans f,
        g.congr rfl rfl (fun c hc => ⟨hR _ _ _ hc, rfl, rfl⟩) (fun _ _ _ _ => rfl)⟩
    · intro q τ c hq
      have hq' := (hst ⟨by simp, by simp⟩).1 hq
      obtain ⟨a, b, c1, d, m, f, g⟩ := h8 q τ c hq'
      exact ⟨a, (w.alloc_ge t n hf τ c).2 b, c1, d, m, (hheap q (World.pub_merged hq')).trans f, g⟩
    · intro q hq
      have hq' := (hst ⟨by simp, by simp⟩).1 hq
      obtain ⟨a, m, f, g⟩ := h9 q hq'
      exact ⟨a, m, (hheap q (World.pub_gone hq')).trans f, g⟩
    · intro q r n' m hq hr hl hn hm
      have hq' := (hst ⟨by simp, by simp⟩).1 hq
      have hr' := (hst ⟨by simp, by simp⟩).1 hr
      rw [hheap q (World.pub_live hq')] at hn
      rw [hheap r (World.pub_live hr')] at hm
      exact h10 q r n' m hq' hr' hl hn hm
    · intro r u hr
      obtain ⟨a, b, c⟩ := h11 r u hr
      refine ⟨(hst ⟨by simp, by simp⟩).2 a, b, fun q m k hq hm => ?_⟩
      have hq' := (hst ⟨by simp, by simp⟩).1 hq
      rw [hheap q (World.pub_live hq')] at hm
      exact c q m k hq' hm
    · rcases h12 with ⟨a, b, c⟩ | ⟨u, a, b, c⟩
      · exact Or.inl ⟨a, (hst ⟨by simp, by simp⟩).2 b, c⟩
      · exact Or.inr ⟨u, a, (hst ⟨by simp, by simp⟩).2 b, c⟩
    · intro q τ c u m r hq hm hr
      have hq' := (hst ⟨by simp, by simp⟩).1 hq
      rw [hheap q (World.pub_stale hq')] at hm
      exact h13 q τ c u m r hq' hm ((hst ⟨by simp, by simp⟩).1 hr)
    · intro q hq
      exact h14 q ((w.alloc_pub t n hf q).1 hq)
    · intro q hq
      obtain ⟨a, b⟩ := h15 q ((w.alloc_pub t n hf q).1 hq)
      exact ⟨a.imp (hst ⟨by simp, by simp⟩).2 (hst ⟨by simp, by simp⟩).2, b⟩
    · intro q hq
      exact h16 q (hq.imp (hst ⟨by simp, by simp⟩).1 (hst ⟨by simp, by simp⟩).1)
    · intro q τ c u hq
      exact h17 q τ c u ((hst ⟨by simp, by simp⟩).1 hq)
    · intro q τ c hq
      exact h18 q τ c ((hst ⟨by simp, by simp⟩).1 hq)
    · intro r hr
      rcases h19 r ((hst ⟨by simp, by simp⟩).1 hr) with a | a | ⟨q, m, b, a, c, d⟩
      · exact Or.inl a
      · exact Or.inr (Or.inl a)
      · exact Or.inr (Or.inr ⟨q, m, b, (hst ⟨by simp, by simp⟩).2 a, (hheap q (World.pub_live a)).trans c, d⟩)
    · have hq' := (hst ⟨by simp, by simp⟩).1 hq
      obtain ⟨a, b⟩ := (h20 s).2.2 q τ c u hq'
      exact ⟨a, fun m x hm hx => (hst ⟨by simp, by simp⟩).2 (b m x ((hheap q (World.pub_stale hq')).symm.trans hm) hx)⟩
  · refine rely_of hI hu rfl (ext_alloc w t n hf) rfl (fun p τ q => hst ⟨by simp, by simp⟩) (fun _ => Iff.rfl)
      Iff.rfl (fun q => ?_) (fun q ho => ?_) (fun q hq => ?_) (fun _ _ _ _ _ => ⟨rfl, rfl⟩) (fun _ => ⟨rfl, rfl⟩)
      (Or.inr ⟨hheap, rfl⟩)
    · by_cases e : q = w.mem.fresh
      · subst e; exact Or.inr (Or.inr (Or.inr hf))
      · exact Or.inl (w.alloc_ne t n e).1
    · refine (w.alloc_ne t n ?_).2
      rintro rfl
      have := hI.lkn _ u (World.not_pub_free hf) (Or.inl ho)
      rw [hf] at this; cases this
    · refine ((w.alloc_ne t n ?_).2).trans hq
      rintro rfl
      rw [hf] at hq; cases hq

end BT
