import Verif.ConcSolo
import Verif.LockOsl

/-!
# Locks when there is one writer at a time

Calls of `Read` and `Scan` own no page (`Conf.Readers`), so that there is at most one thread that owns pages.  The code of that thread asks for
no page that it owns already (`Act.Asks`), and it holds no X lock while it waits for readers (`Lp.u`).  So nobody waits in a circle.
-/

set_option linter.unusedSectionVars false

namespace BT
open Spec
variable {K V : Type} [LinearOrder K] {cfg : Cfg K} {L : Nat} {c : Conf K V} {P : Lp K V} {t u : Tid} {α β : Type}

theorem VInv.idleFree {ro : Op K V → Prop} (hv : VInv P ro c) : c.IdleFree := by
  intro t h q
  obtain ⟨σ, s1, s2, -⟩ := hv.thr t
  have e : (c.mem.lk q).md t = Md.none := by rw [s1.L]; exact s2 h q
  constructor
  · intro h; have := Lk.md_of_six h; rw [e] at this; cases this
  · intro h; have := Lk.md_of_x h; rw [e] at this; cases this

/-- Actions that own no page. -/
def Act.sharing : {β : Type} → Act K V β → Prop
  | _, .getRoot | _, .isInner _ | _, .load _ | _, .peek _ | _, .lockS _ | _, .unlockS _ | _, .getVer _ | _, .same _ _ | _, .note _ => True
  | _, _ => False

/-- Code that owns no page. -/
def Prog.Sharing : Prog K V α → Prop
  | .ret _ | .ub | .stuck => True
  | .act a k => a.sharing ∧ ∀ b, (k b).Sharing

namespace Prog.Sharing
variable {c : Prog K V α} {f : α → Prog K V β}

theorem bind (h : c.Sharing) (hf : ∀ a, (f a).Sharing) : (c >>= f).Sharing := by
  induction c with
  | ret a => exact hf a
  | act a k ih => exact ⟨h.1, fun b => ih b (h.2 b)⟩
  | ub => trivial
  | stuck => trivial

theorem lift (r : Res α) (h : ∀ a, (f a).Sharing) : (Prog.lift r >>= f).Sharing := by
  cases r with
  | ok a => exact h a
  | _ => trivial

theorem of (h : c.Lockfree) : c.Sharing := by
  induction c with
  | ret a => trivial
  | act a k ih =>
    refine ⟨?_, fun b => ih b (h.2 b)⟩
    have := h.1
    cases a <;> trivial
  | ub => trivial
  | stuck => trivial

theorem one {a : Act K V β} {f : β → Prog K V α} (h : a.sharing) (hf : ∀ b, (f b).Sharing) : ((Prog.act a .ret : Prog K V β) >>= f).Sharing :=
  ⟨h, hf⟩
end Prog.Sharing

namespace CPsl
variable {k : K} {p : Ptr}

theorem checkR_sh : ∀ (f : Nat) (p : Ptr), (checkR k f p : Prog K V (Option Ptr)).Sharing
  | 0, _ => trivial
  | f + 1, p => by
    rw [checkR]
    refine ⟨trivial, fun _ => ⟨trivial, fun n => ?_⟩⟩
    show Prog.Sharing (ite _ _ _)
    split
    · trivial
    · refine ⟨trivial, fun _ => ?_⟩
      cases h : n.next with
      | none => trivial
      | some q => exact checkR_sh f q

theorem searchChild_sh : (searchChild k p : Prog K V Ptr).Sharing :=
  ⟨trivial, fun _ => Prog.Sharing.lift _ fun _ => Prog.Sharing.lift _ fun _ => ⟨trivial, fun _ => trivial⟩⟩

theorem searchLeafR_sh : ∀ (f : Nat) (p : Ptr), (searchLeafR k f p : Prog K V Ptr).Sharing
  | 0, _ => trivial
  | f + 1, p => by
    rw [searchLeafR]
    refine Prog.Sharing.bind (checkR_sh _ _) fun o => ?_
    cases o with
    | none => exact ⟨trivial, fun root => searchLeafR_sh f root⟩
    | some p =>
      refine ⟨trivial, fun inner => ?_⟩
      show Prog.Sharing (ite _ _ _)
      split
      · exact Prog.Sharing.bind searchChild_sh fun q => searchLeafR_sh f q
      · trivial

theorem leftmost_sh : ∀ (f : Nat) (p : Ptr), (leftmost f p : Prog K V Ptr).Sharing
  | 0, _ => trivial
  | f + 1, p => by
    rw [leftmost]
    refine ⟨trivial, fun inner => ?_⟩
    show Prog.Sharing (ite _ _ _)
    split
    · refine ⟨trivial, fun _ => ⟨trivial, fun n => ?_⟩⟩
      show Prog.Sharing (ite _ _ _)
      split
      · exact ⟨trivial, fun _ => ⟨trivial, fun root => leftmost_sh f root⟩⟩
      · exact Prog.Sharing.lift _ fun q => ⟨trivial, fun _ => leftmost_sh f q⟩
    · exact ⟨trivial, fun _ => trivial⟩

theorem iterate_sh {e : ScanKey K} : ∀ (f : Nat) (p : Ptr) (pos : Nat), (iterate e f p pos : Prog K V (List (K × V))).Sharing
  | 0, _, _ => trivial
  | f + 1, p, pos => by
    rw [iterate]
    refine ⟨trivial, fun n => ⟨trivial, fun _ => ?_⟩⟩
    refine Prog.Sharing.lift _ fun x => Prog.Sharing.lift _ fun l => ?_
    split
    · exact ⟨trivial, fun _ => trivial⟩
    · cases h : n.next with
      | none => trivial
      | some q => exact ⟨trivial, fun _ => ⟨trivial, fun _ => (Prog.Sharing.bind (iterate_sh f q 0) fun l' => trivial :
          (iterate e f q 0 >>= fun l' => pure (l ++ l') : Prog K V (List (K × V))).Sharing)⟩⟩

theorem read_sh {fuel : Nat} : (read fuel k : Prog K V (Option V)).Sharing := by
  unfold read
  refine ⟨trivial, fun root => ?_⟩
  show Prog.Sharing (searchLeafR k fuel root >>= _)
  exact Prog.Sharing.bind (searchLeafR_sh _ _) fun _ => ⟨trivial, fun _ => Prog.Sharing.lift _ fun _ => ⟨trivial, fun _ => trivial⟩⟩

theorem scan_sh {fuel : Nat} {b e : ScanKey K} : (scan fuel b e : Prog K V (List (K × V))).Sharing := by
  unfold scan
  refine ⟨trivial, fun root => ?_⟩
  have rest : ∀ leaf : Ptr, (Prog.load leaf >>= fun n => Prog.lift (CScan.beginPos b n) >>= fun pos =>
      iterate e fuel leaf pos : Prog K V (List (K × V))).Sharing :=
    fun leaf => ⟨trivial, fun _ => Prog.Sharing.lift _ fun pos => iterate_sh _ _ _⟩
  cases b with
  | none =>
    show Prog.Sharing (leftmost fuel root >>= _)
    exact Prog.Sharing.bind (leftmost_sh _ _) rest
  | some x =>
    show Prog.Sharing (searchLeafR x.1 fuel root >>= _)
    exact Prog.Sharing.bind (searchLeafR_sh _ _) rest

/-- `Read` and `Scan` own no page. -/
theorem execS_sh (fuel : Nat) (op : Op K V) (h : ¬ Writes op) : (execS cfg fuel op : Prog K V _).Sharing := by
  cases op with
  | read k => exact Prog.Sharing.bind read_sh fun _ => trivial
  | scan b e => exact Prog.Sharing.bind scan_sh fun _ => trivial
  | _ => exact absurd trivial h

theorem exec_sh (fuel : Nat) (op : Op K V) (h : ¬ Writes op) : (exec cfg fuel op : Prog K V _).Sharing := by
  cases op with
  | read k => exact Prog.Sharing.bind read_sh fun _ => trivial
  | scan b e => trivial
  | _ => exact absurd trivial h

theorem idle (hr : Roomy cfg L) (hb : cfg.blink = true) {c0 : Conf K V} (h0 : VInv (bp cfg false) (fun _ => False) c0)
    (hc : Conf.Reach (exec cfg) c0 c) : VInv (bp cfg false) (fun _ => False) c := by
  refine VInv.reach (adm := fun _ => True) (fun fuel op _ => ?_) (fun _ _ h => h.elim) h0 hc (fun _ _ _ => trivial)
  have key : ∀ op : Op K V, Gives cfg false (execS cfg fuel op) := fun op => exec_vwp hr hb fuel op (fun h => by cases h)
  cases op with
  | scan b e => exact fun _ _ => trivial
  | read k => exact key (.read k)
  | write k v => exact key (.write k v)
  | insert k v => exact key (.insert k v)
  | update k v => exact key (.update k v)
  | delete k => exact key (.delete k)

theorem idleS (hr : Roomy cfg L) (hb : cfg.blink = true) {c0 : Conf K V} (h0 : VInv (bp cfg false) (fun _ => False) c0)
    (hc : Conf.Reach (execS cfg) c0 c) : VInv (bp cfg false) (fun _ => False) c :=
  VInv.reach (adm := fun _ => True) (fun fuel op _ => exec_vwp hr hb fuel op (fun h => by cases h)) (fun _ _ h => h.elim)
    h0 hc (fun _ _ _ => trivial)
end CPsl

namespace COsl
theorem exec_sh (fuel : Nat) (op : Op K V) (h : ¬ Writes op) : (exec cfg fuel op : Prog K V _).Sharing := by
  cases op with
  | read k => exact Prog.Sharing.bind (.of read_lf) fun _ => trivial
  | scan b e => trivial
  | _ => exact absurd trivial h

theorem idle (hr : Roomy cfg L) (hb : cfg.blink = true) {c0 : Conf K V} (h0 : VInv (bp cfg false) (fun _ => False) c0)
    (hc : Conf.Reach (exec cfg) c0 c) : VInv (bp cfg false) (fun _ => False) c := by
  refine VInv.reach (adm := fun _ => True) (fun fuel op _ => ?_) (fun _ _ h => h.elim) h0 hc (fun _ _ _ => trivial)
  have key : ∀ op : Op K V, CPsl.Gives cfg false (execS cfg fuel op) := fun op => exec_vwp hr hb fuel op (fun h => by cases h)
  cases op with
  | scan b e => exact fun _ _ => trivial
  | read k => exact key (.read k)
  | write k v => exact key (.write k v)
  | insert k v => exact key (.insert k v)
  | update k v => exact key (.update k v)
  | delete k => exact key (.delete k)
end COsl

/-! ## Only writers own pages -/

/-- Thread `t` owns page `q`. -/
def Mem.Owns (m : Mem K V) (t : Tid) (q : Ptr) : Prop := (m.lk q).six = some t ∨ (m.lk q).x = some t

theorem Act.owns {a : Act K V β} {b : β} {m m' : Mem K V} (h : a.run t m = .run (b, m')) {q : Ptr} (ho : m'.Owns u q) :
    m.Owns u q ∨ u = t ∧ ¬ a.sharing := by
  have set : ∀ {p : Ptr} {l : Lk}, (m.setLk p l).Owns u q → (l.six = some u → (m.lk p).six = some u ∨ (m.lk p).x = some u ∨ u = t ∧ ¬ a.sharing) →
      (l.x = some u → (m.lk p).six = some u ∨ (m.lk p).x = some u ∨ u = t ∧ ¬ a.sharing) → m.Owns u q ∨ u = t ∧ ¬ a.sharing := by
    intro p l h h1 h2
    by_cases e : q = p
    · subst e
      have h : ((m.setLk q l).lk q).six = some u ∨ ((m.setLk q l).lk q).x = some u := h
      rw [show (m.setLk q l).lk q = l from Spec.upd_same _ _ _] at h
      rcases h with h | h
      · rcases h1 h with h | h | h
        · exact Or.inl (Or.inl h)
        · exact Or.inl (Or.inr h)
        · exact Or.inr h
      · rcases h2 h with h | h | h
        · exact Or.inl (Or.inl h)
        · exact Or.inl (Or.inr h)
        · exact Or.inr h
    · left
      have h : ((m.setLk p l).lk q).six = some u ∨ ((m.setLk p l).lk q).x = some u := h
      rw [show (m.setLk p l).lk q = m.lk q from if_neg e] at h
      exact h
  have me : ∀ {x : Option Tid}, x = some t → x = some u → ¬ a.sharing → u = t ∧ ¬ a.sharing := by
    intro x h h' hs
    rw [h] at h'
    exact ⟨(Option.some.inj h').symm, hs⟩
  cases a <;> simp only [Act.run] at h <;> (try split at h) <;> (try split at h) <;> (try split at h) <;> cases h <;>
    first
      | exact Or.inl ho
      | exact set ho (fun h => Or.inl h) (fun h => Or.inr (Or.inl h))
      | exact set ho (fun h => Or.inr (Or.inr (me rfl h id))) (fun h => Or.inr (Or.inl h))
      | exact set ho (fun h => Or.inl h) (fun h => Or.inr (Or.inr (me rfl h id)))
      | exact set ho (fun h => Or.inl h) (fun h => by cases h)
      | exact set ho (fun h => by cases h) (fun h => Or.inr (Or.inl h))
      | exact set ho (fun h => by cases h) (fun h => Or.inr (Or.inr (me rfl h id)))
      | exact set ho (fun h => Or.inr (Or.inr (me rfl h id))) (fun h => by cases h)

/-- Calls of `Read` and `Scan` own no page. -/
def Conf.Readers (c : Conf K V) : Prop :=
  ∀ t p, c.thr t = some p → ∃ op, Pending c.hist t op ∧ (Writes op ∨ p.Sharing ∧ ∀ q, ¬ c.mem.Owns t q)

theorem Conf.Readers.reach {I : CImpl K V} (hI : ∀ fuel op, ¬ Writes op → (I fuel op).Sharing)
    {c0 : Conf K V} (h0 : ∀ t, c0.thr t = none) (hf : ∀ c, Conf.Reach I c0 c → c.IdleFree) (hc : Conf.Reach I c0 c) : c.Readers := by
  induction hc with
  | refl => intro t p h; rw [h0] at h; cases h
  | @step c1 c2 h1 h2 ih =>
    cases h2 with
    | inv u op fuel hn =>
      intro t p h
      by_cases e : t = u
      · subst e
        simp only [Spec.upd, if_true] at h
        cases h
        refine ⟨op, ⟨c1.hist, [], rfl, by simp⟩, ?_⟩
        by_cases hw : Writes op
        · exact Or.inl hw
        · refine Or.inr ⟨hI _ _ hw, fun q hq => ?_⟩
          rcases hq with hq | hq
          · exact (hf _ h1 t hn q).1 hq
          · exact (hf _ h1 t hn q).2 hq
      · simp only [Spec.upd, if_neg e] at h
        obtain ⟨o, ho, hr⟩ := ih t p h
        exact ⟨o, ho.snoc (by simp), hr⟩
    | @act u _ a k b m h0 hrun =>
      intro t p h
      by_cases e : t = u
      · subst e
        simp only [Spec.upd, if_true] at h
        cases h
        obtain ⟨o, ho, hr⟩ := ih t _ h0
        refine ⟨o, ho, hr.imp id fun hs => ⟨hs.1.2 b, fun q hq => ?_⟩⟩
        rcases Act.owns hrun hq with h | h
        · exact hs.2 q h
        · exact h.2 hs.1.1
      · simp only [Spec.upd, if_neg e] at h
        obtain ⟨o, ho, hr⟩ := ih t p h
        refine ⟨o, ho, hr.imp id fun hs => ⟨hs.1, fun q hq => ?_⟩⟩
        rcases Act.owns hrun hq with h | h
        · exact hs.2 q h
        · exact e h.1
    | @crash u _ _ _ h0 _ =>
      intro t p h
      by_cases e : t = u
      · subst e
        simp only [Spec.upd, if_true] at h
        cases h
        obtain ⟨o, ho, hr⟩ := ih t _ h0
        exact ⟨o, ho, hr.imp id fun hs => ⟨trivial, hs.2⟩⟩
      · simp only [Spec.upd, if_neg e] at h
        exact ih t p h
    | @res u out h0 =>
      intro t p h
      by_cases e : t = u
      · subst e
        simp only [Spec.upd, if_true] at h
        cases h
      · simp only [Spec.upd, if_neg e] at h
        obtain ⟨o, ho, hr⟩ := ih t p h
        exact ⟨o, ho.snoc (by rintro out' e'; injection e' with e'; exact e e'.symm), hr⟩

theorem OneWriter.unique {h : List (Ev K V)} (ho : OneWriter h) {op op' : Op K V} (h1 : Pending h t op) (h2 : Pending h u op')
    (w1 : Writes op) (w2 : Writes op') : t = u := by
  obtain ⟨a, b, e, hn⟩ := h1
  obtain ⟨a', b', e', hn'⟩ := h2
  rw [e] at e'
  rcases List.append_eq_append_iff.1 e' with ⟨d, e1, e2⟩ | ⟨d, e1, e2⟩
  · cases d with
    | nil => simp only [List.nil_append, List.cons.injEq, Ev.inv.injEq] at e2; exact e2.1.1
    | cons x d =>
      simp only [List.cons_append, List.cons.injEq] at e2
      obtain ⟨rfl, e2⟩ := e2
      obtain ⟨out, hm⟩ := ho a d b' t u op op' (by rw [e, e2]) w1 w2
      exact absurd (by rw [e2]; exact List.mem_append_left _ hm) (hn out)
  · cases d with
    | nil => simp only [List.nil_append, List.cons.injEq, Ev.inv.injEq] at e2; exact e2.1.1.symm
    | cons x d =>
      simp only [List.cons_append, List.cons.injEq] at e2
      obtain ⟨rfl, e2⟩ := e2
      obtain ⟨out, hm⟩ := ho a' d b u t op' op (by rw [e, e1]; simp) w2 w1
      exact absurd (by rw [e2]; exact List.mem_append_left _ hm) (hn' out)

/-! ## Nobody waits in a circle -/

/-- Whoever asks to own a page asks for one that they do not own already. -/
def Conf.Asking (cfg : Cfg K) (c : Conf K V) : Prop :=
  ∀ (t : Tid) (β : Type) (a : Act K V β) (k : β → Prog K V (Out K V)), c.thr t = some (.act a k) → ¬ a.sharing →
    ∃ w : World K V, w.mem.lk = c.mem.lk ∧ CInv cfg w ∧ a.Asks t w

theorem SoloSim.asking {m0 : Map K V} (h : SoloSim cfg m0 c) : c.Asking cfg := by
  intro t β a k e _
  obtain ⟨w, h1, h2, h3⟩ := h.asks e
  exact ⟨w, by rw [h1], h2, h3⟩

theorem solo_ranked {ro : Op K V → Prop} (hv : VInv P ro c) (hu : P.u = true) (hs : c.Asking cfg) (hR : c.Readers) (ho : OneWriter c.hist) :
    c.Ranked := by
  -- whoever owns a page or asks for one is the writer
  have own : ∀ {u q}, c.mem.Owns u q → ∃ op, Pending c.hist u op ∧ Writes op := by
    intro u q h
    cases e : c.thr u with
    | none =>
      rcases h with h | h
      · exact absurd h (hv.idleFree u e q).1
      · exact absurd h (hv.idleFree u e q).2
    | some p =>
      obtain ⟨op, h1, h2⟩ := hR u p e
      exact ⟨op, h1, h2.resolve_right fun h' => h'.2 q h⟩
  have ask : ∀ {t : Tid} {β : Type} {a : Act K V β} {k}, c.thr t = some (.act a k) → ¬ a.sharing → ∃ op, Pending c.hist t op ∧ Writes op := by
    intro t β a k e hn
    obtain ⟨op, h1, h2⟩ := hR t _ e
    exact ⟨op, h1, h2.resolve_right fun h' => hn h'.1.1⟩
  have self : ∀ {t u q} {β : Type} {a : Act K V β} {k}, c.thr t = some (.act a k) → ¬ a.sharing → c.mem.Owns u q → u = t := by
    intro t u q β a k e hn h
    obtain ⟨_, h1, h2⟩ := own h
    obtain ⟨_, h3, h4⟩ := ask e hn
    exact OneWriter.unique ho h1 h3 h2 h4
  have wOwn : ∀ {t q} {w : World K V}, w.mem.lk = c.mem.lk → c.mem.Owns t q → w.Own t q := by
    intro t q w e h
    show (w.mem.lk q).six = some t ∨ (w.mem.lk q).x = some t
    rw [e]; exact h
  -- what never waits
  have six : ∀ {t q} {k : Unit → Prog K V (Out K V)}, c.thr t = some (.act (.lockSIX q) k) → (Act.lockSIX q : Act K V Unit).run t c.mem ≠ .wait := by
    intro t q k e h
    obtain ⟨u, hu⟩ := Act.wait_held h
    have hu : c.mem.Owns u q := hu.symm
    have := self e id hu
    subst this
    obtain ⟨w, e1, -, h2⟩ := hs _ _ _ _ e id
    exact h2 (wOwn e1 hu)
  have sixT : ∀ {t q v} {k : Bool → Prog K V (Out K V)}, c.thr t = some (.act (.tryLockSIX q v) k) →
      (Act.tryLockSIX q v : Act K V Bool).run t c.mem ≠ .wait := by
    intro t q v k e h
    obtain ⟨u, hu⟩ := Act.wait_held h
    have hu : c.mem.Owns u q := hu.symm
    have := self e id hu
    subst this
    obtain ⟨w, e1, -, h2⟩ := hs _ _ _ _ e id
    exact h2 (wOwn e1 hu)
  have ex : ∀ {t q} {k : Unit → Prog K V (Out K V)}, c.thr t = some (.act (.lockX q) k) → (Act.lockX q : Act K V Unit).run t c.mem ≠ .wait := by
    intro t q k e h
    obtain ⟨u, hu'⟩ := Act.wait_held h
    obtain ⟨w, e1, hi, h2⟩ := hs _ _ _ _ e id
    have h2 : w.st q = .priv t := h2
    have hne : (c.mem.lk q).md u ≠ Md.none := by
      rcases hu' with h | h | h
      · exact Md.ne_of_x (Lk.md_of_x h)
      · exact Md.ne_of_six (Lk.md_of_six h)
      · exact Md.ne_of_s (Lk.md_of_s h)
    have hp : w.st q = .priv u := by
      refine hi.lkn q u (fun hp => World.not_pub_priv h2 hp) ?_
      rcases hu' with h | h | h
      · exact Or.inl (wOwn e1 (Or.inr h))
      · exact Or.inl (wOwn e1 (Or.inl h))
      · exact Or.inr (by show u ∈ (w.mem.lk q).s; rw [e1]; exact h)
    have : u = t := by rw [h2] at hp; injection hp with hp; exact hp.symm
    subst this
    obtain ⟨σ, s1, -, s3⟩ := hv.thr u
    have hb : (Act.lockX q : Act K V Unit).vwp P σ _ := (s3 _ e).1
    rw [s1.L] at hne
    exact absurd ((hb.1 hu) q hne).2 (lt_irrefl _)
  have exT : ∀ {t q v} {k : Bool → Prog K V (Out K V)} {u}, c.thr t = some (.act (.tryLockX q v) k) → ¬ c.mem.Owns u q := by
    intro t q v k u e h
    have := self e id h
    subst this
    obtain ⟨w, e1, -, h2⟩ := hs _ _ _ _ e id
    exact h2 (wOwn e1 h)
  refine ⟨fun _ a => a.rank c.mem.fresh, ?_⟩
  intro t u β γ a k b k' h1 h2 h3 h4 h5
  change b.rank c.mem.fresh < a.rank c.mem.fresh
  obtain ⟨σ, s1, -, s3⟩ := hv.thr u
  have hb : b.vwp P σ (fun b σ' => (k' b).vwp P σ' (fun _ σ' => σ'.Free)) := (s3 _ h4).1
  have hL := s1.L
  -- what the holder may wait for
  have kx : ∀ p, (c.mem.lk p).x = some u → False := by
    intro p hp
    have hx : (σ.L p).x = true := by rw [← hL]; exact Lk.md_of_x hp
    obtain ⟨w, hw⟩ := Act.wait_held h5
    cases b <;> try exact hw.elim
    case lockS q => have := (hb.1.2.1 hu) p; rw [hx] at this; cases this
    case getVer q => have := (hb.1.2.1 hu) p; rw [hx] at this; cases this
    case lockSIX q => exact six h4 h5
    case tryLockSIX q v => exact sixT h4 h5
    case tryLockX q v => have := (hb.1 hu) p; rw [this] at hx; cases hx
    case lockX q => exact ex h4 h5
    case upgradeX q => have := ((hb.1 hu) p).2; rw [hx] at this; cases this
  have ks : ∀ p, u ∈ (c.mem.lk p).s → b.rank c.mem.fresh = 1 := by
    intro p hp
    have hx : 0 < (σ.L p).s := by rw [← hL]; exact Lk.md_of_s hp
    obtain ⟨w, hw⟩ := Act.wait_held h5
    cases b <;> try exact hw.elim
    case lockS q => rfl
    case getVer q => rfl
    case lockSIX q => exact (six h4 h5).elim
    case tryLockSIX q v => exact (sixT h4 h5).elim
    case tryLockX q v => have := (hb.1 hu) p; rw [this] at hx; exact absurd hx (Nat.lt_irrefl 0)
    case lockX q => exact (ex h4 h5).elim
    case upgradeX q => have := ((hb.1 hu) p).1; rw [this] at hx; exact absurd hx (Nat.lt_irrefl 0)
  cases a <;> try exact h3.elim
  case lockS p => exact (kx p h3).elim
  case getVer p => exact (kx p h3).elim
  case upgradeX p => rw [ks p h3]; simp [Act.rank]
  case lockX p => exact (ex h1 h2).elim
  case lockSIX p => exact (six h1 h2).elim
  case tryLockSIX p v => exact (sixT h1 h2).elim
  case tryLockX p v =>
    rcases h3 with h3 | h3 | h3
    · exact (exT h1 (Or.inr h3)).elim
    · exact (exT h1 (Or.inl h3)).elim
    · rw [ks p h3]; simp only [Act.rank]; omega

end BT
