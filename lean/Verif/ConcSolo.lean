import Verif.ConcTail

/-!
# Executions with one writer at a time

`solo_ok`: if the code of every call is correct in the logic of the B-link trees, then no execution in which calls that can change the map
do not overlap runs into undefined behaviour, and its history is linearizable.  Other than in `Lg.adequate` no situation is excluded: the
world knows which thread may write (`wr`), and the code shows that no noted situation can occur (`MayRace`).
-/

set_option linter.unusedSectionVars false

namespace BT
open Spec
variable {K V : Type} [LinearOrder K] {cfg : Cfg K} {w w' : World K V} {t : Tid} {m0 : Map K V}

theorem OneWriter.prefix {h l : List (Ev K V)} (ho : OneWriter (h ++ l)) : OneWriter h := by
  intro h1 h2 h3 t u op op' e
  exact ho h1 h2 (h3 ++ l) t u op op' (by rw [e]; simp)

instance : DecidablePred (Writes : Op K V → Prop) := fun op => by cases op <;> unfold Writes <;> infer_instance

/-- `OneWriter` as a check from left to right; `o` is the thread whose write is in progress. -/
def oneWriterFrom (o : Option Nat) : List (Ev K V) → Bool
  | [] => true
  | .inv t op :: h => if Writes op then o.isNone && oneWriterFrom (some t) h else oneWriterFrom o h
  | .res t _ :: h => oneWriterFrom (if o = some t then none else o) h

theorem oneWriterFrom_busy {h : List (Ev K V)} {u : Nat} {op : Op K V} (hop : Writes op) : ∀ l : List (Ev K V),
    oneWriterFrom (some t) (l ++ .inv u op :: h) = true → ∃ out, .res t out ∈ l
  | [], e => by simp [oneWriterFrom, hop] at e
  | .inv v op' :: l, e => by
    simp only [List.cons_append, oneWriterFrom] at e
    split at e
    · simp at e
    · obtain ⟨out, ho⟩ := oneWriterFrom_busy hop l e
      exact ⟨out, List.mem_cons_of_mem _ ho⟩
  | .res v out :: l, e => by
    simp only [List.cons_append, oneWriterFrom] at e
    split at e
    · next hv =>
      cases hv
      exact ⟨out, List.mem_cons_self⟩
    · obtain ⟨out, ho⟩ := oneWriterFrom_busy hop l e
      exact ⟨out, List.mem_cons_of_mem _ ho⟩

theorem oneWriter_of_check {h : List (Ev K V)} (e : oneWriterFrom none h = true) : OneWriter h := by
  intro h1 h2 h3 t u op op' rfl' ho ho'
  subst rfl'
  generalize (none : Option Nat) = o at e
  induction h1 generalizing o with
  | nil =>
    simp only [List.nil_append, oneWriterFrom, if_pos ho, Bool.and_eq_true] at e
    exact oneWriterFrom_busy ho' h2 e.2
  | cons x l ih =>
    cases x with
    | inv v op1 =>
      simp only [List.cons_append, oneWriterFrom] at e
      split at e
      · simp only [Bool.and_eq_true] at e
        exact ih _ e.2
      · exact ih _ e
    | res v out =>
      simp only [List.cons_append, oneWriterFrom] at e
      exact ih _ e

/-- Thread `x` may write. -/
def World.setWr (w : World K V) (x : Option Tid) : World K V := { w with wr := x }

theorem CInv.setWr {x : Option Tid} (h : CInv cfg w) (hx : ∀ q u, w.pend q = some u → x = some u)
    (hx' : ∀ p τ q u, w.st p = .stale τ q u → x = some u) : CInv cfg (w.setWr x) := by
  obtain ⟨h1, h2, h2', h3, h4, h5, h6, h7, h8, h9, h10, h11, h12, h13, h14, h15, h16, h17, h18, h19, h20⟩ := h
  exact ⟨h1, h2, h2', h3, h4, h5, h6, h7, h8, h9, h10, h11, h12, h13, h14, h15, h16, h17, h18, h19, fun s => ⟨(h20 s).1, hx, fun p τ q u e => ⟨hx' p τ q u e, ((h20 s).2.2 p τ q u e).2⟩⟩⟩

theorem rely_setWr {x : Option Tid} (hs : w.solo = true) (hx : w.wr = some t → x = some t) : Rely t w (w.setWr x) := by
  have r := Rely.refl t w
  obtain ⟨⟨⟨e1, e2, e3, e4, e5, e6⟩, k2, k3, k4, k5, k6, k7, k8, k9, kc, kt, -⟩, r2, r3, r4, r5, r6, r7, r8⟩ := r
  exact ⟨⟨⟨e1, e2, e3, e4, e5, e6⟩, k2, k3, k4, k5, k6, k7, k8, k9, kc, kt, rfl, fun h _ => hx (h hs)⟩, r2, r3, r4, r5, r6, r7, r8⟩

/-- What holds of a thread that is between two calls. -/
def World.Rest (w : World K V) (t : Tid) : Prop := w.NoStale t ∧ w.Clean t

theorem World.Rest.rely (h : w.Rest t) (r : Rely t w w') : w'.Rest t :=
  ⟨r.kp.noStaleT h.1, h.2.le r.kp.pendLe⟩

/-- Threads between two calls own no page. -/
def Conf.IdleFree (c : Conf K V) : Prop := ∀ t, c.thr t = none → ∀ q, (c.mem.lk q).six ≠ some t ∧ (c.mem.lk q).x ≠ some t

/-- Configurations and worlds, as long as there is one writer at a time. -/
def SoloAt (cfg : Cfg K) (m0 : Map K V) (c : Conf K V) (w : World K V) : Prop :=
  w.mem = c.mem ∧ w.solo = true ∧ CInv cfg w ∧ Past true m0 w.ps c.hist ∧
    (∀ u, w.wr = some u → ∃ h1 op h2, c.hist = h1 ++ .inv u op :: h2 ∧ Writes op ∧ ∀ out, .res u out ∉ h2) ∧
    ∀ t, (c.thr t = none → w.ps.ph t = .idle ∧ w.Rest t) ∧
      ∀ p, c.thr t = some p → ∃ w0, Rely t w0 w ∧ WP cfg t p (fun out w => w.ps.ph t = .done out ∧ w.Rest t) w0

def SoloSim (cfg : Cfg K) (m0 : Map K V) (c : Conf K V) : Prop := ∃ w : World K V, SoloAt cfg m0 c w

/-- What is asked of the code of a call. -/
def CallOk (cfg : Cfg K) (I : CImpl K V) : Prop :=
  ∀ (t : Tid) (fuel : Nat) (op : Op K V) (w : World K V), CInv cfg w → w.NoStale t → (Writes op → w.Wr t) → w.Clean t → w.Bare t →
    w.ps.ph t = .waiting op w.now → WP cfg t (I fuel op) (fun out w' => Ended t w out w') w

theorem SoloAt.step {I : CImpl K V} (hI : CallOk cfg I) {c c' : Conf K V} (h : SoloAt cfg m0 c w) (hf : c.IdleFree) (ho : OneWriter c'.hist)
    (hs : Conf.Step I c c') : ∃ w' u, SoloAt cfg m0 c' w' ∧ (blg V cfg).Moved I u c c' w w' := by
  obtain ⟨e, so, hi, hp, hw, ht⟩ := h
  cases hs with
  | inv t op fuel h0 =>
    obtain ⟨hid, hns, hcl⟩ := (ht t).1 h0
    -- a writer is alone
    have hnone : Writes op → w.wr = none := by
      intro hop
      cases e : w.wr with
      | none => rfl
      | some u =>
        obtain ⟨h1, op1, h2, e1, e2, e3⟩ := hw u e
        obtain ⟨out, h4⟩ := ho h1 h2 [] u t op1 op (by simp [e1]) e2 hop
        exact absurd h4 (e3 out)
    obtain ⟨x, hx1, hx2, hx3⟩ : ∃ x : Option Tid, (Writes op → x = some t) ∧ (∀ u, w.wr = some u → x = some u) ∧
        (∀ u, x = some u → w.wr = some u ∨ (u = t ∧ Writes op)) := by
      by_cases hop : Writes op
      · refine ⟨some t, fun _ => rfl, fun u e => ?_, fun u e => Or.inr ⟨(Option.some.inj e).symm, hop⟩⟩
        rw [hnone hop] at e; cases e
      · exact ⟨w.wr, fun h => absurd h hop, fun _ e => e, fun _ e => Or.inl e⟩
    have i1 : CInv cfg (w.setWr x) := hi.setWr (fun q u e => hx2 u ((hi.solo so).2.1 q u e)) (fun p τ q u e => hx2 u ((hi.solo so).2.2 p τ q u e).1)
    set w' := (w.setWr x).setPh t (.waiting op w.now) with hw'
    have i2 : CInv cfg w' := i1.setPh _ _
    have hba : w'.Bare t := by
      rintro - q (h | h)
      · exact (hf t h0 q).1 (by rw [← e]; exact h)
      · exact (hf t h0 q).2 (by rw [← e]; exact h)
    have rel : ∀ u, u ≠ t → Rely u w w' := fun u hu => (rely_setWr so (hx2 u)).trans (rely_setPh _ t _ u hu)
    refine ⟨w', t, ⟨e, so, i2, Past.inv t op hp hid, fun u hu => ?_, fun u => ?_⟩, rel, fun u hu => Spec.upd_ne _ _ hu,
      Or.inr ⟨rfl, Or.inl ⟨fuel, op, h0, Spec.upd_same _ _ _⟩⟩⟩
    · rcases hx3 u hu with h | ⟨rfl, h⟩
      · obtain ⟨h1, op1, h2, e1, e2, e3⟩ := hw u h
        refine ⟨h1, op1, h2 ++ [.inv t op], by simp [e1], e2, fun out hm => ?_⟩
        rcases List.mem_append.1 hm with hm | hm
        · exact e3 out hm
        · simp at hm
      · exact ⟨c.hist, op, [], rfl, h, by simp⟩
    · by_cases hu : u = t
      · subst hu
        simp only [Spec.upd, if_true]
        refine ⟨fun h => (by cases h), ?_⟩
        intro p hp'
        cases hp'
        refine ⟨w', Rely.refl _ _, (hI _ _ _ _ i2 hns (fun h _ => hx1 h) hcl hba ?_).mono fun out w2 h => ⟨h.1, h.2.1, h.2.2.1⟩⟩
        exact Spec.upd_same _ _ _
      · simp only [Spec.upd, if_neg hu]
        refine ⟨fun hn => ?_, fun p hp' => ?_⟩
        · obtain ⟨h1, h2⟩ := (ht u).1 hn
          exact ⟨(rel u hu).kp.ph.trans h1, h2.rely (rel u hu)⟩
        · obtain ⟨w0, h1, h2⟩ := (ht u).2 p hp'
          exact ⟨w0, h1.trans (rel u hu), h2⟩
  | @act t β a k b m h0 hrun =>
    obtain ⟨w0, h1, h2⟩ := (ht t).2 _ h0
    obtain ⟨⟨-, hask⟩, h3⟩ := h2 w h1 hi
    rcases h3 b m (by show a.run t w.mem = _; rw [e]; exact hrun) with h4 | ⟨w2, h4, h5, h6⟩
    · have : w.solo = false := h4.2
      rw [so] at this; cases this
    · have kp : w2.solo = w.solo ∧ w2.wr = w.wr := h5.keep
      have rel : ∀ u, u ≠ t → Rely u w w2 := fun u hu => h5.guar u hu
      refine ⟨w2, t, ⟨h4, kp.1.trans so, h5.inv, h5.past _ hp, fun u hu => hw u (kp.2.symm.trans hu), fun u => ?_⟩, rel,
        fun u hu => Spec.upd_ne _ _ hu, Or.inl ⟨β, a, k, b, h0, hrun, Spec.upd_same _ _ _, hask⟩⟩
      by_cases hu : u = t
      · subst hu
        simp only [Spec.upd, if_true]
        refine ⟨fun h => (by cases h), ?_⟩
        intro p hp'
        cases hp'
        exact ⟨w2, Rely.refl _ _, h6⟩
      · simp only [Spec.upd, if_neg hu]
        refine ⟨fun hn => ?_, fun p hp' => ?_⟩
        · obtain ⟨h7, h8⟩ := (ht u).1 hn
          exact ⟨(rel u hu).kp.ph.trans h7, h8.rely (rel u hu)⟩
        · obtain ⟨w3, h7, h8⟩ := (ht u).2 p hp'
          exact ⟨w3, h7.trans (rel u hu), h8⟩
  | @crash t β a k h0 hrun =>
    obtain ⟨w0, h1, h2⟩ := (ht t).2 _ h0
    obtain ⟨⟨h3, -⟩, -⟩ := h2 w h1 hi
    exact absurd (by show a.run t w.mem = _; rw [e]; exact hrun) h3
  | @res t out h0 =>
    obtain ⟨w0, h1, h2, h2'⟩ := (ht t).2 _ h0
    have hd : w.ps.ph t = .done out := h1.kp.ph.trans h2
    have hrest := h2'.rely h1
    obtain ⟨x, hx1, hx2, hx3⟩ : ∃ x : Option Tid, (∀ u, u ≠ t → w.wr = some u → x = some u) ∧ (∀ u, x = some u → w.wr = some u ∧ u ≠ t) ∧
        True := by
      by_cases hx : w.wr = some t
      · refine ⟨none, fun u hu e => ?_, fun u e => (by cases e), trivial⟩
        rw [hx] at e
        exact absurd (Option.some.inj e).symm hu
      · refine ⟨w.wr, fun _ _ e => e, fun u e => ⟨e, ?_⟩, trivial⟩
        rintro rfl
        exact hx e
    have i1 : CInv cfg (w.setWr x) := hi.setWr (fun q u e => hx1 u (by rintro rfl; exact hrest.2 q e) ((hi.solo so).2.1 q u e))
      (fun p τ q u e => hx1 u (by rintro rfl; exact hrest.1.1 p τ q e) ((hi.solo so).2.2 p τ q u e).1)
    set w' := (w.setWr x).setPh t .idle with hw'
    have rel : ∀ u, u ≠ t → Rely u w w' := fun u hu => (rely_setWr so (hx1 u hu)).trans (rely_setPh _ t _ u hu)
    refine ⟨w', t, ⟨e, so, i1.setPh _ _, Past.res hp hd, fun u hu => ?_, fun u => ?_⟩, rel, fun u hu => Spec.upd_ne _ _ hu,
      Or.inr ⟨rfl, Or.inr ⟨out, h0, Spec.upd_same _ _ _⟩⟩⟩
    · obtain ⟨a, b⟩ := hx2 u hu
      obtain ⟨h1, op1, h2, e1, e2, e3⟩ := hw u a
      refine ⟨h1, op1, h2 ++ [.res t out], by simp [e1], e2, fun o hm => ?_⟩
      rcases List.mem_append.1 hm with hm | hm
      · exact e3 o hm
      · rw [List.mem_singleton] at hm
        injection hm with h4 h5
        exact b h4
    · by_cases hu : u = t
      · subst hu
        simp only [Spec.upd, if_true]
        refine ⟨fun _ => ⟨Spec.upd_same _ _ _, hrest⟩, ?_⟩
        intro p hp'
        cases hp'
      · simp only [Spec.upd, if_neg hu]
        refine ⟨fun hn => ?_, fun p hp' => ?_⟩
        · obtain ⟨h1, h2⟩ := (ht u).1 hn
          exact ⟨(rel u hu).kp.ph.trans h1, h2.rely (rel u hu)⟩
        · obtain ⟨w0, h1, h2⟩ := (ht u).2 p hp'
          exact ⟨w0, h1.trans (rel u hu), h2⟩

theorem SoloSim.step {I : CImpl K V} (hI : CallOk cfg I) {c c' : Conf K V} (h : SoloSim cfg m0 c) (hf : c.IdleFree) (ho : OneWriter c'.hist)
    (hs : Conf.Step I c c') : SoloSim cfg m0 c' := by
  obtain ⟨w, h⟩ := h
  obtain ⟨w', -, h', -⟩ := h.step hI hf ho hs
  exact ⟨w', h'⟩

theorem SoloSim.start (hb : cfg.blink = true) : SoloSim cfg Spec.empty (Conf.init : Conf K V) := by
  refine ⟨World.start (!cfg.blink) true, rfl, rfl, CInv.start cfg true (fun _ => hb), Past.init _ rfl, fun u h => (by cases h),
    fun t => ⟨fun _ => ⟨rfl, ?_, ?_⟩, fun p hp => by cases hp⟩⟩
  · refine ⟨fun p τ q h => ?_, fun h => (by cases h)⟩
    have h : (if p = 0 then PSt.live else PSt.free) = .stale τ q t := h
    split at h <;> cases h
  · intro q h
    cases h

theorem solo_sim {I : CImpl K V} (hI : CallOk cfg I) {c0 : Conf K V} (h0 : SoloSim cfg m0 c0) (hf : ∀ c, Conf.Reach I c0 c → c.IdleFree)
    {c : Conf K V} (hc : Conf.Reach I c0 c) (ho : OneWriter c.hist) : SoloSim cfg m0 c := by
  induction hc with
  | refl => exact h0
  | @step c1 c2 h1 h2 ih =>
    refine (ih ?_).step hI (hf _ h1) ho h2
    cases h2 with
    | inv => exact OneWriter.prefix ho
    | act => exact ho
    | crash => exact ho
    | res => exact OneWriter.prefix ho

/-- Executions with one writer at a time; a scan takes effect part by part. -/
theorem solo_partwise {I : CImpl K V} (hI : CallOk cfg I) {c0 : Conf K V} (h0 : SoloSim cfg m0 c0) (hf : ∀ c, Conf.Reach I c0 c → c.IdleFree)
    {c : Conf K V} (hc : Conf.Reach I c0 c) (ho : OneWriter c.hist) :
    c.mem.raced = false ∧ ¬ c.Bad ∧ PartwiseLinearizableFrom m0 c.hist := by
  obtain ⟨w, e, so, hi, hp, hw, ht⟩ := solo_sim hI h0 hf hc ho
  refine ⟨by rw [← e]; exact hi.raced, ?_, hp.partwise⟩
  rintro ⟨t, h⟩
  obtain ⟨w0, -, h2⟩ := (ht t).2 _ h
  exact h2

/-- Executions with one writer at a time. -/
theorem solo_ok {I : CImpl K V} (hI : CallOk cfg I) (hnr : ∀ fuel op, (I fuel op).NoRecs) {c0 : Conf K V} (h0 : SoloSim cfg m0 c0)
    (ht : ∀ t, c0.thr t = none) (hh : c0.hist = []) (hf : ∀ c, Conf.Reach I c0 c → c.IdleFree) {c : Conf K V}
    (hc : Conf.Reach I c0 c) (ho : OneWriter c.hist) : c.mem.raced = false ∧ ¬ c.Bad ∧ LinearizableFrom m0 c.hist := by
  obtain ⟨a, b, d⟩ := solo_partwise hI h0 hf hc ho
  exact ⟨a, b, d.noRecs (Conf.noRecs hnr ht hh hc)⟩

/-- With one writer at a time, what a thread asks for next. -/
theorem SoloSim.asks {c : Conf K V} (h : SoloSim cfg m0 c) {β : Type} {a : Act K V β} {k : β → Prog K V (Out K V)}
    (e : c.thr t = some (.act a k)) : ∃ w : World K V, w.mem = c.mem ∧ CInv cfg w ∧ a.Asks t w := by
  obtain ⟨w, e1, so, hi, -, -, ht⟩ := h
  obtain ⟨w0, h1, h2⟩ := (ht t).2 _ e
  exact ⟨w, e1, hi, (h2 w h1 hi).1.2.1 so⟩

end BT
