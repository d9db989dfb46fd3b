import Verif.LockPsl

/-!
# The locks of OSL
-/

set_option linter.unusedSectionVars false

namespace BT
open Prog
variable {K V : Type} [LinearOrder K] {cfg : Cfg K} {L : Nat} {σ τ : Vis K V} {S : List Ptr} {p q : Ptr} {d : Bool}

namespace Vw
variable {P : Lp K V} {α : Type} {Q : α → Vis K V → Prop}

/-- A version is taken. -/
theorem vers (hd : σ.Ask P) {f : Nat → Prog K V α} (h : ∀ v σ', σ.Le σ' → σ'.vs p v → (f v).vwp P σ' Q) :
    (Prog.getVer p >>= f).vwp P σ Q := Vw.getVer hd fun v => h v _ (σ.ver_le p v) (Or.inr ⟨rfl, rfl⟩)

/-- A page is looked at after its version has been taken. -/
theorem look (hP : P.np = true) {v : Nat} {f : Node K V → Prog K V α} (h : ∀ n, P.pg n → ∀ σ', σ.Le σ' → (σ.vs p v → σ'.pk p v n) →
    (f n).vwp P σ' Q) : (Prog.peek p >>= f).vwp P σ Q := Vw.peek fun n hn => h n hn _ (σ.saw_le p n) fun hv => by
  unfold Vis.saw
  rw [if_pos hP]
  exact Or.inr ⟨rfl, hv, rfl⟩
end Vw

namespace Vis
theorem Free.noW (h : σ.Free) : σ.NoW := fun p => by rw [h p]; exact ⟨rfl, rfl⟩
theorem Free.le (h : σ.Free) (hle : σ.Le τ) : τ.Free := fun p => by rw [hle.L]; exact h p
theorem Held.noW (h : σ.Held S) (hd : d = true → S = []) (hd' : d = true) : σ.NoW := by
  have := hd hd'
  subst this
  exact (held_nil.1 h).noW
end Vis

namespace COsl
open Vis CBlink
variable {α : Type} {Q : α → Vis K V → Prop} {k : K}

/-! ## Readers take no locks -/

section
variable {f : Nat → Prog K V α} {g : Node K V → Prog K V α} {b : Bool → Prog K V α} {r : Ptr → Prog K V α} {u : Unit → Prog K V α} {v : Nat}
theorem lf_ver (h : ∀ v, (f v).Lockfree) : (Prog.getVer p >>= f).Lockfree := ⟨trivial, h⟩
theorem lf_peek (h : ∀ n, (g n).Lockfree) : (Prog.peek p >>= g).Lockfree := ⟨trivial, h⟩
theorem lf_same (h : ∀ c, (b c).Lockfree) : (Prog.same p v >>= b).Lockfree := ⟨trivial, h⟩
theorem lf_inner (h : ∀ c, (b c).Lockfree) : (Prog.isInner p >>= b).Lockfree := ⟨trivial, h⟩
theorem lf_root (h : ∀ q, (r q).Lockfree) : (Prog.getRoot >>= r).Lockfree := ⟨trivial, h⟩
theorem lf_note {c : Bool} (h : (u ()).Lockfree) : (Prog.note c >>= u).Lockfree := ⟨trivial, fun _ => h⟩
end

theorem checkO_lf : ∀ (f : Nat) (p : Ptr), (checkO k f p : Prog K V (Option (Ptr × Nat))).Lockfree
  | 0, p => trivial
  | f + 1, p => by
    rw [checkO]
    refine lf_ver fun v => lf_peek fun n1 => lf_peek fun n2 => ?_
    split
    · refine lf_same fun b => ?_
      split
      · trivial
      · exact checkO_lf f p
    · refine lf_peek fun n => lf_same fun b => ?_
      split
      · cases n.next with
        | none => trivial
        | some q => exact checkO_lf f q
      · exact checkO_lf f p

theorem lift_lf {β : Type} {r : Res β} {f : β → Prog K V α} (h : ∀ a, (f a).Lockfree) : (Prog.lift r >>= f).Lockfree :=
  Prog.Lockfree.bind (Prog.Lockfree.lift r) h

theorem searchChild_lf : ∀ (f : Nat) (p : Ptr), (searchChild k f p : Prog K V (Option (Ptr × Ptr))).Lockfree
  | 0, p => trivial
  | f + 1, p => by
    rw [searchChild]
    refine Prog.Lockfree.bind (checkO_lf _ _) fun o => ?_
    cases o with
    | none => trivial
    | some x =>
      refine lf_peek fun n => lift_lf fun y => lift_lf fun c => lf_same fun b => ?_
      split
      · trivial
      · exact searchChild_lf f _

theorem searchLeaf_lf : ∀ (f : Nat) (p : Ptr), (searchLeaf k f p : Prog K V Ptr).Lockfree
  | 0, p => trivial
  | f + 1, p => by
    rw [searchLeaf]
    refine lf_inner fun b => ?_
    split
    · refine Prog.Lockfree.bind (searchChild_lf _ _) fun o => ?_
      cases o with
      | none => exact lf_root fun root => searchLeaf_lf f root
      | some x => exact searchLeaf_lf f _
    · trivial

theorem searchLeafW_lf : ∀ (f : Nat) (st : List Ptr) (p : Ptr), (searchLeafW k f st p : Prog K V (Ptr × List Ptr)).Lockfree
  | 0, st, p => trivial
  | f + 1, st, p => by
    rw [searchLeafW]
    refine lf_inner fun b => ?_
    split
    · refine Prog.Lockfree.bind (searchChild_lf _ _) fun o => ?_
      cases o with
      | none => exact lf_root fun root => searchLeafW_lf f _ root
      | some x => exact searchLeafW_lf f _ _
    · trivial

theorem searchParentLoop_lf {r : Ptr} : ∀ (f : Nat) (st : List Ptr) (o : Option Ptr) (p : Ptr),
    (searchParentLoop k r f st o p : Prog K V (List Ptr)).Lockfree
  | 0, st, o, p => trivial
  | f + 1, st, o, p => by
    rw [searchParentLoop]
    refine lf_inner fun b => ?_
    split
    · refine Prog.Lockfree.bind (searchChild_lf _ _) fun o => ?_
      cases o with
      | none => exact lf_root fun root => searchParentLoop_lf f _ _ root
      | some x =>
        dsimp only
        split
        · trivial
        · exact searchParentLoop_lf f _ _ _
    · refine Prog.Lockfree.bind (checkO_lf _ _) fun o' => ?_
      cases o' with
      | none => exact lf_root fun root => searchParentLoop_lf f _ _ root
      | some x =>
        dsimp only
        split
        · trivial
        · cases o with
          | none => trivial
          | some c => exact searchParentLoop_lf f _ _ _

theorem nodeRead_lf : ∀ (f : Nat) (p : Ptr), (nodeRead k f p : Prog K V (Option V)).Lockfree
  | 0, p => trivial
  | f + 1, p => by
    rw [nodeRead]
    refine Prog.Lockfree.bind (checkO_lf _ _) fun o => ?_
    cases o with
    | none => trivial
    | some x =>
      refine lf_peek fun n => lift_lf fun y => lf_same fun b => ?_
      split
      · trivial
      · exact nodeRead_lf f _

theorem read_lf {fuel : Nat} : (read fuel k : Prog K V (Option V)).Lockfree := by
  unfold read
  exact lf_root fun root => Prog.Lockfree.bind (searchLeaf_lf _ _) fun leaf => nodeRead_lf _ _

theorem endPosition_lf {e : ScanKey K} : (endPosition e p : Prog K V (Bool × Nat)).Lockfree := by
  unfold endPosition
  refine lf_peek fun n => ?_
  dsimp only
  split
  · cases e with
    | none => exact lf_peek fun n => trivial
    | some x => exact lf_peek fun n => lift_lf fun y => trivial
  · exact lf_peek fun n => trivial

theorem reset_lf {e : ScanKey K} {f : Nat} {it : It K} : (reset e f it : Prog K V (It K)).Lockfree := by
  unfold reset
  refine Prog.Lockfree.bind ?_ fun it => Prog.Lockfree.bind ?_ fun _ => trivial
  · unfold seek
    cases it.key with
    | none => exact lf_ver fun v => Prog.Lockfree.bind endPosition_lf fun _ => trivial
    | some k =>
      refine Prog.Lockfree.bind (checkO_lf _ _) fun o => ?_
      cases o with
      | none => trivial
      | some x => exact lf_peek fun n => lift_lf fun y => Prog.Lockfree.bind endPosition_lf fun _ => trivial
  · unfold noteEnd
    split
    · exact lf_same fun b => lf_note trivial
    · trivial

theorem iterate_lf {e : ScanKey K} : ∀ (f : Nat) (it : It K), (iterate e f it : Prog K V (List (K × V))).Lockfree
  | 0, it => trivial
  | f + 1, it => by
    rw [iterate]
    split
    · refine lf_peek fun n => lf_same fun b => ?_
      split
      · cases n.recs[it.pos]? with
        | none => trivial
        | some r =>
          dsimp only
          cases r.key with
          | none => trivial
          | some k =>
            dsimp only
            split
            · exact iterate_lf f _
            · cases r.pay with
              | ptr _ => trivial
              | val v => exact Prog.Lockfree.bind (iterate_lf f _) fun _ => trivial
      · exact Prog.Lockfree.bind reset_lf fun _ => iterate_lf f _
    · split
      · trivial
      · refine lf_peek fun n => lf_same fun b => ?_
        split
        · cases n.next with
          | none => trivial
          | some q => exact Prog.Lockfree.bind reset_lf fun _ => iterate_lf f _
        · exact Prog.Lockfree.bind reset_lf fun _ => iterate_lf f _

theorem leftmostChild_lf : ∀ (f : Nat) (p : Ptr), (leftmostChild f p : Prog K V (Option Ptr)).Lockfree
  | 0, p => trivial
  | f + 1, p => by
    rw [leftmostChild]
    refine lf_ver fun v => lf_peek fun n => lf_same fun b => ?_
    split
    · split
      · trivial
      · exact lift_lf fun _ => trivial
    · exact leftmostChild_lf f p

theorem leftmost_lf : ∀ (f : Nat) (p : Ptr), (leftmost f p : Prog K V Ptr).Lockfree
  | 0, p => trivial
  | f + 1, p => by
    rw [leftmost]
    refine lf_inner fun b => ?_
    split
    · refine Prog.Lockfree.bind (leftmostChild_lf _ _) fun o => ?_
      cases o with
      | none => exact lf_root fun root => leftmost_lf f root
      | some c => exact leftmost_lf f c
    · trivial

theorem scanFrom_lf {fuel : Nat} {b e : ScanKey K} {leaf : Ptr} : (scanFrom fuel b e leaf : Prog K V (List (K × V))).Lockfree := by
  unfold scanFrom
  exact Prog.Lockfree.bind reset_lf fun _ => iterate_lf _ _

theorem scan_lf {fuel : Nat} {b e : ScanKey K} : (scan fuel b e : Prog K V (List (K × V))).Lockfree := by
  unfold scan
  refine lf_root fun root => ?_
  cases b with
  | none => exact Prog.Lockfree.bind (leftmost_lf _ _) fun leaf => scanFrom_lf
  | some x => exact Prog.Lockfree.bind (searchLeaf_lf _ _) fun leaf => scanFrom_lf

/-! ## Writers give up their locks -/

theorem checkO_vwp (hd : d = true → S = []) : ∀ (f : Nat) (p : Ptr) (σ : Vis K V), σ.Held S →
    (checkO k f p : Prog K V (Option (Ptr × Nat))).vwp (bp cfg d) σ (fun o σ' => σ.Le σ' ∧ ∀ q v, o = some (q, v) → σ'.vs q v)
  | 0, p, σ, hh => trivial
  | f + 1, p, σ, hh => by
    rw [checkO]
    refine Vw.vers (hh.ask hd) fun v σ1 l1 v1 => Vw.look rfl (v := v) fun n1 _ σ2 l2 _ => Vw.look rfl (v := v) fun n2 _ σ3 l3 _ => ?_
    have l03 := l1.trans (l2.trans l3)
    split
    · refine Vw.same fun b => ?_
      split
      · refine Vw.ret ⟨l03, fun q w e => ?_⟩
        cases e
        exact l3.vs _ _ (l2.vs _ _ v1)
      · exact vwp_mono (checkO_vwp hd f p σ3 (hh.le l03)) fun o σ' h => ⟨l03.trans h.1, h.2⟩
    · refine Vw.look rfl (v := v) fun n _ σ4 l4 _ => Vw.same fun b => ?_
      have l04 := l03.trans l4
      split
      · cases n.next with
        | none => exact Vw.ret ⟨l04, fun q w e => by cases e⟩
        | some q => exact vwp_mono (checkO_vwp hd f q σ4 (hh.le l04)) fun o σ' h => ⟨l04.trans h.1, h.2⟩
      · exact vwp_mono (checkO_vwp hd f p σ4 (hh.le l04)) fun o σ' h => ⟨l04.trans h.1, h.2⟩

theorem checkW_vwp (hd : d = true → S = []) : ∀ (f : Nat) (p : Ptr) (σ : Vis K V), σ.Held S →
    (checkW k f p : Prog K V (Option Ptr)).vwp (bp cfg d) σ (fun o σ' => σ.Keep σ' S ∧
      match o with
      | none => σ'.Held S
      | some q => q ∉ S ∧ σ'.Held (q :: S))
  | 0, p, σ, hh => trivial
  | f + 1, p, σ, hh => by
    rw [checkW]
    refine Vw.vers (hh.ask hd) fun v σ1 l1 v1 => Vw.look rfl (v := v) fun n1 _ σ2 l2 _ => Vw.look rfl (v := v) fun n2 _ σ3 l3 _ => ?_
    have l03 := l1.trans (l2.trans l3)
    have h3 := hh.le l03
    split
    · refine Vw.tryLockSIX (fun hd' => held_nil.1 (hd hd' ▸ h3)) ?_ fun h6 _ n _ _ => ?_
      · exact vwp_mono (checkW_vwp hd f p σ3 h3) fun o σ' h => ⟨l03.keep.trans h.1, h.2⟩
      · have hp := h3.notin h6
        refine Vw.ret ⟨?_, hp, (h3.push hp).know n⟩
        exact l03.keep.trans ((Keep.set hp _).trans (Keep.know hp n))
    · refine Vw.look rfl (v := v) fun n _ σ4 l4 _ => Vw.same fun b => ?_
      have l04 := l03.trans l4
      split
      · cases n.next with
        | none => exact Vw.ret ⟨l04.keep, hh.le l04⟩
        | some q => exact vwp_mono (checkW_vwp hd f q σ4 (hh.le l04)) fun o σ' h => ⟨l04.keep.trans h.1, h.2⟩
      · exact vwp_mono (checkW_vwp hd f p σ4 (hh.le l04)) fun o σ' h => ⟨l04.keep.trans h.1, h.2⟩

theorem navOk : NavOk cfg d (nav : Nav K V) :=
  ⟨fun _ f p σ _ hh hd => checkW_vwp hd f p σ hh, fun _ _ f st p _ _ hh hd =>
    vwp_lockfree (searchParentLoop_lf f st none p) (hh.ask hd) fun _ _ hle => ⟨hle.keep, hh.le hle⟩⟩

open CPsl (Gives)

theorem insertInto_vwp {v : V} (hh : σ.Held [p]) : (insertInto cfg k v p : Prog K V NodeRC).vwp (bp cfg d) σ (fun _ σ' => σ'.Free) := by
  unfold insertInto
  refine Vw.read rfl hh fun n hn _ σ1 h1 _ _ => Vw.lift fun x _ => Vw.upgradeX (fun _ => h1.ord) fun _ _ => Vw.lift fun n' e => ?_
  refine Vw.store (hn.insertRecord e).1 fun _ => Vw.unlockX fun _ => Vw.ret ?_
  intro q
  by_cases hq : q = p
  · subst hq; rw [set_at]
  · rw [set_ne hq, know_L, set_ne hq, h1.off (by simpa using hq)]

theorem write_vwp (hr : Roomy cfg L) (hb : cfg.blink = true) {fuel : Nat} {v : V} : Gives cfg d (write cfg fuel k v : Prog K V RC) := by
  intro σ hf
  unfold write
  refine Vw.getRoot fun root => Vw.lockfree (searchLeafW_lf _ _ _) hf.ask fun x σ0 l0 => ?_
  refine Vw.call (checkW_vwp (S := []) (fun _ => rfl) _ _ _ (held_nil.2 (hf.le l0))) ?_
  rintro o σ1 ⟨-, h1⟩
  cases o with
  | none => trivial
  | some leaf =>
    refine Vw.call (leafWrite_vwp hr σ1 [] h1.2 (by simp)) ?_
    rintro rc σ2 ⟨⟨-, h⟩, -⟩
    rcases h with ⟨rfl, h2, n, e2, hbig⟩ | ⟨hne, h2⟩
    · rw [if_pos rfl]
      exact Vw.call (splitAnd_vwp hr hb navOk (fun p σ n h _ _ => insertInto_vwp h) h2 e2 hbig) fun _ σ3 h3 => Vw.ret h3
    · rw [if_neg hne]
      exact Vw.ret (held_nil.1 h2)

/-- A page that is locked with the version that was taken before, and released again. -/
theorem free_set (hf : σ.Free) (n m : Node K V) {P : Lp K V} :
    ((((σ.set p Md.excl).know P p n).know P p m).set p Md.none).Free := by
  intro q
  by_cases hq : q = p
  · subst hq; rw [set_at]
  · rw [set_ne hq, know_L, know_L, set_ne hq, hf q]

theorem tryCleanUp_vwp (hr : Roomy cfg L) {v len : Nat} (hf : σ.Free) (hv : σ.vs p v) :
    (tryCleanUp cfg p v len : Prog K V (Option Nat)).vwp (bp cfg d) σ (fun o σ' => σ'.Free ∧
      ∀ w, o = some w → σ'.vs p w ∧ ∃ n, σ'.pk p w n ∧ Full cfg n len) := by
  unfold tryCleanUp
  refine Vw.look rfl (v := v) fun n hn σ1 l1 p1 => ?_
  by_cases hw : Blink.wantsCleanUp cfg n len = true
  · rw [if_pos hw]
    have hl : cfg.layout = .var := by
      cases hl : cfg.layout
      · simp [Blink.wantsCleanUp, hl] at hw
      · rfl
    refine Vw.tryLockX (fun _ => hf.le l1) (Vw.ret ⟨hf.le l1, fun w e => by cases e⟩) fun _ m hm _ => ?_
    refine Vw.load fun m1 _ _ _ => Vw.lift fun m' e => ?_
    obtain ⟨g1, g2, -, -⟩ := SizeW.cleanUp hr hl e
    refine Vw.store g1 fun _ => Vw.unlockXVer fun _ w => Vw.ret ⟨?_, fun w' e => ?_⟩
    · intro q
      show ((((((σ1.set p Md.excl).know (bp cfg d) p m).know (bp cfg d) p m1).know (bp cfg d) p m').set p Md.none).L q) = Md.none
      by_cases hq : q = p
      · subst hq; rw [set_at]
      · rw [set_ne hq, know_L, know_L, know_L, set_ne hq, (hf.le l1) q]
    · cases e
      refine ⟨Or.inr ⟨rfl, rfl⟩, m', Or.inr ⟨rfl, rfl, ?_⟩, Or.inr g2⟩
      rw [know_H rfl]; simp [Spec.upd]
  · rw [if_neg hw]
    refine Vw.ret ⟨hf.le l1, fun w e => ?_⟩
    cases e
    exact ⟨l1.vs _ _ hv, n, p1 hv, Or.inl (by simpa using hw)⟩

theorem nodeInsert_vwp (hr : Roomy cfg L) {v : V} : ∀ (f : Nat) (p : Ptr) (σ : Vis K V), σ.Free →
    (nodeInsert cfg k v f p : Prog K V (NodeRC × Ptr)).vwp (bp cfg d) σ (fun x σ' =>
      (x.1 = .needSplit ∧ σ'.Held [x.2] ∧ ∃ n, σ'.H x.2 = some n ∧ Big cfg n) ∨ (x.1 ≠ .needSplit ∧ σ'.Free))
  | 0, p, σ, hf => trivial
  | f + 1, p, σ, hf => by
    rw [nodeInsert]
    refine Vw.call (checkO_vwp (S := []) (fun _ => rfl) _ _ _ (held_nil.2 hf)) ?_
    rintro o σ1 ⟨l1, v1⟩
    cases o with
    | none => trivial
    | some x =>
      obtain ⟨p, w⟩ := x
      refine Vw.call (tryCleanUp_vwp hr (hf.le l1) (v1 _ _ rfl)) ?_
      rintro o σ2 ⟨f2, h2⟩
      cases o with
      | none => exact nodeInsert_vwp hr f p σ2 f2
      | some w =>
        obtain ⟨v2, m, p2, hm⟩ := h2 w rfl
        refine Vw.look rfl (v := w) fun n _ σ3 l3 p3 => Vw.lift fun x ex => ?_
        obtain ⟨rc1, pos⟩ := x
        dsimp only
        have f3 := f2.le l3
        split
        · refine Vw.same fun b => ?_
          split
          · exact Vw.ret (Or.inr ⟨by simp, f3⟩)
          · exact nodeInsert_vwp hr f p σ3 f3
        · refine Vw.tryLockSIX (fun _ => f3) (nodeInsert_vwp hr f p σ3 f3) fun _ _ n1 s1 hpk => ?_
          have e1 := hpk _ (l3.pk _ _ _ p2)
          have e2 := hpk _ (p3 v2)
          subst e1 e2
          have h4 : ((σ3.set p { σ3.L p with six := true }).know (bp cfg d) p n).Held [p] := ((held_nil.2 f3).push (by simp)).know n
          refine Vw.read rfl h4 fun n' hn hH σ5 h5 e5 _ => Vw.lift fun y ey => ?_
          have := hH n (by rw [know_H rfl]; simp [Spec.upd])
          subst this
          obtain ⟨s3, b3⟩ := hn.insertAt ex ey
          refine Vw.call (commit_ins (S := []) h5 (by simp) s3 (insertAt_rc ey) e5 (fun hs => big_of_full hr (leafLen_le hr k) hm (b3 hs).2)) ?_
          rintro rc σ6 ⟨rfl, -, h6⟩
          refine Vw.ret ?_
          rcases h6 with h6 | ⟨h6, h6'⟩
          · exact Or.inl h6
          · exact Or.inr ⟨h6, held_nil.1 h6'⟩

theorem insert_vwp (hr : Roomy cfg L) (hb : cfg.blink = true) {fuel : Nat} {v : V} : Gives cfg d (insert cfg fuel k v : Prog K V RC) := by
  intro σ hf
  unfold insert
  refine Vw.getRoot fun root => Vw.lockfree (searchLeafW_lf _ _ _) hf.ask fun x σ0 l0 => ?_
  refine Vw.call (nodeInsert_vwp hr _ _ _ (hf.le l0)) ?_
  rintro ⟨rc, leaf⟩ σ2 h
  rcases h with ⟨h1, h2, n, e2, hbig⟩ | ⟨hne, h2⟩
  · dsimp only at h1
    subst h1
    simp only [reduceCtorEq, if_false, if_true]
    exact Vw.call (splitAnd_vwp hr hb navOk (fun p σ n h _ _ => insertInto_vwp h) h2 e2 hbig) fun _ σ3 h3 => Vw.ret h3
  · dsimp only at hne ⊢
    split
    · exact Vw.ret h2
    · exact Vw.ret h2

theorem nodeUpdate_vwp {v : V} : ∀ (f : Nat) (p : Ptr) (σ : Vis K V), σ.Free →
    (nodeUpdate k v f p : Prog K V RC).vwp (bp cfg d) σ (fun _ σ' => σ'.Free)
  | 0, p, σ, hf => trivial
  | f + 1, p, σ, hf => by
    rw [nodeUpdate]
    refine Vw.call (checkO_vwp (S := []) (fun _ => rfl) _ _ _ (held_nil.2 hf)) ?_
    rintro o σ1 ⟨l1, v1⟩
    cases o with
    | none => trivial
    | some x =>
      obtain ⟨p, w⟩ := x
      refine Vw.look rfl (v := w) fun n _ σ2 l2 _ => Vw.lift fun x ex => ?_
      have f2 := hf.le (l1.trans l2)
      dsimp only
      split
      · refine Vw.tryLockX (fun _ => f2) (nodeUpdate_vwp f p σ2 f2) fun _ m hm _ => Vw.load fun m1 h1 _ _ => Vw.lift fun m' e => ?_
        refine Vw.store (SizeW.setPayload h1 e) fun _ => Vw.unlockX fun _ => Vw.ret ?_
        intro q
        by_cases hq : q = p
        · subst hq; rw [set_at]
        · rw [set_ne hq, know_L, know_L, know_L, set_ne hq, f2 q]
      · refine Vw.same fun b => ?_
        split
        · exact Vw.ret f2
        · exact nodeUpdate_vwp f p σ2 f2

theorem update_vwp {fuel : Nat} {v : V} : Gives cfg d (update fuel k v : Prog K V RC) := by
  intro σ hf
  unfold update
  exact Vw.getRoot fun root => Vw.lockfree (searchLeaf_lf _ _) hf.ask fun x σ0 l0 => nodeUpdate_vwp _ _ _ (hf.le l0)

theorem nodeDelete_vwp (hr : Roomy cfg L) : ∀ (f : Nat) (p : Ptr) (σ : Vis K V), σ.Free →
    (nodeDelete cfg k f p : Prog K V (NodeRC × Ptr)).vwp (bp cfg d) σ (fun x σ' =>
      (x.1 = .needMerge ∧ σ'.Held [x.2]) ∨ (x.1 ≠ .needMerge ∧ σ'.Free))
  | 0, p, σ, hf => trivial
  | f + 1, p, σ, hf => by
    rw [nodeDelete]
    refine Vw.call (checkO_vwp (S := []) (fun _ => rfl) _ _ _ (held_nil.2 hf)) ?_
    rintro o σ1 ⟨l1, v1⟩
    cases o with
    | none => trivial
    | some x =>
      obtain ⟨p, w⟩ := x
      refine Vw.look rfl (v := w) fun n _ σ2 l2 p2 => Vw.lift fun x ex => ?_
      obtain ⟨rc1, pos⟩ := x
      have f2 := hf.le (l1.trans l2)
      dsimp only
      split
      · next hrc =>
        subst hrc
        refine Vw.tryLockX (fun _ => f2) (nodeDelete_vwp hr f p σ2 f2) fun _ m hm hpk => Vw.load fun m1 h1 _ hH => Vw.lift fun y ey => ?_
        have e1 := hpk _ (p2 (l2.vs _ _ (v1 _ _ rfl) |> fun _ => v1 _ _ rfl))
        subst e1
        have e2 := hH n (by rw [know_H rfl]; simp [Spec.upd])
        subst e2
        refine Vw.store (SizeW.deleteAt hr h1 ex ey).1 fun _ => ?_
        split
        · next hy =>
          refine Vw.downgradeSIX fun _ => Vw.ret (Or.inl ⟨hy, ?_⟩)
          intro q
          by_cases hq : q = p
          · subst hq; rw [set_at]; simp
          · rw [set_ne hq, know_L, know_L, know_L, set_ne hq, f2 q]; simp [hq]
        · next hy =>
          refine Vw.unlockX fun _ => Vw.ret (Or.inr ⟨hy, ?_⟩)
          intro q
          by_cases hq : q = p
          · subst hq; rw [set_at]
          · rw [set_ne hq, know_L, know_L, know_L, set_ne hq, f2 q]
      · refine Vw.same fun b => ?_
        split
        · exact Vw.ret (Or.inr ⟨by simp, f2⟩)
        · exact nodeDelete_vwp hr f p σ2 f2

theorem delete_vwp (hr : Roomy cfg L) (hd : d = false) {fuel : Nat} : Gives cfg d (delete cfg fuel k : Prog K V RC) := by
  intro σ hf
  unfold delete
  refine Vw.getRoot fun root => Vw.lockfree (searchLeafW_lf _ _ _) hf.ask fun x σ0 l0 => ?_
  refine Vw.call (nodeDelete_vwp hr _ _ _ (hf.le l0)) ?_
  rintro ⟨rc, leaf⟩ σ2 h
  rcases h with ⟨h1, h2⟩ | ⟨hne, h2⟩
  · dsimp only at h1
    subst h1
    simp only [reduceCtorEq, if_false, if_true]
    exact Vw.call (merge_vwp hr navOk hd _ _ _ _ _ (Or.inl h2)) fun _ σ3 h3 => Vw.ret h3
  · dsimp only at hne ⊢
    split
    · exact Vw.ret h2
    · exact Vw.ret h2

theorem exec_vwp (hr : Roomy cfg L) (hb : cfg.blink = true) (fuel : Nat) (op : Op K V) (hd : d = true → ∀ k, op ≠ .delete k) :
    Gives cfg d (execS cfg fuel op : Prog K V _) := by
  intro σ hf
  cases op with
  | read k => exact Vw.lockfree read_lf hf.ask fun _ _ h => Vw.ret (hf.le h)
  | write k v => exact Vw.call (write_vwp hr hb σ hf) fun _ _ h => Vw.ret h
  | insert k v => exact Vw.call (insert_vwp hr hb σ hf) fun _ _ h => Vw.ret h
  | update k v => exact Vw.call (update_vwp σ hf) fun _ _ h => Vw.ret h
  | delete k =>
    have hd : d = false := by
      cases d
      · rfl
      · exact absurd rfl (hd rfl k)
    exact Vw.call (delete_vwp hr hd σ hf) fun _ _ h => Vw.ret h
  | scan b e => exact Vw.lockfree scan_lf hf.ask fun _ _ h => Vw.ret (hf.le h)

end COsl
end BT
