import Verif.LockBlink
import Verif.ConcScan

/-!
# The locks of PSL
-/

set_option linter.unusedSectionVars false

namespace BT
open Prog
variable {K V : Type} [LinearOrder K] {cfg : Cfg K} {L : Nat} {σ τ : Vis K V} {S : List Ptr} {p q : Ptr} {d : Bool}

/-- The thread holds the pages of `S` in mode SIX, and page `p` in mode S. -/
def Vis.HeldS (σ : Vis K V) (S : List Ptr) (p : Ptr) : Prop :=
  ∀ q, σ.L q = { (if q ∈ S then Md.intent else Md.none) with s := if q = p then 1 else 0 }

namespace Vis
theorem Held.s0 (h : σ.Held S) (q : Ptr) : σ.L q = { (if q ∈ S then Md.intent else Md.none) with s := 0 } := by
  rw [h q]; split <;> rfl

theorem HeldS.x (h : σ.HeldS S p) (q : Ptr) : (σ.L q).x = false := by
  rw [h q]
  dsimp only
  split <;> rfl

theorem set_keep {md : Md} (h : p ∈ S → md ≠ Md.none) : σ.Keep (σ.set p md) S := fun q hq n e' => by
  rw [← e']
  by_cases e : q = p
  · subst e; rw [set_H (h hq)]
  · rw [set_Hne e]

theorem HeldS.pop (h : σ.HeldS S p) : (σ.set p { σ.L p with s := (σ.L p).s - 1 }).Held S ∧ σ.Keep (σ.set p { σ.L p with s := (σ.L p).s - 1 }) S := by
  constructor
  · intro q
    by_cases e : q = p
    · subst e
      rw [set_at, h q]
      split <;> simp [Md.intent, Md.none]
    · rw [set_ne e, h q]
      split <;> simp [Md.intent, Md.none]
  · refine set_keep fun hp => ?_
    rw [h p, if_pos hp]
    simp [Md.intent, Md.none]

theorem HeldS.know {P : Lp K V} (h : σ.HeldS S p) (n : Node K V) : (σ.know P q n).HeldS S p := fun r => by rw [know_L]; exact h r
end Vis

namespace CPsl
open Vis CBlink
variable {α : Type} {Q : α → Vis K V → Prop} {k : K}

theorem lockS_vw (hh : σ.Held S) (hd : d = true → S = []) {f : Unit → Prog K V α}
    (h : ∀ σ', σ'.HeldS S p → σ.Keep σ' S → (f ()).vwp (bp cfg d) σ' Q) : (Prog.lockS p >>= f).vwp (bp cfg d) σ Q := by
  refine Vw.lockS rfl (hh.ask hd) fun _ => h _ ?_ ?_
  · intro q
    by_cases e : q = p
    · subst e; rw [set_at, hh.s0 q]; simp
    · rw [set_ne e, hh.s0 q]; simp [e]
  · exact set_keep fun hp => by rw [hh p, if_pos hp]; simp [Md.intent, Md.none]

theorem unlockS_vw (hh : σ.HeldS S p) {f : Unit → Prog K V α} (h : ∀ σ', σ'.Held S → σ.Keep σ' S → (f ()).vwp (bp cfg d) σ' Q) :
    (Prog.unlockS p >>= f).vwp (bp cfg d) σ Q := Vw.unlockS fun _ => h _ hh.pop.1 hh.pop.2

theorem loadS_vw (hh : σ.HeldS S p) {f : Node K V → Prog K V α} (h : ∀ n, ∀ σ', σ'.HeldS S p → σ.Keep σ' S → (f n).vwp (bp cfg d) σ' Q) :
    (Prog.load p >>= f).vwp (bp cfg d) σ Q := by
  refine Vw.load fun n hn _ hH => h n _ (hh.know n) fun q _ n' e => ?_
  by_cases hq : q = p
  · subst hq
    rw [know_H rfl, hH _ e]; simp [Spec.upd]
  · rw [know_Hne hq, e]

theorem checkR_vwp (hd : d = true → S = []) : ∀ (f : Nat) (p : Ptr) (σ : Vis K V), σ.Held S →
    (checkR k f p : Prog K V (Option Ptr)).vwp (bp cfg d) σ (fun o σ' => σ.Keep σ' S ∧
      match o with
      | none => σ'.Held S
      | some q => σ'.HeldS S q)
  | 0, p, σ, hh => trivial
  | f + 1, p, σ, hh => by
    rw [checkR]
    refine lockS_vw hh hd fun σ1 h1 k1 => loadS_vw h1 fun n σ2 h2 k2 => ?_
    split
    · exact ⟨k1.trans k2, h2⟩
    · refine unlockS_vw h2 fun σ3 h3 k3 => ?_
      cases n.next with
      | none => exact ⟨k1.trans (k2.trans k3), h3⟩
      | some q => exact vwp_mono (checkR_vwp hd f q σ3 h3) fun o σ' h => ⟨k1.trans (k2.trans (k3.trans h.1)), h.2⟩

theorem checkW_vwp (hd : d = true → S = []) : ∀ (f : Nat) (p : Ptr) (σ : Vis K V), σ.Held S →
    (checkW k f p : Prog K V (Option Ptr)).vwp (bp cfg d) σ (fun o σ' => σ.Keep σ' S ∧
      match o with
      | none => σ'.Held S
      | some q => q ∉ S ∧ σ'.Held (q :: S))
  | 0, p, σ, hh => trivial
  | f + 1, p, σ, hh => by
    rw [checkW]
    refine Vw.six hh hd fun hp σ1 h1 k1 => Vw.read rfl h1 fun n _ hH σ2 h2 e2 g2 => ?_
    have k2 : σ1.Keep σ2 S := fun q hq n e => (g2 q (fun e => hp (e ▸ hq))).trans e
    split
    · exact ⟨k1.trans k2, hp, h2⟩
    · refine Vw.unsix h2 hp fun σ3 h3 k3 => ?_
      cases n.next with
      | none => exact ⟨k1.trans (k2.trans k3), h3⟩
      | some q => exact vwp_mono (checkW_vwp hd f q σ3 h3) fun o σ' h => ⟨k1.trans (k2.trans (k3.trans h.1)), h.2⟩

theorem searchChild_vwp (hh : σ.HeldS S p) :
    (searchChild k p : Prog K V Ptr).vwp (bp cfg d) σ (fun _ σ' => σ.Keep σ' S ∧ σ'.Held S) := by
  unfold searchChild
  exact loadS_vw hh fun n σ1 h1 k1 => Vw.lift fun x _ => Vw.lift fun c _ => unlockS_vw h1 fun σ2 h2 k2 => Vw.ret ⟨k1.trans k2, h2⟩

theorem searchLeafR_vwp (hd : d = true → S = []) : ∀ (f : Nat) (p : Ptr) (σ : Vis K V), σ.Held S →
    (searchLeafR k f p : Prog K V Ptr).vwp (bp cfg d) σ (fun q σ' => σ'.HeldS S q)
  | 0, p, σ, hh => trivial
  | f + 1, p, σ, hh => by
    rw [searchLeafR]
    refine Vw.call (checkR_vwp hd _ _ _ hh) ?_
    rintro o σ1 ⟨-, h1⟩
    cases o with
    | none => exact Vw.getRoot fun root => searchLeafR_vwp hd f root σ1 h1
    | some q =>
      refine Vw.isInner fun b => ?_
      split
      · exact Vw.call (searchChild_vwp h1) fun c σ2 h2 => searchLeafR_vwp hd f c σ2 h2.2
      · exact h1

theorem searchLeafW_vwp : ∀ (f : Nat) (st : List Ptr) (p : Ptr) (σ : Vis K V), σ.Held [] →
    (searchLeafW k f st p : Prog K V (Ptr × List Ptr)).vwp (bp cfg d) σ (fun x σ' => σ'.Held [x.1])
  | 0, st, p, σ, hh => trivial
  | f + 1, st, p, σ, hh => by
    rw [searchLeafW]
    refine Vw.isInner fun b => ?_
    split
    · refine Vw.call (checkR_vwp (fun _ => rfl) _ _ _ hh) ?_
      rintro o σ1 ⟨-, h1⟩
      cases o with
      | none => exact Vw.getRoot fun root => searchLeafW_vwp f _ root σ1 h1
      | some q => exact Vw.call (searchChild_vwp h1) fun c σ2 h2 => searchLeafW_vwp f _ c σ2 h2.2
    · refine Vw.call (checkW_vwp (fun _ => rfl) _ _ _ hh) ?_
      rintro o σ1 ⟨-, h1⟩
      cases o with
      | none => trivial
      | some q => exact h1.2

theorem searchParent_vwp {r : Ptr} (hd : d = true → S = []) : ∀ (f : Nat) (st : List Ptr) (p : Ptr) (σ : Vis K V), σ.Held S →
    (searchParent k r f st p : Prog K V (List Ptr)).vwp (bp cfg d) σ (fun _ σ' => σ.Keep σ' S ∧ σ'.Held S)
  | 0, st, p, σ, hh => trivial
  | f + 1, st, p, σ, hh => by
    rw [searchParent]
    refine Vw.call (checkR_vwp hd _ _ _ hh) ?_
    rintro o σ1 ⟨k1, h1⟩
    cases o with
    | none => exact Vw.getRoot fun root => vwp_mono (searchParent_vwp hd f _ root σ1 h1) fun _ _ h => ⟨k1.trans h.1, h.2⟩
    | some q =>
      dsimp only
      split
      · exact unlockS_vw h1 fun σ2 h2 k2 => Vw.ret ⟨k1.trans k2, h2⟩
      · exact Vw.call (searchChild_vwp h1) fun c σ2 h2 => vwp_mono (searchParent_vwp hd f _ c σ2 h2.2) fun _ _ h =>
          ⟨k1.trans (h2.1.trans h.1), h.2⟩

theorem navOk : NavOk cfg d (nav : Nav K V) :=
  ⟨fun _ f p σ _ hh hd => checkW_vwp hd f p σ hh, fun _ _ f st p σ _ hh hd => searchParent_vwp hd f st p σ hh⟩

/-- A call takes its locks and gives them up again. -/
abbrev Gives (cfg : Cfg K) (d : Bool) (c : Prog K V α) : Prop := ∀ σ : Vis K V, σ.Free → c.vwp (bp cfg d) σ (fun _ σ' => σ'.Free)

theorem read_vwp {fuel : Nat} : Gives cfg d (read fuel k : Prog K V (Option V)) := by
  intro σ hf
  unfold read
  refine Vw.getRoot fun root => Vw.call (searchLeafR_vwp (S := []) (fun _ => rfl) _ _ _ (held_nil.2 hf)) fun leaf σ1 h1 => ?_
  exact loadS_vw h1 fun n σ2 h2 _ => Vw.lift fun o _ => unlockS_vw h2 fun σ3 h3 _ => Vw.ret (held_nil.1 h3)

theorem write_vwp (hr : Roomy cfg L) (hb : cfg.blink = true) {fuel : Nat} {v : V} : Gives cfg d (write cfg fuel k v : Prog K V RC) := by
  intro σ hf
  unfold write
  refine Vw.getRoot fun root => Vw.call (searchLeafW_vwp _ _ _ _ (held_nil.2 hf)) ?_
  rintro ⟨leaf, st⟩ σ1 h1
  refine Vw.call (leafWrite_vwp hr σ1 [] h1 (by simp)) ?_
  rintro rc σ2 ⟨⟨-, h⟩, -⟩
  rcases h with ⟨rfl, h2, n, e2, hbig⟩ | ⟨hne, h2⟩
  · rw [if_pos rfl]
    exact Vw.call (splitAnd_vwp hr hb navOk (OpOk.second fun p => leafWrite_vwp hr) h2 e2 hbig) fun _ σ3 h3 => Vw.ret h3
  · rw [if_neg hne]
    exact Vw.ret (held_nil.1 h2)

theorem insert_vwp (hr : Roomy cfg L) (hb : cfg.blink = true) {fuel : Nat} {v : V} : Gives cfg d (insert cfg fuel k v : Prog K V RC) := by
  intro σ hf
  unfold insert
  refine Vw.getRoot fun root => Vw.call (searchLeafW_vwp _ _ _ _ (held_nil.2 hf)) ?_
  rintro ⟨leaf, st⟩ σ1 h1
  refine Vw.call (leafInsert_vwp hr σ1 [] h1 (by simp)) ?_
  rintro rc σ2 ⟨⟨-, h⟩, -⟩
  rcases h with ⟨rfl, h2, n, e2, hbig⟩ | ⟨hne, h2⟩
  · simp only [reduceCtorEq, if_false, if_true]
    exact Vw.call (splitAnd_vwp hr hb navOk (OpOk.second fun p => leafInsert_vwp hr) h2 e2 hbig) fun _ σ3 h3 => Vw.ret h3
  · split
    · exact Vw.ret (held_nil.1 h2)
    · exact Vw.ret (held_nil.1 h2)

theorem leafUpdate_size {n n' : Node K V} {v : V} {rc : RC} (h : SizeW cfg n) (e : n.leafUpdate k v = .ok (rc, n')) : SizeW cfg n' := by
  unfold Node.leafUpdate at e
  obtain ⟨⟨rc1, pos⟩, hs, e⟩ := res_bind e
  dsimp only at e
  split at e
  · obtain ⟨x, h1, e⟩ := res_bind e
    cases e
    exact h.setPayload h1
  · cases e; exact h

theorem update_vwp {fuel : Nat} {v : V} : Gives cfg d (update fuel k v : Prog K V RC) := by
  intro σ hf
  unfold update
  refine Vw.getRoot fun root => Vw.call (searchLeafW_vwp _ _ _ _ (held_nil.2 hf)) ?_
  rintro ⟨leaf, st⟩ σ1 h1
  refine Vw.read rfl h1 fun n hn _ σ2 h2 _ _ => Vw.lift fun x ex => ?_
  dsimp only
  split
  · exact Vw.change h2 (by simp) (leafUpdate_size hn ex) fun σ3 h3 _ => Vw.ret (held_nil.1 h3)
  · exact Vw.unsix h2 (by simp) fun σ3 h3 _ => Vw.ret (held_nil.1 h3)

theorem delete_vwp (hr : Roomy cfg L) (hd : d = false) {fuel : Nat} : Gives cfg d (delete cfg fuel k : Prog K V RC) := by
  intro σ hf
  unfold delete
  refine Vw.getRoot fun root => Vw.call (searchLeafW_vwp _ _ _ _ (held_nil.2 hf)) ?_
  rintro ⟨leaf, st⟩ σ1 h1
  refine Vw.call (leafDelete_vwp hr h1 (by simp)) ?_
  rintro rc σ2 ⟨-, h⟩
  rcases h with ⟨rfl, h2⟩ | ⟨hne, h2⟩
  · simp only [reduceCtorEq, if_false, if_true]
    exact Vw.call (merge_vwp hr navOk hd _ _ _ _ _ (Or.inl h2)) fun _ σ3 h3 => Vw.ret h3
  · split
    · exact Vw.ret (held_nil.1 h2)
    · exact Vw.ret (held_nil.1 h2)

theorem leftmost_vwp : ∀ (f : Nat) (p : Ptr) (σ : Vis K V), σ.Held [] →
    (leftmost f p : Prog K V Ptr).vwp (bp cfg d) σ (fun q σ' => σ'.HeldS [] q)
  | 0, p, σ, hh => trivial
  | f + 1, p, σ, hh => by
    rw [leftmost]
    refine Vw.isInner fun b => ?_
    split
    · refine lockS_vw hh (fun _ => rfl) fun σ1 h1 _ => loadS_vw h1 fun n σ2 h2 _ => ?_
      split
      · exact unlockS_vw h2 fun σ3 h3 _ => Vw.getRoot fun root => leftmost_vwp f root σ3 h3
      · exact Vw.lift fun c _ => unlockS_vw h2 fun σ3 h3 _ => leftmost_vwp f c σ3 h3
    · exact lockS_vw hh (fun _ => rfl) fun σ1 h1 _ => Vw.ret h1

theorem iterate_vwp {e : ScanKey K} : ∀ (f : Nat) (p : Ptr) (pos : Nat) (σ : Vis K V), σ.HeldS [] p →
    (iterate e f p pos : Prog K V (List (K × V))).vwp (bp cfg d) σ (fun _ σ' => σ'.Free)
  | 0, p, pos, σ, hh => trivial
  | f + 1, p, pos, σ, hh => by
    rw [iterate]
    refine loadS_vw hh fun n σ1 h1 _ => Vw.note (Vw.lift fun x _ => Vw.lift fun l _ => ?_)
    split
    · exact unlockS_vw h1 fun σ2 h2 _ => Vw.ret (held_nil.1 h2)
    · cases n.next with
      | none => trivial
      | some q =>
        refine Vw.lockS rfl ⟨fun _ r => ?_, fun _ => h1.x, fun h => by cases h⟩ fun _ => Vw.unlockS fun _ => Vw.call (iterate_vwp f q 0 _ ?_) fun l' σ3 h3 => Vw.ret h3
        · rw [h1 r]; simp [Md.none]
        · intro r
          by_cases hrp : r = p
          · subst hrp
            rw [set_at]
            by_cases hrq : r = q
            · subst hrq
              rw [set_at, h1 r]; simp
            · rw [set_ne hrq, h1 r]; simp [hrq]
          · rw [set_ne hrp]
            by_cases hrq : r = q
            · subst hrq
              rw [set_at, h1 r]; simp [hrp]
            · rw [set_ne hrq, h1 r]; simp [hrq, hrp]

theorem scan_vwp {fuel : Nat} {b e : ScanKey K} : Gives cfg d (scan fuel b e : Prog K V (List (K × V))) := by
  intro σ hf
  unfold scan
  refine Vw.getRoot fun root => ?_
  have rest : ∀ leaf (σ1 : Vis K V), σ1.HeldS [] leaf → (Prog.load leaf >>= fun n => Prog.lift (CScan.beginPos b n) >>= fun pos =>
      iterate e fuel leaf pos : Prog K V (List (K × V))).vwp (bp cfg d) σ1 (fun _ σ' => σ'.Free) := fun leaf σ1 h1 =>
    loadS_vw h1 fun n σ2 h2 _ => Vw.lift fun pos _ => iterate_vwp _ _ _ _ h2
  cases b with
  | none => exact Vw.call (leftmost_vwp _ _ _ (held_nil.2 hf)) rest
  | some x => exact Vw.call (searchLeafR_vwp (fun _ => rfl) _ _ _ (held_nil.2 hf)) rest

/-- Every call of PSL gives up its locks. -/
theorem exec_vwp (hr : Roomy cfg L) (hb : cfg.blink = true) (fuel : Nat) (op : Op K V) (hd : d = true → ∀ k, op ≠ .delete k) :
    Gives cfg d (execS cfg fuel op : Prog K V _) := by
  intro σ hf
  cases op with
  | read k => exact Vw.call (read_vwp σ hf) fun _ _ h => Vw.ret h
  | write k v => exact Vw.call (write_vwp hr hb σ hf) fun _ _ h => Vw.ret h
  | insert k v => exact Vw.call (insert_vwp hr hb σ hf) fun _ _ h => Vw.ret h
  | update k v => exact Vw.call (update_vwp σ hf) fun _ _ h => Vw.ret h
  | delete k =>
    have hd : d = false := by
      cases d
      · rfl
      · exact absurd rfl (hd rfl k)
    exact Vw.call (delete_vwp hr hd σ hf) fun _ _ h => Vw.ret h
  | scan b e => exact Vw.call (scan_vwp σ hf) fun _ _ h => Vw.ret h

end CPsl
end BT
