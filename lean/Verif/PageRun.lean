import Verif.FixReadOk

/-!
# Sequences of page modifications, on record lists and on bytes

The pages of a tree change by a few functions of the page classes only.  `PageOp` lists them; `PageOp.lists` is their effect on the
record lists that the rest of the model uses, `PageOp.bytes` their effect on the bytes of fixed-length pages.  (`VarRun.lean` has the
bytes of variable-length pages.)
-/

set_option linter.unusedSectionVars false

namespace BT
variable {K V : Type} [LinearOrder K]

/-- A call of a modifying function of a page. -/
inductive PageOp (K V : Type) where
  /-- the constructor of an empty page -/
  | fresh (p : Ptr) (inner : Bool)
  /-- the constructor of a root over the pages `l` and `r` -/
  | root (p : Ptr) (k : K) (l r : Ptr)
  /-- a new record at position `pos` -/
  | insert (p : Ptr) (pos : Nat) (k : K) (v : V)
  /-- a new payload for the record at position `pos` -/
  | update (p : Ptr) (pos : Nat) (v : V)
  /-- the record at position `pos` leaves -/
  | remove (p : Ptr) (pos : Nat)
  /-- the deleted record at position `pos` comes back with a new payload (variable-length pages only) -/
  | reuse (p : Ptr) (pos : Nat) (v : V)
  /-- the space of deleted records is reclaimed (variable-length pages only) -/
  | cleanUp (p : Ptr)
  /-- a new child behind position `pos` -/
  | addChild (p : Ptr) (pos : Nat) (k : K) (c : Ptr)
  /-- the child at position `pos` leaves -/
  | dropChild (p : Ptr) (pos : Nat)
  /-- the upper half of `p` moves to the new page `q` -/
  | split (p q : Ptr)
  /-- the contents of `q` move to `p`, and `q` is given up -/
  | merge (p q : Ptr)
  /-- a page bulk loaded with these entries -/
  | load (p : Ptr) (inner : Bool) (e : K × Pay V) (es : List (K × Pay V))
  /-- the bulk loaded page `p` gets `q` as its right sibling -/
  | link (p q : Ptr)
  /-- the lowest key is dropped (`RemoveLeftmostKeys` on an inner root) -/
  | strip (p : Ptr)

/-- A map of pages. -/
abbrev PageMap (α : Type) := Ptr → Option α

namespace PageMap
variable {α : Type}

/-- The page at an address in use. -/
def load (m : PageMap α) (p : Ptr) : Res α :=
  match m p with
  | some x => .ok x
  | none => .ub

/-- Replace a page. -/
def set (m : PageMap α) (p : Ptr) (x : Option α) : PageMap α := fun q => if q = p then x else m q

end PageMap

/-- Only under this condition is the behaviour defined. -/
def Res.need (b : Bool) : Res Unit := if b then .ok () else .ub

/-- The effect on record lists.  What the code leaves undefined is undefined here: positions outside the page, records that do not
fit, a split at a slot without a key, a split that would make an uninitialised key the lowest key of the left page, a size of deleted
records that exceeds the size it is subtracted from, a link to a page whose lowest key is not its first one. -/
def PageOp.lists (cfg : Cfg K) : PageOp K V → PageMap (Node K V) → Res (PageMap (Node K V))
  | .fresh p inner, m => .ok (m.set p (some { isInner := inner, recs := [] }))
  | .root p k l r, m => do
    let n ← Node.newRoot cfg (some k) l r
    return m.set p (some n)
  | .insert p pos k v, m => do
    let n ← m.load p
    Res.need (!n.isInner && decide (pos ≤ n.recs.length))
    let n ← n.insertRecord cfg k (.val v) pos
    return m.set p (some n)
  | .update p pos v, m => do
    let n ← m.load p
    Res.need (!n.isInner)
    let n ← n.setPayload pos v
    return m.set p (some n)
  | .remove p pos, m => do
    let n ← m.load p
    let n ← n.removeRecord cfg pos
    return m.set p (some n)
  | .reuse p pos v, m => do
    let n ← m.load p
    Res.need (!n.isInner && decide (cfg.layout = .var) && (n.recs[pos]?).all fun r => decide (r.len cfg n.isInner + cfg.metaLen ≤ n.dead))
    let n ← n.reuseRecord cfg pos v
    return m.set p (some n)
  | .cleanUp p, m => do
    let n ← m.load p
    Res.need (decide (cfg.layout = .var))
    let n ← n.cleanUp cfg
    return m.set p (some n)
  | .addChild p pos k c, m => do
    let n ← m.load p
    Res.need (n.isInner && decide (pos < n.recs.length))
    let n ← n.placeChild cfg (some k) c pos
    return m.set p (some n)
  | .dropChild p pos, m => do
    let n ← m.load p
    Res.need n.isInner
    let n ← n.dropChild cfg pos
    return m.set p (some n)
  | .split p q, m => do
    let n ← m.load p
    Res.need (decide (n.dead ≤ cfg.metaLen * n.rc + n.block))
    let (l, r) ← n.split cfg q
    Res.need (l.high.isSome && (l.low.isSome == n.low.isSome))
    return (m.set p (some l)).set q (some r)
  | .merge p q, m => do
    let l ← m.load p
    let r ← m.load q
    Res.need (l.isInner == r.isInner && l.high.isSome)
    let n ← l.merge cfg r
    return (m.set q none).set p (some n)
  | .load p inner e es, m => do
    Res.need ((e :: es).all fun x => match x.2 with
      | .val _ => !inner
      | .ptr _ => inner)
    Res.need (decide (cfg.klen e.1 ≤ cfg.maxKeyLen))
    let n ← Node.checked cfg (bulkNode cfg inner e.1 ((e :: es).map fun x => ⟨some x.1, x.2, false⟩))
    return m.set p (some n)
  | .link p q, m => do
    let l ← m.load p
    let r ← m.load q
    Res.need (l.low.isSome && l.high.isNone && decide (r.low = hdKey r.recs none))
    match hdKey r.recs none with
    | none => .ub
    | some k =>
      let n ← l.linkTo cfg k q
      return m.set p (some n)
  | .strip p, m => do
    let n ← m.load p
    return m.set p (some { n with low := none })

/-- The effect on the bytes; `junk` is what the memory of a new page held before. -/
def PageOp.bytes {cfg : Cfg K} (C : Codec cfg V) : PageOp K V → Ram → PageMap FixPage → Res (PageMap FixPage)
  | .fresh p inner, junk, m => .ok (m.set p (some (FixPage.empty cfg inner junk)))
  | .root p k l r, junk, m => do
    let g ← FixPage.newRoot cfg (C.key k) (natBytes cfg.ptrLen l) (natBytes cfg.ptrLen r) junk
    return m.set p (some g)
  | .insert p pos k v, _, m => do
    let g ← m.load p
    let g ← g.insertRecord cfg (C.key k) (C.val v) pos
    return m.set p (some g)
  | .update p pos v, _, m => do
    let g ← m.load p
    let g ← g.setVal cfg pos (C.val v)
    return m.set p (some g)
  | .remove p pos, _, m => do
    let g ← m.load p
    let g ← g.removeRecord cfg pos
    return m.set p (some g)
  | .reuse _ _ _, _, _ => .ub
  | .cleanUp _, _, _ => .ub
  | .addChild p pos k c, _, m => do
    let g ← m.load p
    let g ← g.insertChild cfg (C.key k) (natBytes cfg.ptrLen c) pos
    return m.set p (some g)
  | .dropChild p pos, _, m => do
    let g ← m.load p
    let g ← g.deleteChild cfg pos
    return m.set p (some g)
  | .split p q, junk, m => do
    let g ← m.load p
    let (l, r) ← g.split cfg (FixPage.empty cfg g.inner junk) q
    return (m.set p (some l)).set q (some r)
  | .merge p q, _, m => do
    let l ← m.load p
    let r ← m.load q
    let g ← l.merge cfg r
    return (m.set q none).set p (some g)
  | .load p inner e es, junk, m => do
    let g ← (FixPage.empty cfg inner junk).bulkload cfg ((e :: es).map fun x => (C.key x.1, C.pay x.2))
    return m.set p (some g)
  | .link p q, _, m => do
    let l ← m.load p
    let r ← m.load q
    let g ← l.linkNext cfg r q
    return m.set p (some g)
  | .strip p, _, m => do
    let g ← m.load p
    return m.set p (some { g with hasLow := false })

/-- A sequence of calls on record lists. -/
def listRun (cfg : Cfg K) {β : Type} : List (PageOp K V × β) → PageMap (Node K V) → Res (PageMap (Node K V))
  | [], m => .ok m
  | (o, _) :: os, m => do
    let m ← o.lists cfg m
    listRun cfg os m

/-- A sequence of calls on bytes. -/
def byteRun {cfg : Cfg K} (C : Codec cfg V) : List (PageOp K V × Ram) → PageMap FixPage → Res (PageMap FixPage)
  | [], m => .ok m
  | (o, junk) :: os, m => do
    let m ← o.bytes C junk m
    byteRun C os m

/-- The keys are small enough for the entry behind the last key of a full page to lie inside the page.  `Split` and `Merge` read that
entry even when it is not in use (osl/node_fixlen.hpp:982, 991, 1017 and copies). -/
def KeysReadable (cfg : Cfg K) : Prop :=
  ∀ c inner, cfg.plen inner * c < cfg.maxKeyLen → cfg.headerLen + cfg.maxKeyLen * (c + 2) ≤ cfg.pageSize

/-! ### The simulation -/

/-- Every page is represented. -/
def MapRep {cfg : Cfg K} (C : Codec cfg V) (gs : PageMap FixPage) (ns : PageMap (Node K V)) : Prop :=
  ∀ p, match ns p, gs p with
    | none, none => True
    | some n, some g => FixRep C g n
    | _, _ => False

section
variable {cfg : Cfg K} {C : Codec cfg V} {gs : PageMap FixPage} {ns : PageMap (Node K V)}

theorem Res.need_inv {b : Bool} {u : Unit} (h : Res.need b = .ok u) : b = true := by
  unfold Res.need at h; split at h
  · assumption
  · exact absurd h (by simp)

theorem Res.bind_inv {α β : Type} {x : Res α} {f : α → Res β} {b : β} (h : (x >>= f) = .ok b) : ∃ a, x = .ok a ∧ f a = .ok b := by
  cases x with
  | ok a => exact ⟨a, rfl, h⟩
  | ub => exact absurd h (by simp)
  | fuel => exact absurd h (by simp)

theorem PageMap.load_inv {α : Type} {m : PageMap α} {p : Ptr} {x : α} (h : m.load p = .ok x) : m p = some x := by
  unfold PageMap.load at h; split at h
  · next e => simp at h; rw [e, h]
  · exact absurd h (by simp)

theorem PageMap.load_ok {α : Type} {m : PageMap α} {p : Ptr} {x : α} (h : m p = some x) : m.load p = .ok x := by
  simp [PageMap.load, h]

theorem MapRep.get (h : MapRep C gs ns) {p : Ptr} {n : Node K V} (hn : ns p = some n) : ∃ g, gs p = some g ∧ FixRep C g n := by
  have := h p
  rw [hn] at this
  cases hg : gs p with
  | none => rw [hg] at this; exact this.elim
  | some g => rw [hg] at this; exact ⟨g, rfl, this⟩

theorem MapRep.set (h : MapRep C gs ns) (p : Ptr) {g : FixPage} {n : Node K V} (hr : FixRep C g n) :
    MapRep C (gs.set p (some g)) (ns.set p (some n)) := by
  intro q
  simp only [PageMap.set]
  by_cases c : q = p
  · simp only [if_pos c]; exact hr
  · simp only [if_neg c]; exact h q

theorem MapRep.unset (h : MapRep C gs ns) (p : Ptr) : MapRep C (gs.set p none) (ns.set p none) := by
  intro q
  simp only [PageMap.set]
  by_cases c : q = p
  · simp only [if_pos c]
  · simp only [if_neg c]; exact h q

theorem readable_split (hk : KeysReadable cfg) {g : FixPage} {n : Node K V} (h : FixRep C g n) :
    FixPage.keyOff cfg (n.recs.length + n.high.isSome.toNat + 1) ≤ cfg.pageSize := by
  have hf := h.fits
  have hb : n.high.isSome.toNat ≤ n.borders := by simp only [Node.borders]; cases n.high <;> cases n.low <;> simp
  have h1 : n.high.isSome.toNat ≤ 1 := by cases n.high <;> simp
  have a1 := FixPage.keyOff_le (cfg := cfg) (show n.recs.length + n.high.isSome.toNat ≤ n.recs.length + n.borders by omega)
  have a2 := FixPage.keyOff_succ (cfg := cfg) (n.recs.length + n.high.isSome.toNat)
  rcases Nat.lt_or_ge (cfg.plen n.isInner * n.recs.length) cfg.maxKeyLen with c | c
  · have := hk _ _ c
    have a3 := FixPage.keyOff_le (cfg := cfg) (show n.recs.length + n.high.isSome.toNat + 1 ≤ n.recs.length + 2 by omega)
    simp only [FixPage.keyOff] at a3 ⊢
    omega
  · omega

theorem readable_merge (hk : KeysReadable cfg) {g : FixPage} {n : Node K V} (h : FixRep C g n) (hh : n.high.isSome) :
    FixPage.keyOff cfg (n.recs.length + 2) ≤ cfg.pageSize := by
  have := readable_split hk h
  rw [hh] at this
  exact this

/-- One call: bytes follow record lists. -/
theorem PageOp.sim (hf : cfg.layout = .fix) (hh : cfg.headerLen ≤ cfg.pageSize) (hk : KeysReadable cfg) (o : PageOp K V) (junk : Ram)
    (h : MapRep C gs ns) {ns' : PageMap (Node K V)} (ho : o.lists cfg ns = .ok ns') :
    ∃ gs', o.bytes C junk gs = .ok gs' ∧ MapRep C gs' ns' := by
  cases o with
  | fresh p inner =>
    simp only [PageOp.lists, Res.ok.injEq] at ho
    subst ho
    exact ⟨_, rfl, h.set p (FixRep.empty C inner junk hh)⟩
  | root p k l r =>
    simp only [PageOp.lists] at ho
    obtain ⟨n, h1, h2⟩ := Res.bind_inv ho
    simp only [Res.pure_eq, Res.ok.injEq] at h2
    subst h2
    obtain ⟨g, e1, e2⟩ := FixRep.newRoot (C := C) hf hh junk h1
    refine ⟨_, ?_, h.set p e2⟩
    simp only [PageOp.bytes, e1, Res.ok_bind, Res.pure_eq]
  | insert p pos k v =>
    simp only [PageOp.lists] at ho
    obtain ⟨n, h1, h2⟩ := Res.bind_inv ho
    obtain ⟨u, h3, h4⟩ := Res.bind_inv h2
    obtain ⟨n', h5, h6⟩ := Res.bind_inv h4
    simp only [Res.pure_eq, Res.ok.injEq] at h6
    subst h6
    have h3 := Res.need_inv h3
    simp only [Bool.and_eq_true, Bool.not_eq_true', decide_eq_true_eq] at h3
    obtain ⟨g, e1, e2⟩ := h.get (PageMap.load_inv h1)
    obtain ⟨g', e3, e4⟩ := e2.insertRecord hf h3.2 (pay := .val v) h3.1 h5
    refine ⟨_, ?_, h.set p e4⟩
    simp only [Codec.pay] at e3
    simp only [PageOp.bytes, PageMap.load_ok e1, Res.ok_bind, Res.pure_eq, e3]
  | update p pos v =>
    simp only [PageOp.lists] at ho
    obtain ⟨n, h1, h2⟩ := Res.bind_inv ho
    obtain ⟨u, h3, h4⟩ := Res.bind_inv h2
    obtain ⟨n', h5, h6⟩ := Res.bind_inv h4
    simp only [Res.pure_eq, Res.ok.injEq] at h6
    subst h6
    have h3 := Res.need_inv h3
    simp only [Bool.not_eq_true'] at h3
    obtain ⟨g, e1, e2⟩ := h.get (PageMap.load_inv h1)
    obtain ⟨g', e3, e4⟩ := e2.setVal h3 h5
    refine ⟨_, ?_, h.set p e4⟩
    simp only [PageOp.bytes, PageMap.load_ok e1, Res.ok_bind, Res.pure_eq, e3]
  | remove p pos =>
    simp only [PageOp.lists] at ho
    obtain ⟨n, h1, h2⟩ := Res.bind_inv ho
    obtain ⟨n', h5, h6⟩ := Res.bind_inv h2
    simp only [Res.pure_eq, Res.ok.injEq] at h6
    subst h6
    obtain ⟨g, e1, e2⟩ := h.get (PageMap.load_inv h1)
    obtain ⟨g', e3, e4⟩ := e2.removeRecord hf h5
    refine ⟨_, ?_, h.set p e4⟩
    simp only [PageOp.bytes, PageMap.load_ok e1, Res.ok_bind, Res.pure_eq, e3]
  | reuse p pos v =>
    simp only [PageOp.lists] at ho
    obtain ⟨n, h1, h2⟩ := Res.bind_inv ho
    obtain ⟨u, h3, h4⟩ := Res.bind_inv h2
    have h3 := Res.need_inv h3
    simp [hf] at h3
  | cleanUp p =>
    simp only [PageOp.lists] at ho
    obtain ⟨n, h1, h2⟩ := Res.bind_inv ho
    obtain ⟨u, h3, h4⟩ := Res.bind_inv h2
    have h3 := Res.need_inv h3
    simp [hf] at h3
  | addChild p pos k c =>
    simp only [PageOp.lists] at ho
    obtain ⟨n, h1, h2⟩ := Res.bind_inv ho
    obtain ⟨u, h3, h4⟩ := Res.bind_inv h2
    obtain ⟨n', h5, h6⟩ := Res.bind_inv h4
    simp only [Res.pure_eq, Res.ok.injEq] at h6
    subst h6
    have h3 := Res.need_inv h3
    simp only [Bool.and_eq_true, decide_eq_true_eq] at h3
    obtain ⟨g, e1, e2⟩ := h.get (PageMap.load_inv h1)
    obtain ⟨g', e3, e4⟩ := e2.insertChild hf h3.2 h3.1 h5
    refine ⟨_, ?_, h.set p e4⟩
    simp only [Codec.pay] at e3
    simp only [PageOp.bytes, PageMap.load_ok e1, Res.ok_bind, Res.pure_eq, e3]
  | dropChild p pos =>
    simp only [PageOp.lists] at ho
    obtain ⟨n, h1, h2⟩ := Res.bind_inv ho
    obtain ⟨u, h3, h4⟩ := Res.bind_inv h2
    obtain ⟨n', h5, h6⟩ := Res.bind_inv h4
    simp only [Res.pure_eq, Res.ok.injEq] at h6
    subst h6
    obtain ⟨g, e1, e2⟩ := h.get (PageMap.load_inv h1)
    obtain ⟨g', e3, e4⟩ := e2.deleteChild hf (Res.need_inv h3) h5
    refine ⟨_, ?_, h.set p e4⟩
    simp only [PageOp.bytes, PageMap.load_ok e1, Res.ok_bind, Res.pure_eq, e3]
  | split p q =>
    simp only [PageOp.lists] at ho
    obtain ⟨n, h1, h2⟩ := Res.bind_inv ho
    obtain ⟨_, _, h2⟩ := Res.bind_inv h2
    obtain ⟨⟨l, r⟩, h5, h4⟩ := Res.bind_inv h2
    obtain ⟨u, h3, h6⟩ := Res.bind_inv h4
    simp only [Res.pure_eq, Res.ok.injEq] at h6
    subst h6
    have h3 := Res.need_inv h3
    simp only [Bool.and_eq_true, beq_iff_eq] at h3
    obtain ⟨g, e1, e2⟩ := h.get (PageMap.load_inv h1)
    simp only [Node.split, hf] at h5
    obtain ⟨gl, gr, e3, e4, e5⟩ := e2.split hf (r0 := FixPage.empty cfg g.inner junk) ⟨e2.inner, rfl, rfl, rfl⟩ (readable_split hk e2) h5
      h3.1 h3.2
    refine ⟨_, ?_, (h.set p e4).set q e5⟩
    simp only [PageOp.bytes, PageMap.load_ok e1, Res.ok_bind, Res.pure_eq, e3]
  | merge p q =>
    simp only [PageOp.lists] at ho
    obtain ⟨l, h1, h2⟩ := Res.bind_inv ho
    obtain ⟨r, h7, h8⟩ := Res.bind_inv h2
    obtain ⟨u, h3, h4⟩ := Res.bind_inv h8
    obtain ⟨n', h5, h6⟩ := Res.bind_inv h4
    simp only [Res.pure_eq, Res.ok.injEq] at h6
    subst h6
    have h3 := Res.need_inv h3
    simp only [Bool.and_eq_true, beq_iff_eq] at h3
    obtain ⟨g, e1, e2⟩ := h.get (PageMap.load_inv h1)
    obtain ⟨gr, e6, e7⟩ := h.get (PageMap.load_inv h7)
    obtain ⟨g', e3, e4⟩ := e2.merge hf e7 h3.1 h3.2 (readable_merge hk e2 h3.2) h5
    refine ⟨_, ?_, (h.unset q).set p e4⟩
    simp only [PageOp.bytes, PageMap.load_ok e1, PageMap.load_ok e6, Res.ok_bind, Res.pure_eq, e3]
  | load p inner e es =>
    simp only [PageOp.lists] at ho
    obtain ⟨u, h3, h4⟩ := Res.bind_inv ho
    obtain ⟨_, _, h4⟩ := Res.bind_inv h4
    obtain ⟨n', h5, h6⟩ := Res.bind_inv h4
    simp only [Res.pure_eq, Res.ok.injEq] at h6
    subst h6
    have h3 := Res.need_inv h3
    rw [List.all_eq_true] at h3
    obtain ⟨k, pay⟩ := e
    obtain ⟨g', e3, e4⟩ := FixRep.bulkload (C := C) hf hh junk (k := k) (pay := pay) (es := es) (inner := inner) (by
      intro x hx
      have := h3 x hx
      cases hq : x.2 with
      | val v => rw [hq] at this; simpa [Pay.Fits] using this
      | ptr c => rw [hq] at this; simpa [Pay.Fits] using this) h5
    refine ⟨_, ?_, h.set p e4⟩
    simp only [PageOp.bytes, e3, Res.ok_bind, Res.pure_eq]
  | link p q =>
    simp only [PageOp.lists] at ho
    obtain ⟨l, h1, h2⟩ := Res.bind_inv ho
    obtain ⟨r, h7, h8⟩ := Res.bind_inv h2
    obtain ⟨u, h3, h4⟩ := Res.bind_inv h8
    have h3 := Res.need_inv h3
    simp only [Bool.and_eq_true, Option.isNone_iff_eq_none] at h3
    cases hq : hdKey r.recs none with
    | none => rw [hq] at h4; simp at h4
    | some k =>
      rw [hq] at h4
      obtain ⟨n', h5, h6⟩ := Res.bind_inv h4
      simp only [Res.pure_eq, Res.ok.injEq] at h6
      subst h6
      obtain ⟨g, e1, e2⟩ := h.get (PageMap.load_inv h1)
      obtain ⟨gr, e6, e7⟩ := h.get (PageMap.load_inv h7)
      obtain ⟨g', e3, e4⟩ := e2.linkNext hf e7 h3.1.1 h3.1.2 hq h5
      refine ⟨_, ?_, h.set p e4⟩
      simp only [PageOp.bytes, PageMap.load_ok e1, PageMap.load_ok e6, Res.ok_bind, Res.pure_eq, e3]
  | strip p =>
    simp only [PageOp.lists] at ho
    obtain ⟨n, h1, h2⟩ := Res.bind_inv ho
    simp only [Res.pure_eq, Res.ok.injEq] at h2
    subst h2
    obtain ⟨g, e1, e2⟩ := h.get (PageMap.load_inv h1)
    refine ⟨gs.set p (some { g with hasLow := false }), by simp only [PageOp.bytes, PageMap.load_ok e1, Res.ok_bind, Res.pure_eq],
      h.set p ?_⟩
    refine FixRep.mk' e2.inner e2.removed e2.count e2.payLen e2.blk e2.block e2.next rfl e2.hasHigh ?_
      (fun i r k hi hk => e2.recKey hi hk) (fun k hk => e2.highKey hk) (fun k hk => by simp at hk) e2.pays e2.kinds e2.live
    have a1 := e2.fits
    have a2 := FixPage.keyOff_le (cfg := cfg)
      (show n.recs.length + ({ n with low := none } : Node K V).borders ≤ n.recs.length + n.borders by simp [Node.borders])
    dsimp only
    omega

/-- Any sequence of calls. -/
theorem run_sim (hf : cfg.layout = .fix) (hh : cfg.headerLen ≤ cfg.pageSize) (hk : KeysReadable cfg) :
    ∀ (os : List (PageOp K V × Ram)) {gs : PageMap FixPage} {ns ns' : PageMap (Node K V)}, MapRep C gs ns → listRun cfg os ns = .ok ns' →
    ∃ gs', byteRun C os gs = .ok gs' ∧ MapRep C gs' ns'
  | [], gs, ns, ns', h, ho => by
    simp only [listRun, Res.ok.injEq] at ho
    subst ho
    exact ⟨gs, rfl, h⟩
  | (o, junk) :: os, gs, ns, ns', h, ho => by
    simp only [listRun] at ho
    obtain ⟨m, h1, h2⟩ := Res.bind_inv ho
    obtain ⟨g1, e1, e2⟩ := o.sim hf hh hk junk h h1
    obtain ⟨g2, e3, e4⟩ := run_sim hf hh hk os e2 h2
    exact ⟨g2, by simp only [byteRun, e1, Res.ok_bind, e3], e4⟩

end

end BT
