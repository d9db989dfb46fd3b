import Verif.PageRun
import Verif.VarReadOk

/-!
# Sequences of page modifications on the bytes of variable-length pages
-/

set_option linter.unusedSectionVars false

namespace BT
variable {K V : Type} [LinearOrder K]

/-- The memory of the thread-local page `temp_node_`: any bytes and any header, except that its record count is zero
(`temp_node_->record_count_ = 0` ends every use of it: osl/node_varlen.hpp:1082, 1128, 1565 and copies). -/
def VarPage.temp (g : VarPage) : VarPage := { g with count := 0 }

/-- The effect on the bytes; `junk` is what the memory of a new page held before, `tmp` what the thread's temporary page held. -/
def PageOp.varBytes {cfg : Cfg K} (C : Codec cfg V) : PageOp K V → Ram × VarPage → PageMap VarPage → Res (PageMap VarPage)
  | .fresh p inner, (junk, _), m => .ok (m.set p (some (VarPage.empty cfg inner junk)))
  | .root p k l r, (junk, _), m => do
    let g ← VarPage.newRoot cfg (C.key k) (natBytes cfg.ptrLen l) (natBytes cfg.ptrLen r) junk
    return m.set p (some g)
  | .insert p pos k v, _, m => do
    let g ← m.load p
    let g ← g.insertRecord cfg (C.key k) (C.val v) pos
    return m.set p (some g)
  | .update p pos v, _, m => do
    let g ← m.load p
    let g ← g.setVal cfg pos (C.val v)
    return m.set p (some g)
  | .remove p pos, _, m => do
    let g ← m.load p
    let g ← g.removeRecord cfg pos
    return m.set p (some g)
  | .reuse p pos v, _, m => do
    let g ← m.load p
    let g ← g.reuseRecord cfg (C.val v) pos
    return m.set p (some g)
  | .cleanUp p, (_, tmp), m => do
    let g ← m.load p
    let g ← g.cleanUp cfg tmp.temp
    return m.set p (some g)
  | .addChild p pos k c, _, m => do
    let g ← m.load p
    let g ← g.insertChild cfg (C.key k) (natBytes cfg.ptrLen c) pos
    return m.set p (some g)
  | .dropChild p pos, _, m => do
    let g ← m.load p
    let g ← g.deleteChild cfg pos
    return m.set p (some g)
  | .split p q, (junk, tmp), m => do
    let g ← m.load p
    let (l, r) ← g.split cfg (VarPage.empty cfg g.inner junk) tmp.temp q
    return (m.set p (some l)).set q (some r)
  | .merge p q, (_, tmp), m => do
    let l ← m.load p
    let r ← m.load q
    let g ← l.merge cfg r tmp.temp
    return (m.set q none).set p (some g)
  | .load p inner e es, (junk, _), m => do
    let g ← (VarPage.empty cfg inner junk).bulkload cfg (C.key e.1) ((e :: es).map fun x => (C.key x.1, C.pay x.2))
    return m.set p (some g)
  | .link p q, _, m => do
    let l ← m.load p
    let r ← m.load q
    let g ← l.linkNext cfg r q
    return m.set p (some g)
  | .strip p, _, m => do
    let g ← m.load p
    return m.set p (some (g.strip cfg))

/-- A sequence of calls on bytes. -/
def varRun {cfg : Cfg K} (C : Codec cfg V) : List (PageOp K V × Ram × VarPage) → PageMap VarPage → Res (PageMap VarPage)
  | [], m => .ok m
  | (o, x) :: os, m => do
    let m ← o.varBytes C x m
    varRun C os m

/-! ### The simulation -/

/-- Every page is represented. -/
def VMapRep {cfg : Cfg K} (C : Codec cfg V) (gs : PageMap VarPage) (ns : PageMap (Node K V)) : Prop :=
  ∀ p, match ns p, gs p with
    | none, none => True
    | some n, some g => VarRep C g n
    | _, _ => False

section
variable {cfg : Cfg K} {C : Codec cfg V} {gs : PageMap VarPage} {ns : PageMap (Node K V)}

theorem VMapRep.get (h : VMapRep C gs ns) {p : Ptr} {n : Node K V} (hn : ns p = some n) : ∃ g, gs p = some g ∧ VarRep C g n := by
  have := h p
  rw [hn] at this
  cases hg : gs p with
  | none => rw [hg] at this; exact this.elim
  | some g => rw [hg] at this; exact ⟨g, rfl, this⟩

theorem VMapRep.set (h : VMapRep C gs ns) (p : Ptr) {g : VarPage} {n : Node K V} (hr : VarRep C g n) :
    VMapRep C (gs.set p (some g)) (ns.set p (some n)) := by
  intro q
  simp only [PageMap.set]
  by_cases c : q = p
  · simp only [if_pos c]; exact hr
  · simp only [if_neg c]; exact h q

theorem VMapRep.unset (h : VMapRep C gs ns) (p : Ptr) : VMapRep C (gs.set p none) (ns.set p none) := by
  intro q
  simp only [PageMap.set]
  by_cases c : q = p
  · simp only [if_pos c]
  · simp only [if_neg c]; exact h q

/-- One call: bytes follow record lists. -/
theorem PageOp.varSim (hf : cfg.layout = .var) (hm : cfg.metaLen = 8) (hp : cfg.pageSize < 2 ^ 16) (hh : cfg.headerLen ≤ cfg.pageSize)
    (o : PageOp K V) (x : Ram × VarPage) (h : VMapRep C gs ns) {ns' : PageMap (Node K V)} (ho : o.lists cfg ns = .ok ns') :
    ∃ gs', o.varBytes C x gs = .ok gs' ∧ VMapRep C gs' ns' := by
  obtain ⟨junk, tmp⟩ := x
  cases o with
  | fresh p inner =>
    simp only [PageOp.lists, Res.ok.injEq] at ho
    subst ho
    exact ⟨_, rfl, h.set p (VarRep.empty C inner junk hh)⟩
  | root p k l r =>
    simp only [PageOp.lists] at ho
    obtain ⟨n, h1, h2⟩ := Res.bind_inv ho
    simp only [Res.pure_eq, Res.ok.injEq] at h2
    subst h2
    obtain ⟨g, e1, e2⟩ := VarRep.newRoot (C := C) hf hm hp hh junk h1
    refine ⟨_, ?_, h.set p e2⟩
    simp only [PageOp.varBytes, e1, Res.ok_bind, Res.pure_eq]
  | insert p pos k v =>
    simp only [PageOp.lists] at ho
    obtain ⟨n, h1, h2⟩ := Res.bind_inv ho
    obtain ⟨u, h3, h4⟩ := Res.bind_inv h2
    obtain ⟨n', h5, h6⟩ := Res.bind_inv h4
    simp only [Res.pure_eq, Res.ok.injEq] at h6
    subst h6
    have h3 := Res.need_inv h3
    simp only [Bool.and_eq_true, Bool.not_eq_true', decide_eq_true_eq] at h3
    obtain ⟨g, e1, e2⟩ := h.get (PageMap.load_inv h1)
    obtain ⟨g', e3, e4⟩ := e2.insertRecord hf hm hp hh h3.2 (pay := .val v) h3.1 h5
    refine ⟨_, ?_, h.set p e4⟩
    simp only [Codec.pay] at e3
    simp only [PageOp.varBytes, PageMap.load_ok e1, Res.ok_bind, Res.pure_eq, e3]
  | update p pos v =>
    simp only [PageOp.lists] at ho
    obtain ⟨n, h1, h2⟩ := Res.bind_inv ho
    obtain ⟨u, h3, h4⟩ := Res.bind_inv h2
    obtain ⟨n', h5, h6⟩ := Res.bind_inv h4
    simp only [Res.pure_eq, Res.ok.injEq] at h6
    subst h6
    have h3 := Res.need_inv h3
    simp only [Bool.not_eq_true'] at h3
    obtain ⟨g, e1, e2⟩ := h.get (PageMap.load_inv h1)
    obtain ⟨g', e3, e4⟩ := e2.setVal h3 h5
    refine ⟨_, ?_, h.set p e4⟩
    simp only [PageOp.varBytes, PageMap.load_ok e1, Res.ok_bind, Res.pure_eq, e3]
  | remove p pos =>
    simp only [PageOp.lists] at ho
    obtain ⟨n, h1, h2⟩ := Res.bind_inv ho
    obtain ⟨n', h5, h6⟩ := Res.bind_inv h2
    simp only [Res.pure_eq, Res.ok.injEq] at h6
    subst h6
    obtain ⟨g, e1, e2⟩ := h.get (PageMap.load_inv h1)
    obtain ⟨g', e3, e4⟩ := e2.removeRecord hf hm h5
    refine ⟨_, ?_, h.set p e4⟩
    simp only [PageOp.varBytes, PageMap.load_ok e1, Res.ok_bind, Res.pure_eq, e3]
  | reuse p pos v =>
    simp only [PageOp.lists] at ho
    obtain ⟨n, h1, h2⟩ := Res.bind_inv ho
    obtain ⟨u, h3, h4⟩ := Res.bind_inv h2
    obtain ⟨n', h5, h6⟩ := Res.bind_inv h4
    simp only [Res.pure_eq, Res.ok.injEq] at h6
    subst h6
    have h3 := Res.need_inv h3
    simp only [Bool.and_eq_true, Bool.not_eq_true', decide_eq_true_eq] at h3
    obtain ⟨g, e1, e2⟩ := h.get (PageMap.load_inv h1)
    obtain ⟨g', e3, e4⟩ := e2.reuseRecord hm h3.1.1 (by
      intro r hr
      have := h3.2
      rw [hr] at this
      simpa using this) h5
    refine ⟨_, ?_, h.set p e4⟩
    simp only [PageOp.varBytes, PageMap.load_ok e1, Res.ok_bind, Res.pure_eq, e3]
  | cleanUp p =>
    simp only [PageOp.lists] at ho
    obtain ⟨n, h1, h2⟩ := Res.bind_inv ho
    obtain ⟨u, h3, h4⟩ := Res.bind_inv h2
    obtain ⟨n', h5, h6⟩ := Res.bind_inv h4
    simp only [Res.pure_eq, Res.ok.injEq] at h6
    subst h6
    obtain ⟨g, e1, e2⟩ := h.get (PageMap.load_inv h1)
    obtain ⟨g', e3, e4⟩ := e2.cleanUp hf hm hp hh (tmp := tmp.temp) rfl h5
    refine ⟨_, ?_, h.set p e4⟩
    simp only [PageOp.varBytes, PageMap.load_ok e1, Res.ok_bind, Res.pure_eq, e3]
  | addChild p pos k c =>
    simp only [PageOp.lists] at ho
    obtain ⟨n, h1, h2⟩ := Res.bind_inv ho
    obtain ⟨u, h3, h4⟩ := Res.bind_inv h2
    obtain ⟨n', h5, h6⟩ := Res.bind_inv h4
    simp only [Res.pure_eq, Res.ok.injEq] at h6
    subst h6
    have h3 := Res.need_inv h3
    simp only [Bool.and_eq_true, decide_eq_true_eq] at h3
    obtain ⟨g, e1, e2⟩ := h.get (PageMap.load_inv h1)
    obtain ⟨g', e3, e4⟩ := e2.insertChild hf hm hp hh h3.2 h3.1 h5
    refine ⟨_, ?_, h.set p e4⟩
    simp only [PageOp.varBytes, PageMap.load_ok e1, Res.ok_bind, Res.pure_eq, e3]
  | dropChild p pos =>
    simp only [PageOp.lists] at ho
    obtain ⟨n, h1, h2⟩ := Res.bind_inv ho
    obtain ⟨u, h3, h4⟩ := Res.bind_inv h2
    obtain ⟨n', h5, h6⟩ := Res.bind_inv h4
    simp only [Res.pure_eq, Res.ok.injEq] at h6
    subst h6
    obtain ⟨g, e1, e2⟩ := h.get (PageMap.load_inv h1)
    obtain ⟨g', e3, e4⟩ := e2.deleteChild hf h5
    refine ⟨_, ?_, h.set p e4⟩
    simp only [PageOp.varBytes, PageMap.load_ok e1, Res.ok_bind, Res.pure_eq, e3]
  | split p q =>
    simp only [PageOp.lists] at ho
    obtain ⟨n, h1, h2⟩ := Res.bind_inv ho
    obtain ⟨_, h8, h2⟩ := Res.bind_inv h2
    have h8 := Res.need_inv h8
    simp only [decide_eq_true_eq] at h8
    obtain ⟨⟨l, r⟩, h5, h4⟩ := Res.bind_inv h2
    obtain ⟨u, h3, h6⟩ := Res.bind_inv h4
    simp only [Res.pure_eq, Res.ok.injEq] at h6
    subst h6
    have h3 := Res.need_inv h3
    simp only [Bool.and_eq_true, beq_iff_eq] at h3
    obtain ⟨g, e1, e2⟩ := h.get (PageMap.load_inv h1)
    simp only [Node.split, hf] at h5
    obtain ⟨gl, gr, e3, e4, e5⟩ := e2.split hf hm hp hh (junk := junk) (tmp := tmp.temp) rfl h8 h5
    rw [← e2.inner] at e3
    refine ⟨_, ?_, (h.set p e4).set q e5⟩
    simp only [PageOp.varBytes, PageMap.load_ok e1, Res.ok_bind, Res.pure_eq, e3]
  | merge p q =>
    simp only [PageOp.lists] at ho
    obtain ⟨l, h1, h2⟩ := Res.bind_inv ho
    obtain ⟨r, h7, h8⟩ := Res.bind_inv h2
    obtain ⟨u, h3, h4⟩ := Res.bind_inv h8
    obtain ⟨n', h5, h6⟩ := Res.bind_inv h4
    simp only [Res.pure_eq, Res.ok.injEq] at h6
    subst h6
    have h3 := Res.need_inv h3
    simp only [Bool.and_eq_true, beq_iff_eq] at h3
    obtain ⟨g, e1, e2⟩ := h.get (PageMap.load_inv h1)
    obtain ⟨gr, e6, e7⟩ := h.get (PageMap.load_inv h7)
    obtain ⟨g', e3, e4⟩ := e2.merge hf hm hp hh e7 h3.1.symm (tmp := tmp.temp) rfl h5
    refine ⟨_, ?_, (h.unset q).set p e4⟩
    simp only [PageOp.varBytes, PageMap.load_ok e1, PageMap.load_ok e6, Res.ok_bind, Res.pure_eq, e3]
  | load p inner e es =>
    simp only [PageOp.lists] at ho
    obtain ⟨u, h3, h4⟩ := Res.bind_inv ho
    obtain ⟨_, h8, h4⟩ := Res.bind_inv h4
    have h8 := Res.need_inv h8
    simp only [decide_eq_true_eq] at h8
    obtain ⟨n', h5, h6⟩ := Res.bind_inv h4
    simp only [Res.pure_eq, Res.ok.injEq] at h6
    subst h6
    have h3 := Res.need_inv h3
    rw [List.all_eq_true] at h3
    obtain ⟨k, pay⟩ := e
    obtain ⟨g', e3, e4⟩ := VarRep.bulkload (C := C) hf hm hp hh h8 junk (es := (k, pay) :: es) (inner := inner) (by
      intro x hx
      have := h3 x hx
      cases hq : x.2 with
      | val v => rw [hq] at this; simpa [Pay.Fits] using this
      | ptr c => rw [hq] at this; simpa [Pay.Fits] using this) h5
    refine ⟨_, ?_, h.set p e4⟩
    simp only [PageOp.varBytes, e3, Res.ok_bind, Res.pure_eq]
  | link p q =>
    simp only [PageOp.lists] at ho
    obtain ⟨l, h1, h2⟩ := Res.bind_inv ho
    obtain ⟨r, h7, h8⟩ := Res.bind_inv h2
    obtain ⟨u, h3, h4⟩ := Res.bind_inv h8
    have h3 := Res.need_inv h3
    simp only [Bool.and_eq_true, Option.isNone_iff_eq_none, decide_eq_true_eq] at h3
    cases hq : hdKey r.recs none with
    | none => rw [hq] at h4; simp at h4
    | some k =>
      rw [hq] at h4
      obtain ⟨n', h5, h6⟩ := Res.bind_inv h4
      simp only [Res.pure_eq, Res.ok.injEq] at h6
      subst h6
      obtain ⟨g, e1, e2⟩ := h.get (PageMap.load_inv h1)
      obtain ⟨gr, e6, e7⟩ := h.get (PageMap.load_inv h7)
      obtain ⟨g', e3, e4⟩ := e2.linkNext hf hh e7 h3.1.2 hq (h3.2.trans hq) h5
      refine ⟨_, ?_, h.set p e4⟩
      simp only [PageOp.varBytes, PageMap.load_ok e1, PageMap.load_ok e6, Res.ok_bind, Res.pure_eq, e3]
  | strip p =>
    simp only [PageOp.lists] at ho
    obtain ⟨n, h1, h2⟩ := Res.bind_inv ho
    simp only [Res.pure_eq, Res.ok.injEq] at h2
    subst h2
    obtain ⟨g, e1, e2⟩ := h.get (PageMap.load_inv h1)
    refine ⟨gs.set p (some (g.strip cfg)), by simp only [PageOp.varBytes, PageMap.load_ok e1, Res.ok_bind, Res.pure_eq], h.set p e2.strip⟩

/-- Any sequence of calls. -/
theorem varRun_sim (hf : cfg.layout = .var) (hm : cfg.metaLen = 8) (hp : cfg.pageSize < 2 ^ 16) (hh : cfg.headerLen ≤ cfg.pageSize) :
    ∀ (os : List (PageOp K V × Ram × VarPage)) {gs : PageMap VarPage} {ns ns' : PageMap (Node K V)}, VMapRep C gs ns →
    listRun cfg os ns = .ok ns' → ∃ gs', varRun C os gs = .ok gs' ∧ VMapRep C gs' ns'
  | [], gs, ns, ns', h, ho => by
    simp only [listRun, Res.ok.injEq] at ho
    subst ho
    exact ⟨gs, rfl, h⟩
  | (o, x) :: os, gs, ns, ns', h, ho => by
    simp only [listRun] at ho
    obtain ⟨m, h1, h2⟩ := Res.bind_inv ho
    obtain ⟨g1, e1, e2⟩ := o.varSim hf hm hp hh x h h1
    obtain ⟨g2, e3, e4⟩ := varRun_sim hf hm hp hh os e2 h2
    exact ⟨g2, by simp only [varRun, e1, Res.ok_bind, e3], e4⟩

end

end BT
