import Verif.BulkRun
import Verif.Config

/-!
# Page sizes (C09, C40)
-/

namespace BT
variable {K V : Type} [LinearOrder K] {v : Variant K} {cfg : Cfg K}

/-- Bytes of a page in use: header, slots (or key array with border keys) and record area. -/
def Node.bytes (cfg : Cfg K) (n : Node K V) : Nat :=
  cfg.headerLen + n.block +
    match cfg.layout with
    | .var => cfg.metaLen * n.recs.length
    | .fix => cfg.maxKeyLen * (n.recs.length + (if n.low.isSome then 1 else 0) + (if n.high.isSome then 1 else 0))

/-- Bytes the contents of a page need in its record area. -/
def Node.needs (cfg : Cfg K) (n : Node K V) : Nat :=
  match cfg.layout with
  | .var => cfg.oklen n.low + cfg.oklen n.high + (n.recs.map (fun r => cfg.oklen r.key + cfg.plen n.isInner)).sum
  | .fix => cfg.plen n.isInner * n.recs.length

theorem size_all (cfg : Cfg K) (b : Bool) (l : List (Rec K V)) :
    (l.map (fun r => cfg.oklen r.key + cfg.plen b)).sum + cfg.metaLen * l.length = lsize cfg b l + dsize cfg b l := by
  induction l with
  | nil => rfl
  | cons r l ih =>
    rw [lsize_cons, dsize_cons]
    simp only [List.map_cons, List.sum_cons, List.length_cons, Nat.mul_add, Rec.len]
    by_cases h : r.del <;> simp [h] <;> omega

/-- C09, for the configurations with enough room (`Admissible`).  Missing: the other configurations that the static_assert accepts, for
which the claim is false (`C40_…`).  In every reachable state every page stays inside its bounds and its record area holds all its
records; that no call writes outside a page on the way is `C08_terminates` (an overflow is undefined behaviour in the model). -/
theorem C09_page_bounds_partial (ha : v.Admissible cfg) {s : St K V} (hs : Reachable (v.impl cfg) s) {p : Ptr} {n : Node K V}
    (hp : s.heap p = some n) : n.bytes cfg ≤ cfg.pageSize ∧ n.needs cfg ≤ n.block := by
  obtain ⟨m, H, gr, g, -⟩ := (Variant.callsOk (V := V) ha).reach hs
  obtain ⟨i, hi, hm⟩ := (g.wf.alloc p).1 (by rw [hp]; simp)
  obtain ⟨n', lo, hat⟩ := g.wf.at_of_mem hi hm
  have e := hat.heap
  rw [hp] at e
  cases e
  have hz := hat.ok.size
  obtain ⟨L, hr, -⟩ := ha
  have hh := hr.hdr
  have hc : cfg.cap = cfg.pageSize - cfg.headerLen := rfl
  cases hl : cfg.layout with
  | var =>
    rw [sizeOk_var hl] at hz
    have := size_all cfg n.isInner n.recs
    simp only [Node.bytes, Node.needs, hl]
    omega
  | fix =>
    rw [sizeOk_fix hl] at hz
    obtain ⟨h1, h2, h3, h4⟩ := hz
    have e : n.recs.length + (if n.low.isSome = true then 1 else 0) + (if n.high.isSome = true then 1 else 0) =
        n.recs.length + n.borders := by simp only [Node.borders]; omega
    simp only [Node.bytes, Node.needs, hl, e]
    omega

example : ∃ s : St Nat Nat, Reachable ((Variant.osl none).impl (varCfg true)) s ∧ ∃ p n, s.heap p = some n ∧ n.recs ≠ [] := by
  have ha : (Variant.osl none : Variant Nat).Admissible (varCfg true) := ⟨108, varCfg_roomy _, rfl⟩
  obtain ⟨out, s, m, h1, -, h3⟩ := (Variant.callsOk (V := Nat) ha).step (inv_init _) (.insert 5 50)
  obtain ⟨N, h1'⟩ := h1
  refine ⟨s, Reachable.init.step ⟨N, h1'⟩, ?_⟩
  have e := h1' (N + 3) (by omega)
  have e' : ∃ o s', ((Variant.osl none).impl (varCfg true) : Impl Nat Nat).exec (N + 3) (.insert 5 50) initSt = .ok (o, s') ∧
      ∃ p n, s'.heap p = some n ∧ n.recs ≠ [] := ⟨_, _, rfl, 0, _, rfl, by simp [insAt]⟩
  obtain ⟨o, s', e1, e2⟩ := e'
  rw [e] at e1
  cases e1
  exact e2

/-! ## C40 is false -/

/-- 8-byte keys and 322-byte payloads on the default page. -/
def fix322 (blink : Bool) : Cfg Nat := { fixCfg blink with payLen := 322 }

/-- The default configuration for variable-length data, with keys of 8 bytes (multiples of three) and 128 bytes (the others). -/
def varMix (blink : Bool) : Cfg Nat := { varCfg blink with keyLen := fun k => if k % 3 = 0 then 8 else 128 }

theorem fix322_accepted (b : Bool) : (fix322 b).StaticAssert := by
  simp [Cfg.StaticAssert, Cfg.maxRecLen, Cfg.minBlock, Cfg.maxPayLen, Cfg.mlen, fix322, fixCfg]

theorem varMix_accepted (b : Bool) : (varMix b).StaticAssert ∧ ∀ k, (varMix b).klen k ≤ (varMix b).maxKeyLen := by
  refine ⟨by simp [Cfg.StaticAssert, Cfg.maxRecLen, Cfg.minBlock, Cfg.maxPayLen, Cfg.mlen, varMix, varCfg], fun k => ?_⟩
  simp only [Cfg.klen, varMix, varCfg]
  split <;> omega

def writes (l : List Nat) : List (Op Nat Nat) := l.map (fun k => .write k 0)

def crashes (r : Res (List (Out Nat Nat) × St Nat Nat)) : Bool := match r with | .ub => true | _ => false
def outs (r : Res (List (Out Nat Nat) × St Nat Nat)) : Option (List (Out Nat Nat)) :=
  match r with | .ok (l, _) => some l | _ => none

/-- PML: the fourth write splits a leaf into halves without checking that the record fits into its half (pml/b_tree.hpp); the record
area overflows. -/
theorem C40_fix_pml_overflow : crashes ((Pml.impl (fix322 false)).run 10 (writes [18, 5, 1, 10]) initSt) = true := by decide +kernel

/-- OSL: the same sequence. -/
theorem C40_fix_osl_overflow : crashes ((Osl.impl (fix322 true) none).run 10 (writes [18, 5, 1, 10]) initSt) = true := by
  decide +kernel

/-- PSL ignores the return code of the second attempt: the fourth write reports success and stores nothing. -/
theorem C40_fix_psl_lost : outs ((Psl.impl (fix322 true)).run 10 (writes [18, 5, 1, 10] ++ [.read 10]) initSt) =
    some [.code .success, .code .success, .code .success, .code .success, .payload none] := by decide +kernel

/-- PML, default page sizes and 8/128-byte keys: a split runs past the last record (`Split` counts the border keys of the left page
as if they were records) and reads a slot that does not exist. -/
theorem C40_var_pml_overflow : crashes ((Pml.impl (varMix false)).run 10
    (writes [25, 31, 9, 38, 10, 35, 13, 8, 7, 18, 21, 29] ++ [.delete 25] ++ writes [16, 23]) initSt) = true := by decide +kernel

/-- OML: the same sequence. -/
theorem C40_var_oml_overflow : crashes ((Oml.impl (varMix false) none).run 10
    (writes [25, 31, 9, 38, 10, 35, 13, 8, 7, 18, 21, 29] ++ [.delete 25] ++ writes [16, 23]) initSt) = true := by decide +kernel

/-- PSL: the same with one more key. -/
theorem C40_var_psl_overflow : crashes ((Psl.impl (varMix true)).run 10
    (writes [25, 31, 9, 38, 10, 35, 13, 8, 7, 18, 21, 3, 29] ++ [.delete 25] ++ writes [16, 23]) initSt) = true := by decide +kernel

/-- OSL: the same sequence as PSL. -/
theorem C40_var_osl_overflow : crashes ((Osl.impl (varMix true) none).run 10
    (writes [25, 31, 9, 38, 10, 35, 13, 8, 7, 18, 21, 3, 29] ++ [.delete 25] ++ writes [16, 23]) initSt) = true := by decide +kernel

/-- C40 is false: for each of the four classes there is a configuration that the static_assert accepts, with every key at most
`kMaxVarLenDataSize` long and otherwise the default sizes, and a sequence of calls whose last one is undefined behaviour. -/
theorem C40_static_assert_insufficient (v : Variant Nat) (hv : v = .pml ∨ v = .oml none ∨ v = .psl ∨ v = .osl none) :
    ∃ b, (varMix b).StaticAssert ∧ (∀ k, (varMix b).klen k ≤ (varMix b).maxKeyLen) ∧
      ∃ ops : List (Op Nat Nat), (v.impl (varMix b)).run 10 ops initSt = .ub := by
  have key : ∀ r, crashes r = true → r = .ub := by
    intro r h
    cases r <;> simp [crashes] at h ⊢
  rcases hv with rfl | rfl | rfl | rfl
  · exact ⟨_, (varMix_accepted _).1, (varMix_accepted _).2, _, key _ C40_var_pml_overflow⟩
  · exact ⟨_, (varMix_accepted _).1, (varMix_accepted _).2, _, key _ C40_var_oml_overflow⟩
  · exact ⟨_, (varMix_accepted _).1, (varMix_accepted _).2, _, key _ C40_var_psl_overflow⟩
  · exact ⟨_, (varMix_accepted _).1, (varMix_accepted _).2, _, key _ C40_var_osl_overflow⟩

end BT
