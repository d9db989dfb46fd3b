import Verif.Variants

/-!
# Properties of single calls in any reachable state, all variants and layouts (C05 - C08, C13)

Each statement mentions only API calls (`Returns I s op out s'`: the call `op` in memory `s` finishes, answers `out` and leaves `s'`),
so what is stored is described by what `Read` returns.
-/

namespace BT
variable {K V : Type} [LinearOrder K]

/-- Witness used below: all four variants in both layouts have admissible configurations. -/
theorem admissible_examples :
    (Variant.pml : Variant Nat).Admissible (fixCfg false) ∧ (Variant.pml : Variant Nat).Admissible (varCfg false) ∧
    (Variant.oml none : Variant Nat).Admissible (fixCfg false) ∧ (Variant.oml (some 1) : Variant Nat).Admissible (varCfg false) ∧
    (Variant.psl : Variant Nat).Admissible (fixCfg true) ∧ (Variant.psl : Variant Nat).Admissible (varCfg true) ∧
    (Variant.osl none : Variant Nat).Admissible (fixCfg true) ∧ (Variant.osl (some 1) : Variant Nat).Admissible (varCfg true) := by
  refine ⟨⟨8, fixCfg_roomy _, ?_⟩, ⟨108, varCfg_roomy _, ?_⟩, ⟨8, fixCfg_roomy _, ?_⟩, ⟨108, varCfg_roomy _, ?_⟩,
    ⟨8, fixCfg_roomy _, rfl⟩, ⟨108, varCfg_roomy _, rfl⟩, ⟨8, fixCfg_roomy _, rfl⟩, ⟨108, varCfg_roomy _, rfl⟩⟩ <;>
  simp [fixCfg, varCfg, Cfg.maxPayLen, Cfg.mlen]

section
variable {v : Variant K} {cfg : Cfg K} {s : St K V}

/-- C05. A scan in any reachable state finishes, changes nothing, and returns in strictly ascending key order exactly the pairs
`(k, x)` with `k` in the range for which `Read k` returns `x`. -/
theorem C05_scan (ha : v.Admissible cfg) (hs : Reachable (v.impl cfg) s) (b e : ScanKey K) :
    ∃ l, Returns (v.impl cfg) s (.scan b e) (.recs l) s ∧ l.Pairwise (fun x y => x.1 < y.1) ∧
      ∀ k x, (k, x) ∈ l ↔
        Returns (v.impl cfg) s (.read k) (.payload (some x)) s ∧ Spec.AboveLo b k ∧ Spec.BelowHi e k := by
  have hc := Variant.callsOk (V := V) ha
  obtain ⟨m, hm⟩ := hc.reach hs
  obtain ⟨H, gr, g, hmm⟩ := hm
  obtain ⟨N, l, h1, h2, h3⟩ := hc.scan g b e
  refine ⟨l, ⟨N, fun f hf => (hc.fuelOk.exec (.scan b e) N f hf).le s _ ?_⟩, h2, fun k x => ?_⟩
  · simp only [Impl.exec]
    rw [M.bind_ok h1]
    rfl
  · rw [hc.reads_iff ⟨H, gr, g, hmm⟩, h3, hmm]
    simp

/-- C06. A writing call on `k` (whatever it answers) leaves the answer of `Read` unchanged for every other key. -/
theorem C06_other_keys (ha : v.Admissible cfg) (hs : Reachable (v.impl cfg) s) {k k' : K} (hk : k' ≠ k) {op : Op K V}
    {out : Out K V} {s' : St K V} (hop : op = .delete k ∨ ∃ x, op = .write k x ∨ op = .insert k x ∨ op = .update k x)
    (hr : Returns (v.impl cfg) s op out s') (o : Option V) :
    Returns (v.impl cfg) s (.read k') (.payload o) s ↔ Returns (v.impl cfg) s' (.read k') (.payload o) s' := by
  have hc := Variant.callsOk (V := V) ha
  obtain ⟨m, hm⟩ := hc.reach hs
  obtain ⟨m', h1, h2⟩ := hc.sound hm hr
  rw [hc.reads_iff hm, hc.reads_iff h2]
  have : m k' = m' k' := by
    rcases hop with rfl | ⟨x, rfl | rfl | rfl⟩ <;> cases h1 <;> simp [Spec.set, hk]
  rw [this]
  simp

/-- C06 for scans and reads: they leave the memory, hence every later answer, unchanged. -/
theorem C06_readers (ha : v.Admissible cfg) (hs : Reachable (v.impl cfg) s) {op : Op K V} {out : Out K V} {s' : St K V}
    (hop : (∃ k, op = .read k) ∨ ∃ b e, op = .scan b e) (hr : Returns (v.impl cfg) s op out s') : s' = s := by
  have hc := Variant.callsOk (V := V) ha
  obtain ⟨m, hm⟩ := hc.reach hs
  rcases hop with ⟨k, rfl⟩ | ⟨b, e, rfl⟩
  · exact (hr.unique (hc.reads hm k)).2
  · obtain ⟨l, h1, -⟩ := C05_scan ha hs b e
    exact (hr.unique h1).2

/-- C07, `Write`. It always answers success, and afterwards `Read` returns the written payload. -/
theorem C07_write (ha : v.Admissible cfg) (hs : Reachable (v.impl cfg) s) {k : K} {x : V} {out : Out K V} {s' : St K V}
    (hr : Returns (v.impl cfg) s (.write k x) out s') :
    out = .code .success ∧ Returns (v.impl cfg) s' (.read k) (.payload (some x)) s' := by
  have hc := Variant.callsOk (V := V) ha
  obtain ⟨m, hm⟩ := hc.reach hs
  obtain ⟨m', h1, h2⟩ := hc.sound hm hr
  rw [hc.reads_iff h2]
  cases h1
  simp [Spec.set]

/-- C07, `Insert`. Success iff the key was absent (then it is bound to the payload), key-exist iff it was present
(then `Read` still returns what it returned before). -/
theorem C07_insert (ha : v.Admissible cfg) (hs : Reachable (v.impl cfg) s) {k : K} {x : V} {out : Out K V} {s' : St K V}
    (hr : Returns (v.impl cfg) s (.insert k x) out s') :
    (out = .code .success ↔ Returns (v.impl cfg) s (.read k) (.payload none) s) ∧
    (out = .code .keyExist ↔ ∃ y, Returns (v.impl cfg) s (.read k) (.payload (some y)) s) ∧
    (out = .code .success → Returns (v.impl cfg) s' (.read k) (.payload (some x)) s') ∧
    (out = .code .keyExist → ∀ o, Returns (v.impl cfg) s (.read k) (.payload o) s →
      Returns (v.impl cfg) s' (.read k) (.payload o) s') := by
  have hc := Variant.callsOk (V := V) ha
  obtain ⟨m, hm⟩ := hc.reach hs
  obtain ⟨m', h1, h2⟩ := hc.sound hm hr
  simp only [hc.reads_iff h2, hc.reads_iff hm]
  cases h1 with
  | insertNew _ _ h => simp [h, Spec.set]
  | insertOld _ _ h => cases hmk : m k <;> simp_all

/-- C07, `Update`. Success iff the key was present (then it is bound to the new payload), key-not-exist iff it was absent
(then it stays absent). -/
theorem C07_update (ha : v.Admissible cfg) (hs : Reachable (v.impl cfg) s) {k : K} {x : V} {out : Out K V} {s' : St K V}
    (hr : Returns (v.impl cfg) s (.update k x) out s') :
    (out = .code .success ↔ ∃ y, Returns (v.impl cfg) s (.read k) (.payload (some y)) s) ∧
    (out = .code .keyNotExist ↔ Returns (v.impl cfg) s (.read k) (.payload none) s) ∧
    (out = .code .success → Returns (v.impl cfg) s' (.read k) (.payload (some x)) s') ∧
    (out = .code .keyNotExist → Returns (v.impl cfg) s' (.read k) (.payload none) s') := by
  have hc := Variant.callsOk (V := V) ha
  obtain ⟨m, hm⟩ := hc.reach hs
  obtain ⟨m', h1, h2⟩ := hc.sound hm hr
  simp only [hc.reads_iff h2, hc.reads_iff hm]
  cases h1 with
  | updateNew _ _ h => simp [h]
  | updateOld _ _ h => cases hmk : m k <;> simp_all [Spec.set]

/-- C07, `Delete`. Success iff the key was present, key-not-exist iff it was absent; afterwards it is absent. -/
theorem C07_delete (ha : v.Admissible cfg) (hs : Reachable (v.impl cfg) s) {k : K} {out : Out K V} {s' : St K V}
    (hr : Returns (v.impl cfg) s (.delete k) out s') :
    (out = .code .success ↔ ∃ y, Returns (v.impl cfg) s (.read k) (.payload (some y)) s) ∧
    (out = .code .keyNotExist ↔ Returns (v.impl cfg) s (.read k) (.payload none) s) ∧
    Returns (v.impl cfg) s' (.read k) (.payload none) s' := by
  have hc := Variant.callsOk (V := V) ha
  obtain ⟨m, hm⟩ := hc.reach hs
  obtain ⟨m', h1, h2⟩ := hc.sound hm hr
  simp only [hc.reads_iff h2, hc.reads_iff hm]
  cases h1 with
  | deleteNew _ h => simp [h]
  | deleteOld _ h => cases hmk : m k <;> simp_all [Spec.set]

/-- C08. In every reachable state every call finishes without undefined behaviour, with exactly one answer. -/
theorem C08_terminates (ha : v.Admissible cfg) (hs : Reachable (v.impl cfg) s) (op : Op K V) :
    ∃ out s', Returns (v.impl cfg) s op out s' ∧
      ∀ out' s'', Returns (v.impl cfg) s op out' s'' → out' = out ∧ s'' = s' := by
  have hc := Variant.callsOk (V := V) ha
  obtain ⟨m, hm⟩ := hc.reach hs
  obtain ⟨out, s', m', h1, -⟩ := hc.step hm op
  exact ⟨out, s', h1, fun _ _ h => h.unique h1⟩

/-- C13. After `Delete k` the key is absent for `Read`, `Update`, `Delete` and every `Scan`; a following `Insert` or `Write`
answers success and `Read` then returns the new payload. -/
theorem C13_delete_reinsert (ha : v.Admissible cfg) (hs : Reachable (v.impl cfg) s) {k : K} (x : V) {out : Out K V}
    {s' : St K V} (hr : Returns (v.impl cfg) s (.delete k) out s') :
    Returns (v.impl cfg) s' (.read k) (.payload none) s' ∧
    (∃ t, Returns (v.impl cfg) s' (.update k x) (.code .keyNotExist) t) ∧
    (∃ t, Returns (v.impl cfg) s' (.delete k) (.code .keyNotExist) t) ∧
    (∀ b e, ∃ l, Returns (v.impl cfg) s' (.scan b e) (.recs l) s' ∧ ∀ y, (k, y) ∉ l) ∧
    (∃ t, Returns (v.impl cfg) s' (.insert k x) (.code .success) t ∧
      Returns (v.impl cfg) t (.read k) (.payload (some x)) t) ∧
    (∃ t, Returns (v.impl cfg) s' (.write k x) (.code .success) t ∧
      Returns (v.impl cfg) t (.read k) (.payload (some x)) t) := by
  have hr0 := hr
  have hs' : Reachable (v.impl cfg) s' := hs.step hr
  have hno := (C07_delete ha hs hr).2.2
  refine ⟨hno, ?_, ?_, ?_, ?_, ?_⟩
  · obtain ⟨o, t, h, -⟩ := C08_terminates ha hs' (.update k x)
    exact ⟨t, by rwa [← (C07_update ha hs' h).2.1.2 hno]⟩
  · obtain ⟨o, t, h, -⟩ := C08_terminates ha hs' (.delete k)
    exact ⟨t, by rwa [← (C07_delete ha hs' h).2.1.2 hno]⟩
  · intro b e
    obtain ⟨l, h1, -, h2⟩ := C05_scan ha hs' b e
    refine ⟨l, h1, fun y hy => ?_⟩
    have := (((h2 k y).1 hy).1.unique hno).1
    simp at this
  · obtain ⟨o, t, h, -⟩ := C08_terminates ha hs' (.insert k x)
    have h1 := (C07_insert ha hs' h).1.2 hno
    exact ⟨t, by rwa [← h1], (C07_insert ha hs' h).2.2.1 h1⟩
  · obtain ⟨o, t, h, -⟩ := C08_terminates ha hs' (.write k x)
    have h1 := C07_write ha hs' h
    exact ⟨t, by rw [← h1.1]; exact h, h1.2⟩

end

/-- Reachable states exist for any history: here after two insertions and one deletion in the default index. -/
example : ∃ s s' out, Reachable ((Variant.osl none).impl (varCfg true) : Impl Nat Nat) s ∧
    Returns ((Variant.osl none).impl (varCfg true)) s (.delete 5) out s' ∧ out = .code .success := by
  have ha : (Variant.osl none : Variant Nat).Admissible (varCfg true) := ⟨108, varCfg_roomy _, rfl⟩
  obtain ⟨o1, s1, h1, -⟩ := C08_terminates (V := Nat) ha .init (.write 5 50)
  have r1 := Reachable.init.step h1
  obtain ⟨o2, s2, h2, -⟩ := C08_terminates ha r1 (.insert 7 70)
  have r2 := r1.step h2
  obtain ⟨o3, s3, h3, -⟩ := C08_terminates ha r2 (.delete 5)
  refine ⟨s2, s3, o3, r2, h3, (C07_delete ha r2 h3).1.2 ⟨50, ?_⟩⟩
  exact (C06_other_keys ha r1 (by decide) (.inr ⟨70, .inr (.inl rfl)⟩) h2 _).1 (C07_write ha .init h1).2

end BT
