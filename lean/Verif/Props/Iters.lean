import Verif.Iters
import Verif.Props.PslGood
import Verif.Props.PmlGood

/-!
# Two iterators of one thread (C35)

`twoScans scan b e turns` opens two iterators, on the ranges `(b false, e false)` and `(b true, e true)`, and advances them in the
order `turns`; its result lists the records obtained together with the iterator that gave them.
-/

set_option linter.unusedSectionVars false

namespace BT
variable {K V : Type} [LinearOrder K]

/-- What iterator `i` gave. -/
def given (outs : List (Bool × K × V)) (i : Bool) : List (K × V) := (outs.filter (fun x => x.1 == i)).map Prod.snd

theorem twoScans_ok {cfg : Cfg K} {I : Impl K V} {scanIter : Nat → ScanKey K → ScanKey K → M K V (Iter K)} (hc : CallsOk I cfg)
    (hsplit : ∀ fuel b e (s s' : St K V) l, I.scan fuel b e s = .ok (l, s') →
      ∃ it, scanIter fuel b e s = .ok (it, s') ∧ collect fuel it s' = .ok (l, s'))
    {s : St K V} (hs : Reachable I s) (b e : Bool → ScanKey K) (turns : List Bool) :
    ∃ l : Bool → List (K × V), (∀ i, Returns I s (.scan (b i) (e i)) (.recs (l i)) s) ∧
      ∃ N, ∀ fuel, N ≤ fuel → ∃ outs, twoScans scanIter b e turns fuel s = .ok (outs, s) ∧
        ∀ i, given outs i = (l i).take (turns.count i) := by
  obtain ⟨m, H, gr, g, hmm⟩ := hc.reach hs
  have hsc : ∀ i, ∃ N l, I.scan N (b i) (e i) s = .ok (l, s) := fun i => by
    obtain ⟨N, l, h1, -⟩ := hc.scan g (b i) (e i)
    exact ⟨N, l, h1⟩
  obtain ⟨N0, l0, h0⟩ := hsc false
  obtain ⟨N1, l1, h1⟩ := hsc true
  refine ⟨fun i => if i then l1 else l0, fun i => ?_, max N0 N1, fun fuel hf => ?_⟩
  · cases i with
    | false =>
      refine ⟨N0, fun f hf => (hc.fuelOk.exec (.scan (b false) (e false)) N0 f hf).le s _ ?_⟩
      simp only [Impl.exec]; rw [M.bind_ok h0]; rfl
    | true =>
      refine ⟨N1, fun f hf => (hc.fuelOk.exec (.scan (b true) (e true)) N1 f hf).le s _ ?_⟩
      simp only [Impl.exec]; rw [M.bind_ok h1]; rfl
  · obtain ⟨it0, i0, c0⟩ := hsplit _ _ _ _ _ _ ((hc.fuelOk.scan (b false) (e false) N0 fuel (by omega)).le s _ h0)
    obtain ⟨it1, i1, c1⟩ := hsplit _ _ _ _ _ _ ((hc.fuelOk.scan (b true) (e true) N1 fuel (by omega)).le s _ h1)
    obtain ⟨outs, h2, h3⟩ := alternate_ok (fuel := fuel) (s := s) turns (fun i => if i then it1 else it0)
      (fun i => if i then l1 else l0) (fun i => by
        cases i
        · exact ⟨fuel, le_refl _, c0⟩
        · exact ⟨fuel, le_refl _, c1⟩)
    refine ⟨outs, ?_, h3⟩
    unfold twoScans
    rw [M.bind_ok i0, M.bind_ok i1]
    exact h2

/-- C35 for PML: whatever the order of the turns, each iterator gives the first records of its own scan, one per turn. -/
theorem C35_pml_independent {cfg : Cfg K} (ha : (Variant.pml : Variant K).Admissible cfg) {s : St K V}
    (hs : Reachable (Variant.pml.impl cfg) s) (b e : Bool → ScanKey K) (turns : List Bool) :
    ∃ l : Bool → List (K × V), (∀ i, Returns (Variant.pml.impl cfg) s (.scan (b i) (e i)) (.recs (l i)) s) ∧
      ∃ N, ∀ fuel, N ≤ fuel → ∃ outs, twoScans Pml.scanIter b e turns fuel s = .ok (outs, s) ∧
        ∀ i, given outs i = (l i).take (turns.count i) :=
  twoScans_ok (Variant.callsOk ha) (fun _ _ _ _ _ _ h => Pml.scan_split h) hs b e turns

/-- C35 for PSL. -/
theorem C35_psl_independent {cfg : Cfg K} (ha : (Variant.psl : Variant K).Admissible cfg) {s : St K V}
    (hs : Reachable (Variant.psl.impl cfg) s) (b e : Bool → ScanKey K) (turns : List Bool) :
    ∃ l : Bool → List (K × V), (∀ i, Returns (Variant.psl.impl cfg) s (.scan (b i) (e i)) (.recs (l i)) s) ∧
      ∃ N, ∀ fuel, N ≤ fuel → ∃ outs, twoScans Psl.scanIter b e turns fuel s = .ok (outs, s) ∧
        ∀ i, given outs i = (l i).take (turns.count i) :=
  twoScans_ok (Variant.callsOk ha) (fun _ _ _ _ _ _ h => Psl.scan_split h) hs b e turns

theorem Reachable.of_run {I : Impl K V} (hf : I.FuelOk) {fuel : Nat} : ∀ (ops : List (Op K V)) {s s' : St K V} {outs : List (Out K V)},
    Reachable I s → I.run fuel ops s = .ok (outs, s') → Reachable I s'
  | [], s, s', outs, hs, h => by cases h; exact hs
  | op :: ops, s, s', outs, hs, h => by
    unfold Impl.run at h
    obtain ⟨o, s1, h1, g1⟩ := bind_inv h
    obtain ⟨os, s2, h2, g2⟩ := bind_inv g1
    cases g2
    exact Reachable.of_run hf ops (hs.step ⟨fuel, fun f hfu => (hf.exec op fuel f hfu).le _ _ h1⟩) h2

/-- Five records: two leaves with `c200`. -/
def fiveWrites : List (Op Nat Nat) := [.write 0 0, .write 20 20, .write 40 40, .write 60 60, .write 80 80]

/-- Eight records: two leaves with `c120`. -/
def eightWrites : List (Op Nat Nat) := fiveWrites ++ [.write 100 100, .write 120 120, .write 140 140]

/-- One iterator over everything, one from `k` on. -/
def allAndFrom (k : Nat) : Bool → ScanKey Nat := fun i => if i then some (k, true) else none

def toEnd : Bool → ScanKey Nat := fun _ => none

theorem c200_osl (key : Option Nat) : (Variant.osl key).Admissible c200 := ⟨8, c200_roomy, rfl⟩
theorem c200_psl : (Variant.psl : Variant Nat).Admissible c200 := ⟨8, c200_roomy, rfl⟩
theorem c120_oml (key : Option Nat) : (Variant.oml key).Admissible c120 := ⟨8, c120_roomy, c120_room⟩
theorem c120_pml : (Variant.pml : Variant Nat).Admissible c120 := ⟨8, c120_roomy, c120_room⟩

/-- The memory after some calls on a new index and what a further program returns there. -/
def after {α : Type} (I : Impl Nat Nat) (ops : List (Op Nat Nat)) (m : M Nat Nat α) : Option α :=
  match I.run 20 ops initSt with
  | .ok (_, s) =>
    match m s with
    | .ok (a, _) => some a
    | _ => none
  | _ => none

theorem after_spec {α : Type} {I : Impl Nat Nat} (hf : I.FuelOk) {ops : List (Op Nat Nat)} {m : M Nat Nat α} {a : α}
    (h : after I ops m = some a) : ∃ outs s s', I.run 20 ops initSt = .ok (outs, s) ∧ Reachable I s ∧ m s = .ok (a, s') := by
  unfold after at h
  cases e : I.run 20 ops initSt with
  | ub => rw [e] at h; cases h
  | fuel => rw [e] at h; cases h
  | ok x =>
    obtain ⟨outs, s⟩ := x
    rw [e] at h
    dsimp only at h
    cases e' : m s with
    | ub => rw [e'] at h; cases h
    | fuel => rw [e'] at h; cases h
    | ok y =>
      obtain ⟨b, s'⟩ := y
      rw [e'] at h
      cases h
      exact ⟨outs, s, s', rfl, Reachable.of_run hf ops .init e, e'⟩

theorem after_scan {v : Variant Nat} {cfg : Cfg Nat} (ha : v.Admissible cfg) {s : St Nat Nat} (hs : Reachable (v.impl cfg) s)
    {b e : ScanKey Nat} {l : List (Nat × Nat)} {s' : St Nat Nat} (h : (v.impl cfg : Impl Nat Nat).scan 20 b e s = .ok (l, s')) :
    Returns (v.impl cfg) s (.scan b e) (.recs l) s := by
  have hc := Variant.callsOk (V := Nat) ha
  obtain ⟨m, H, gr, g, hmm⟩ := hc.reach hs
  obtain ⟨N, l', h1, -⟩ := hc.scan g b e
  have h2 := (hc.fuelOk.scan b e N (max N 20) (le_max_left _ _)).le s _ h1
  have h3 := (hc.fuelOk.scan b e 20 (max N 20) (le_max_right _ _)).le s _ h
  rw [h2] at h3
  cases h3
  refine ⟨N, fun f hf => (hc.fuelOk.exec (.scan b e) N f hf).le s _ ?_⟩
  simp only [Impl.exec]; rw [M.bind_ok h1]; rfl

theorem interfere {v : Variant Nat} {cfg : Cfg Nat} (ha : v.Admissible cfg)
    {scan : Option Nat → Nat → ScanKey Nat → ScanKey Nat → M Nat Nat (OIter Nat Nat × Option Nat)} {ops : List (Op Nat Nat)}
    {b e : Bool → ScanKey Nat} {turns : List Bool} {outs : List (Bool × Nat × Nat)} {l : List (Nat × Nat)} (hb : b false = none)
    (he : e false = none)
    (h1 : after (v.impl cfg) ops (twoOScans scan none b e turns 20) = some outs)
    (h2 : after (v.impl cfg) ops ((v.impl cfg : Impl Nat Nat).scan 20 none none) = some l)
    (hne : given outs false ≠ l.take (turns.count false)) :
    ∃ s s', Reachable (v.impl cfg) s ∧ twoOScans scan none b e turns 20 s = .ok (outs, s') ∧
      Returns (v.impl cfg) s (.scan (b false) (e false)) (.recs l) s ∧ given outs false ≠ l.take (turns.count false) := by
  have hf := (Variant.callsOk (V := Nat) ha).fuelOk
  obtain ⟨o1, s1, t1, r1, hs, m1⟩ := after_spec hf h1
  obtain ⟨o2, s2, t2, r2, -, m2⟩ := after_spec hf h2
  rw [r1] at r2
  cases r2
  exact ⟨s1, t1, hs, m1, by rw [hb, he]; exact after_scan ha hs m2, hne⟩

/-- C35 is false for OSL: two iterators of one thread share the variable that holds the current key.  The first iterator has given 0
and 20; the second gives 80; then the first ends, although its range still contains 40, 60 and 80. -/
theorem C35_osl_iterators_interfere : ∃ (s s' : St Nat Nat) (b e : Bool → ScanKey Nat) (turns : List Bool)
    (outs : List (Bool × Nat × Nat)) (l : List (Nat × Nat)), Reachable ((Variant.osl none).impl c200) s ∧
      twoOScans Osl.scanIter none b e turns 20 s = .ok (outs, s') ∧
      Returns ((Variant.osl none).impl c200) s (.scan (b false) (e false)) (.recs l) s ∧
      given outs false ≠ l.take (turns.count false) := by
  obtain ⟨s, s', h⟩ := interfere (c200_osl none) (scan := Osl.scanIter) (ops := fiveWrites) (b := allAndFrom 80) (e := toEnd)
    (turns := [false, false, true, false, false, false]) (outs := [(false, 0, 0), (false, 20, 20), (true, 80, 80)])
    (l := [(0, 0), (20, 20), (40, 40), (60, 60), (80, 80)]) rfl rfl (by decide +kernel) (by decide +kernel) (by decide)
  exact ⟨s, s', _, _, _, _, _, h⟩

/-- C35 is false for OML. -/
theorem C35_oml_iterators_interfere : ∃ (s s' : St Nat Nat) (b e : Bool → ScanKey Nat) (turns : List Bool)
    (outs : List (Bool × Nat × Nat)) (l : List (Nat × Nat)), Reachable ((Variant.oml none).impl c120) s ∧
      twoOScans Oml.scanIter none b e turns 20 s = .ok (outs, s') ∧
      Returns ((Variant.oml none).impl c120) s (.scan (b false) (e false)) (.recs l) s ∧
      given outs false ≠ l.take (turns.count false) := by
  obtain ⟨s, s', h⟩ := interfere (c120_oml none) (scan := Oml.scanIter) (ops := eightWrites) (b := allAndFrom 140) (e := toEnd)
    (turns := [false, false, false, true, false]) (outs := [(false, 0, 0), (false, 20, 20), (false, 40, 40), (true, 140, 140)])
    (l := [(0, 0), (20, 20), (40, 40), (60, 60), (80, 80), (100, 100), (120, 120), (140, 140)])
    rfl rfl (by decide +kernel) (by decide +kernel) (by decide)
  exact ⟨s, s', _, _, _, _, _, h⟩

theorem wrongPair {v : Variant Nat} {cfg : Cfg Nat} (ha : v.Admissible cfg)
    {scan : Option Nat → Nat → ScanKey Nat → ScanKey Nat → M Nat Nat (OIter Nat Nat × Option Nat)} {ops : List (Op Nat Nat)}
    {b e : Bool → ScanKey Nat} {k x y : Nat} (h1 : after (v.impl cfg) ops (peekTwo scan none b e 20) = some (k, x))
    (h2 : after (v.impl cfg) ops ((v.impl cfg : Impl Nat Nat).read 20 k) = some (some y)) (hne : x ≠ y) :
    ∃ s s', Reachable (v.impl cfg) s ∧ peekTwo scan none b e 20 s = .ok ((k, x), s') ∧
      Returns (v.impl cfg) s (.read k) (.payload (some y)) s ∧ x ≠ y := by
  have hc := Variant.callsOk (V := Nat) ha
  obtain ⟨o1, s1, t1, r1, hs, m1⟩ := after_spec hc.fuelOk h1
  obtain ⟨o2, s2, t2, r2, -, m2⟩ := after_spec hc.fuelOk h2
  rw [r1] at r2
  cases r2
  refine ⟨s1, t1, hs, m1, ?_, hne⟩
  obtain ⟨m, hm⟩ := hc.reach hs
  have h3 : Returns (v.impl cfg) s1 (.read k) (.payload (some y)) t2 :=
    ⟨20, fun f hf => (hc.fuelOk.exec (.read k) 20 f hf).le s1 _ (by simp only [Impl.exec]; rw [M.bind_ok m2]; rfl)⟩
  obtain ⟨-, rfl⟩ := (hc.reads_iff hm k (some y)).1 h3
  exact h3

/-- An iterator of OSL can give a record that was never in the tree: here key 80 with the payload of key 0, after `HasRecord` of
the other iterator. -/
theorem C35_osl_wrong_pair : ∃ (s s' : St Nat Nat) (b e : Bool → ScanKey Nat) (k x y : Nat),
    Reachable ((Variant.osl none).impl c200) s ∧ peekTwo Osl.scanIter none b e 20 s = .ok ((k, x), s') ∧
      Returns ((Variant.osl none).impl c200) s (.read k) (.payload (some y)) s ∧ x ≠ y := by
  obtain ⟨s, s', h⟩ := wrongPair (c200_osl none) (scan := Osl.scanIter) (ops := fiveWrites) (b := allAndFrom 80) (e := toEnd)
    (k := 80) (x := 0) (y := 80) (by decide +kernel) (by decide +kernel) (by decide)
  exact ⟨s, s', _, _, _, _, _, h⟩

/-- The same for OML. -/
theorem C35_oml_wrong_pair : ∃ (s s' : St Nat Nat) (b e : Bool → ScanKey Nat) (k x y : Nat),
    Reachable ((Variant.oml none).impl c120) s ∧ peekTwo Oml.scanIter none b e 20 s = .ok ((k, x), s') ∧
      Returns ((Variant.oml none).impl c120) s (.read k) (.payload (some y)) s ∧ x ≠ y := by
  obtain ⟨s, s', h⟩ := wrongPair (c120_oml none) (scan := Oml.scanIter) (ops := eightWrites) (b := allAndFrom 140) (e := toEnd)
    (k := 140) (x := 0) (y := 140) (by decide +kernel) (by decide +kernel) (by decide)
  exact ⟨s, s', _, _, _, _, _, h⟩

/-- Non-vacuity of the positive theorems: trees with two leaves, and turns that cross the border of the leaves. -/
example : after (Pml.impl c120) eightWrites (twoScans Pml.scanIter (allAndFrom 140) toEnd [false, false, false, true, false] 20) =
    some [(false, 0, 0), (false, 20, 20), (false, 40, 40), (true, 140, 140), (false, 60, 60)] := by decide +kernel
example : after (Psl.impl c200) fiveWrites (twoScans Psl.scanIter (allAndFrom 80) toEnd [false, false, true, false, true] 20) =
    some [(false, 0, 0), (false, 20, 20), (true, 80, 80), (false, 40, 40)] := by decide +kernel
example : ∃ s : St Nat Nat, Reachable (Variant.psl.impl c200) s ∧
    ∃ l : Bool → List (Nat × Nat), ∀ i, Returns (Variant.psl.impl c200) s (.scan (allAndFrom 80 i) (toEnd i)) (.recs (l i)) s := by
  obtain ⟨_, s, _, _, hs, _⟩ := after_spec (I := Psl.impl c200) (ops := fiveWrites) (m := (Psl.impl c200 : Impl Nat Nat).read 20 0) (a := some 0)
    (Variant.callsOk (V := Nat) c200_psl).fuelOk (by decide +kernel)
  obtain ⟨l, h, _⟩ := C35_psl_independent c200_psl hs (allAndFrom 80) toEnd []
  exact ⟨s, hs, l, h⟩

end BT
