import Verif.SpecTorn
import Verif.Props.OptScan
import Verif.Props.PslScan

/-!
# A scan is not a snapshot (C46)

In all variants a scan may report two keys that are never in the map at the same time, even if only one thread changes the map and nothing
goes wrong otherwise.  What a user may rely on instead is C34.
-/

namespace BT
open Spec

/-- Thread 0 writes the keys `ks`; thread 1 begins a scan; thread 0 deletes 1, and then writes 90; the scan reports all of them. -/
def scanTornHist (ks : List Nat) : List (Ev Nat Nat) :=
  ks.flatMap (fun k => [.inv 0 (.write k k), .res 0 (.code .success)]) ++ [.inv 1 (.scan none none), .inv 0 (.delete 1), .res 0 (.code .success),
    .inv 0 (.write 90 90), .res 0 (.code .success), .res 1 (.recs ((ks ++ [90]).map (fun k => (k, k))))]

theorem tornHist_torn {ks : List Nat} (h1 : 1 ∈ ks) (h90 : 90 ∉ ks) : TornScan (scanTornHist ks) := by
  refine ⟨1, 90, 1, 90, 0, 1, (ks ++ [90]).map (fun k => (k, k)), ks.flatMap (fun k => [.inv 0 (.write k k), .res 0 (.code .success)]) ++
    [.inv 1 (.scan none none)], [], [.inv 0 (.write 90 90), .res 0 (.code .success), .res 1 (.recs ((ks ++ [90]).map (fun k => (k, k))))],
    by simp [scanTornHist], by simp, ?_, ?_, ?_, by decide, by simp [scanTornHist], by simp [h1], by simp⟩
  · intro t op hm hc
    simp only [scanTornHist, List.mem_append, List.mem_flatMap, List.mem_cons, List.not_mem_nil, or_false, Ev.inv.injEq, reduceCtorEq, false_or] at hm
    rcases hm with ⟨k, -, rfl, -⟩ | ⟨-, rfl⟩ | ⟨rfl, -⟩ | ⟨rfl, -⟩
    · rfl
    · exact hc.elim
    · rfl
    · rfl
  · intro t op hm hc
    simp only [List.mem_cons, List.not_mem_nil, or_false, Ev.inv.injEq, reduceCtorEq] at hm
    obtain ⟨-, rfl⟩ := hm
    have : (90 : Nat) = 1 := hc
    omega
  · intro t op hm hc
    simp only [List.mem_append, List.mem_flatMap, List.mem_cons, List.not_mem_nil, or_false, Ev.inv.injEq, reduceCtorEq] at hm
    rcases hm with ⟨k, hk, -, rfl⟩ | ⟨-, rfl⟩
    · have : k = 90 := hc
      rw [this] at hk
      exact h90 hk
    · exact hc.elim

/-- The steps of the calls: `n` for the writes, then for the scan, the deletion, the last write, and the rest of the scan. -/
def scanTornRun (ns : List (Nat × Nat)) (a b c d : Nat) : List (Sched Nat Nat) :=
  ns.flatMap (fun x => [.inv 0 (.write x.1 x.1), .go 0 x.2, .res 0]) ++
    [.inv 1 (.scan none none), .go 1 a, .inv 0 (.delete 1), .go 0 b, .res 0, .inv 0 (.write 90 90), .go 0 c, .res 0, .go 1 d, .res 1]

theorem torn_of_run {I : CImpl Nat Nat} {c0 : Conf Nat Nat} {ns : List (Nat × Nat)} {a b c d : Nat}
    (h : (Conf.cmds I 20 (scanTornRun ns a b c d) c0).map (fun c => decide (c.mem.raced = false ∧ oneWriterFrom none c.hist = true ∧
      c.hist = scanTornHist (ns.map Prod.fst))) = some true) (h1 : 1 ∈ ns.map Prod.fst) (h90 : 90 ∉ ns.map Prod.fst) :
    ∃ c, Conf.Reach I c0 c ∧ c.mem.raced = false ∧ OneWriter c.hist ∧ TornScan c.hist ∧ ¬ Linearizable c.hist := by
  obtain ⟨c, e1, e2⟩ := Option.map_eq_some_iff.1 h
  obtain ⟨a1, a2, a3⟩ := of_decide_eq_true e2
  have ht : TornScan c.hist := by rw [a3]; exact tornHist_torn h1 h90
  exact ⟨c, Conf.cmds_reach .refl e1, a1, oneWriter_of_check a2, ht, ht.not_linearizable⟩

/-- C46 is false for PML: with one writer, and although none of the noted situations occurs, a scan reports two keys that are never in
the map at the same time. -/
theorem C46_pml_scan_torn : ∃ c, Conf.Reach (CPml.exec c120) (Conf.initPml : Conf Nat Nat) c ∧ c.mem.raced = false ∧ OneWriter c.hist ∧
    TornScan c.hist ∧ ¬ Linearizable c.hist :=
  torn_of_run (ns := [(1, 13), (2, 13), (3, 13), (4, 13), (5, 13), (6, 13), (7, 13), (8, 30), (9, 18), (10, 18), (11, 32), (12, 18)])
    (a := 12) (b := 18) (c := 18) (d := 5) (by decide +kernel) (by decide) (by decide)

/-- C46 is false for PSL. -/
theorem C46_psl_scan_torn : ∃ c, Conf.Reach (CPsl.execS c200) (Conf.init : Conf Nat Nat) c ∧ c.mem.raced = false ∧ OneWriter c.hist ∧
    TornScan c.hist ∧ ¬ Linearizable c.hist :=
  torn_of_run (ns := [(1, 9), (2, 9), (3, 9), (4, 9), (5, 27), (6, 14), (7, 36)]) (a := 12) (b := 13) (c := 14) (d := 7)
    (by decide +kernel) (by decide) (by decide)

/-- C46 is false for OSL, even within one page. -/
theorem C46_osl_scan_torn : ∃ c, Conf.Reach (COsl.execS c200) (Conf.init : Conf Nat Nat) c ∧ c.mem.raced = false ∧ OneWriter c.hist ∧
    TornScan c.hist ∧ ¬ Linearizable c.hist :=
  torn_of_run (ns := [(1, 11), (2, 11)]) (a := 7) (b := 11) (c := 11) (d := 13) (by decide +kernel) (by decide) (by decide)

/-- C46 is false for OML, even within one page. -/
theorem C46_oml_scan_torn : ∃ c, Conf.Reach (COml.execS c120 (fun _ _ => 0)) (Conf.init : Conf Nat Nat) c ∧ c.mem.raced = false ∧
    OneWriter c.hist ∧ TornScan c.hist ∧ ¬ Linearizable c.hist :=
  torn_of_run (ns := [(1, 22), (2, 21)]) (a := 7) (b := 17) (c := 21) (d := 13) (by decide +kernel) (by decide) (by decide)

/-! ## Scans without writers -/

section
variable {K V : Type} [LinearOrder K] {cfg : Cfg K} {L : Nat} {c : Conf K V}

/-- C46 for PML: if no call that can change the map overlaps a scan, then scans, too, take effect at one instant.  Missing: executions in
which one of the situations of `C34_pml_scans_partial` occurs. -/
theorem C46_pml_quiet_scans_partial (hr : Roomy cfg L) (hm : L + cfg.maxPayLen + cfg.mlen ≤ cfg.minFree) (hc : Conf.Reach (CPml.exec cfg) Conf.initPml c)
    (hn : c.mem.raced = false) (hq : QuietScans c.hist) : Linearizable c.hist :=
  (C34_pml_scans_partial hr hm hc hn).1.quiet hq

/-- C46 for PSL.  Missing: executions in which one of the situations of `C34_psl_scans_partial` occurs. -/
theorem C46_psl_quiet_scans_partial (hr : Roomy cfg L) (hb : cfg.blink = true) (hc : Conf.Reach (CPsl.execS cfg) Conf.init c)
    (hn : c.mem.raced = false) (hq : QuietScans c.hist) : Linearizable c.hist :=
  (C34_psl_scans_partial hr hb hc hn).2.1.quiet hq

/-- C46 for PSL with one writer at a time: nothing has to be excluded. -/
theorem C46_psl_one_writer_quiet_scans (hr : Roomy cfg L) (hb : cfg.blink = true) (hc : Conf.Reach (CPsl.execS cfg) Conf.init c)
    (ho : OneWriter c.hist) (hq : QuietScans c.hist) : Linearizable c.hist :=
  (C45_psl_one_writer_scans hr hb hc ho).2.1.quiet hq

/-- C46 for OSL.  Missing: executions in which one of the situations of `C34_osl_scans_partial` occurs. -/
theorem C46_osl_quiet_scans_partial (hr : Roomy cfg L) (hb : cfg.blink = true) (hc : Conf.Reach (COsl.execS cfg) Conf.init c)
    (hn : c.mem.raced = false) (hq : QuietScans c.hist) : Linearizable c.hist :=
  (C34_osl_scans_partial hr hb hc hn).2.1.quiet hq

/-- C46 for OML.  Missing: executions in which one of the situations of `C34_oml_scans_partial` occurs. -/
theorem C46_oml_quiet_scans_partial (hr : Roomy cfg L) (hb : cfg.blink = false) {junk : Node K V → Node K V → K}
    (hc : Conf.Reach (COml.execS cfg junk) Conf.init c) (hn : c.mem.raced = false) (hq : QuietScans c.hist) : Linearizable c.hist :=
  (C34_oml_scans_partial hr hb hc hn).2.1.quiet hq
end

/-! Runs that meet the hypotheses: two threads write at the same time, and when they have returned two threads scan while a third reads. -/

/-- A test for `QuietScans`: the calls that may be pending. -/
def pendL : List (Ev Nat Nat) → List (Nat × Op Nat Nat) → List (Nat × Op Nat Nat)
  | [], p => p
  | .inv t op :: h, p => pendL h ((t, op) :: p)
  | .res t _ :: h, p => pendL h (p.filter (fun x => x.1 ≠ t))

def isScan : Op Nat Nat → Bool
  | .scan _ _ => true
  | _ => false

def isWrite : Op Nat Nat → Bool
  | .scan _ _ | .read _ => false
  | _ => true

def quietB (h : List (Ev Nat Nat)) : Bool :=
  (List.range (h.length + 1)).all fun n => !((pendL (h.take n) []).any (fun x => isScan x.2) && (pendL (h.take n) []).any (fun x => isWrite x.2))

theorem pendL_mem {t : Nat} {op : Op Nat Nat} : ∀ {h : List (Ev Nat Nat)} {p}, (t, op) ∈ p → (∀ out, .res t out ∉ h) → (t, op) ∈ pendL h p
  | [], _, hp, _ => hp
  | .inv u o :: h, p, hp, hr => by
    have hr' : ∀ out, .res t out ∉ h := fun out hm => hr out (List.mem_cons_of_mem _ hm)
    rw [pendL]
    exact pendL_mem (List.mem_cons_of_mem _ hp) hr'
  | .res u o :: h, p, hp, hr => by
    have hr' : ∀ out, .res t out ∉ h := fun out hm => hr out (List.mem_cons_of_mem _ hm)
    have : t ≠ u := by rintro rfl; exact hr o List.mem_cons_self
    rw [pendL]
    exact pendL_mem (List.mem_filter.2 ⟨hp, by simpa using this⟩) hr'

theorem pendL_append : ∀ (h1 h2 : List (Ev Nat Nat)) (p), pendL (h1 ++ h2) p = pendL h2 (pendL h1 p)
  | [], _, _ => rfl
  | .inv _ _ :: h1, h2, _ => pendL_append h1 h2 _
  | .res _ _ :: h1, h2, _ => pendL_append h1 h2 _

theorem pending_mem {h : List (Ev Nat Nat)} {t : Nat} {op : Op Nat Nat} (hp : Pending h t op) : (t, op) ∈ pendL h [] := by
  obtain ⟨h1, h2, rfl, hr⟩ := hp
  rw [pendL_append, pendL]
  exact pendL_mem List.mem_cons_self hr

theorem quiet_of_check {h : List (Ev Nat Nat)} (hq : quietB h = true) : QuietScans h := by
  intro h1 h2 t u op b e eq hw p1 p2
  have := List.all_eq_true.1 hq h1.length (by rw [eq]; simp; omega)
  rw [eq, List.take_left] at this
  have a1 : (pendL h1 []).any (fun x => isScan x.2) = true := List.any_eq_true.2 ⟨_, pending_mem p2, rfl⟩
  have a2 : (pendL h1 []).any (fun x => isWrite x.2) = true := List.any_eq_true.2 ⟨_, pending_mem p1, by cases op <;> first | rfl | exact hw.elim⟩
  rw [a1, a2] at this
  cases this

def quietRun (n : Nat → Nat) : List (Sched Nat Nat) :=
  [.inv 0 (.write 1 1), .inv 1 (.write 2 2), .go 0 (n 0), .go 1 (n 1), .go 0 (n 2), .res 0, .go 1 (n 3), .res 1, .inv 0 (.scan none none),
   .inv 1 (.scan (some (2, true)) none), .inv 2 (.read 2), .go 0 (n 4), .go 1 (n 5), .go 0 (n 6), .res 0, .go 2 (n 7), .res 2, .res 1]

def quietHist : List (Ev Nat Nat) :=
  [.inv 0 (.write 1 1), .inv 1 (.write 2 2), .res 0 (.code .success), .res 1 (.code .success), .inv 0 (.scan none none),
   .inv 1 (.scan (some (2, true)) none), .inv 2 (.read 2), .res 0 (.recs [(1, 1), (2, 2)]), .res 2 (.payload (some 2)), .res 1 (.recs [(2, 2)])]

theorem quiet_run {I : CImpl Nat Nat} {c0 : Conf Nat Nat} {n : Nat → Nat} (h : (Conf.cmds I 20 (quietRun n) c0).map (fun c =>
    decide (c.mem.raced = false ∧ c.hist = quietHist)) = some true) :
    ∃ c, Conf.Reach I c0 c ∧ c.mem.raced = false ∧ c.hist = quietHist ∧ QuietScans c.hist := by
  obtain ⟨c, e1, e2⟩ := Option.map_eq_some_iff.1 h
  obtain ⟨a1, a2⟩ := of_decide_eq_true e2
  exact ⟨c, Conf.cmds_reach .refl e1, a1, a2, by rw [a2]; exact quiet_of_check (by decide +kernel)⟩

example : ∃ c, Conf.Reach (CPml.exec c120) (Conf.initPml : Conf Nat Nat) c ∧ c.hist = quietHist ∧ Linearizable c.hist := by
  obtain ⟨c, h1, h2, h3, h4⟩ := quiet_run (I := CPml.exec c120) (c0 := Conf.initPml) (n := ([3, 0, 10, 13, 2, 8, 6, 7].getD · 0)) (by decide +kernel)
  exact ⟨c, h1, h3, C46_pml_quiet_scans_partial c120_roomy c120_room h1 h2 h4⟩

example : ∃ c, Conf.Reach (CPsl.execS c200) (Conf.init : Conf Nat Nat) c ∧ c.hist = quietHist ∧ Linearizable c.hist := by
  obtain ⟨c, h1, h2, h3, h4⟩ := quiet_run (I := CPsl.execS c200) (c0 := Conf.init) (n := ([3, 2, 6, 7, 2, 8, 5, 6].getD · 0)) (by decide +kernel)
  exact ⟨c, h1, h3, C46_psl_quiet_scans_partial c200_roomy rfl h1 h2 h4⟩

example : ∃ c, Conf.Reach (COsl.execS c200) (Conf.init : Conf Nat Nat) c ∧ c.hist = quietHist ∧ Linearizable c.hist := by
  obtain ⟨c, h1, h2, h3, h4⟩ := quiet_run (I := COsl.execS c200) (c0 := Conf.init) (n := ([3, 11, 12, 0, 4, 11, 5, 8].getD · 0)) (by decide +kernel)
  exact ⟨c, h1, h3, C46_osl_quiet_scans_partial c200_roomy rfl h1 h2 h4⟩

example : ∃ c, Conf.Reach (COml.execS c120 (fun _ _ => 0)) (Conf.init : Conf Nat Nat) c ∧ c.hist = quietHist ∧ Linearizable c.hist := by
  obtain ⟨c, h1, h2, h3, h4⟩ := quiet_run (I := COml.execS c120 (fun _ _ => 0)) (c0 := Conf.init) (n := ([6, 22, 21, 0, 4, 11, 5, 8].getD · 0))
    (by decide +kernel)
  exact ⟨c, h1, h3, C46_oml_quiet_scans_partial c120_roomy rfl h1 h2 h4⟩

/-! With one writer at a time. -/

example : ∃ c, Conf.Reach (CPsl.execS c200) (Conf.init : Conf Nat Nat) c ∧ OneWriter c.hist ∧ QuietScans c.hist ∧ Linearizable c.hist := by
  have h : (Conf.cmds (CPsl.execS c200) 20 [.inv 0 (.write 1 1), .go 0 9, .res 0, .inv 2 (.write 2 2), .go 2 9, .res 2, .inv 0 (.scan none none),
      .inv 1 (.scan (some (2, true)) none), .inv 2 (.read 2), .go 0 2, .go 1 8, .go 0 5, .res 0, .go 2 6, .res 2, .res 1] Conf.init).map
      (fun c => decide (quietB c.hist = true ∧ oneWriterFrom none c.hist = true)) = some true := by decide +kernel
  obtain ⟨c, e1, e2⟩ := Option.map_eq_some_iff.1 h
  obtain ⟨a1, a2⟩ := of_decide_eq_true e2
  have hc := Conf.cmds_reach .refl e1
  exact ⟨c, hc, oneWriter_of_check a2, quiet_of_check a1, C46_psl_one_writer_quiet_scans c200_roomy rfl hc (oneWriter_of_check a2) (quiet_of_check a1)⟩

end BT
