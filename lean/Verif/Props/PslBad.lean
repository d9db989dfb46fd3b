import Verif.PslConc
import Verif.LinFacts
import Verif.Config

/-!
# What goes wrong in PSL under concurrency (C22, C26, C27, C28, C31)

Every theorem of this file exhibits an execution of the modelled code: a schedule, run by `Conf.trace`, that leads from
the empty tree to the claimed configuration.  The configuration `c200` has 8-byte keys and 200-byte payloads on the
default page of 1024 bytes, so that a leaf holds four records.
-/

namespace BT
open Spec

def c200 : Cfg Nat := { fixCfg true with payLen := 200 }

deriving instance DecidableEq for Op
deriving instance DecidableEq for Ev

section
variable {K V : Type} {I : CImpl K V}

theorem Conf.trace_reach {fuel : Nat} {xs : List (Sched K V)} {c : Conf K V} (h : Conf.trace I fuel xs = some c) :
    Conf.Reach I Conf.init c := Conf.cmds_reach .refl h

theorem Conf.cmds_append {fuel : Nat} : ∀ {xs ys : List (Sched K V)} {c : Conf K V},
    Conf.cmds I fuel (xs ++ ys) c = (Conf.cmds I fuel xs c).bind (Conf.cmds I fuel ys)
  | [], ys, c => rfl
  | x :: xs, ys, c => by
    show (match c.cmd I fuel x with | some c' => Conf.cmds I fuel (xs ++ ys) c' | none => none) =
      (match c.cmd I fuel x with | some c' => Conf.cmds I fuel xs c' | none => none).bind _
    cases c.cmd I fuel x with
    | none => rfl
    | some c' => exact Conf.cmds_append
end

/-- Is thread `t` in undefined behaviour? -/
def Conf.ubAt {K V : Type} (c : Conf K V) (t : Tid) : Bool := match c.thr t with | some .ub => true | _ => false
/-- The page on which thread `t` wants a SIX lock next. -/
def Conf.wantsSIX {K V : Type} (c : Conf K V) (t : Tid) : Option Ptr :=
  match c.thr t with | some (.act (.lockSIX p) _) => some p | _ => none
/-- Thread `t` is between two calls. -/
def Conf.idle {K V : Type} (c : Conf K V) (t : Tid) : Bool := (c.thr t).isNone

theorem Conf.bad_of_ubAt {K V : Type} {c : Conf K V} {t : Tid} (h : c.ubAt t = true) : c.Bad := by
  refine ⟨t, ?_⟩
  unfold Conf.ubAt at h
  split at h <;> simp_all

/-! ## The separator is read after the lock has been given up -/

/-- Four writes fill the leaf. -/
def fill : List (Sched Nat Nat) :=
  [0, 20, 40, 60].flatMap (fun k => [.inv 0 (.write k k), .go 0 9, .res 0])

/-- Thread 1 writes 10 and splits the leaf at 40; before it reads the separator, thread 2 writes 5 and 7 and splits the
left half at 10.  Thread 1 then takes 10 for its separator and installs a root that sends the keys from 10 on to the page
of the keys from 40 on.  Thread 3 reads 20. -/
def sepRace : List (Sched Nat Nat) :=
  fill ++ [.inv 1 (.write 10 10), .go 1 22, .inv 2 (.write 5 5), .go 2 9, .res 2, .inv 2 (.write 7 7), .go 2 22, .go 1 5, .res 1,
    .inv 3 (.read 20), .go 3 11, .res 3]

/-- What the callers observe in `sepRace`. -/
def sepHist : List (Ev Nat Nat) :=
  [.inv 0 (.write 0 0), .res 0 (.code .success), .inv 0 (.write 20 20), .res 0 (.code .success),
   .inv 0 (.write 40 40), .res 0 (.code .success), .inv 0 (.write 60 60), .res 0 (.code .success),
   .inv 1 (.write 10 10), .inv 2 (.write 5 5), .res 2 (.code .success), .inv 2 (.write 7 7), .res 1 (.code .success),
   .inv 3 (.read 20), .res 3 (.payload none)]

theorem sepRace_hist : (Conf.trace (CPsl.exec c200) 20 sepRace).map Conf.hist = some sepHist := by decide +kernel

theorem sepHist_loses : LosesWrite sepHist := by
  refine ⟨20, 20, 0, 3, none, [.inv 0 (.write 0 0), .res 0 (.code .success)], [],
    [.inv 0 (.write 40 40), .res 0 (.code .success), .inv 0 (.write 60 60), .res 0 (.code .success),
     .inv 1 (.write 10 10), .inv 2 (.write 5 5), .res 2 (.code .success), .inv 2 (.write 7 7), .res 1 (.code .success)], [], [],
    rfl, ?_, by simp, by simp, by simp⟩
  intro t op hm hc
  simp only [sepHist, List.mem_cons, List.not_mem_nil, or_false, Ev.inv.injEq, reduceCtorEq, false_or] at hm
  rcases hm with h | h | h | h | h | h | h | h <;> obtain ⟨-, rfl⟩ := h <;> simp_all [Changes]

/-- C26 is false for PSL: a completed write can be lost.  `Write(20)` returned, nobody else touched key 20, and a later `Read(20)`
finds nothing. -/
theorem C26_psl_write_lost : ∃ c, Conf.Reach (CPsl.exec c200) (Conf.init : Conf Nat Nat) c ∧ LosesWrite c.hist := by
  have h := sepRace_hist
  rw [Option.map_eq_some_iff] at h
  obtain ⟨c, h1, h2⟩ := h
  exact ⟨c, Conf.trace_reach h1, by rw [h2]; exact sepHist_loses⟩

/-- C22 is false for PSL: some executions are not linearizable. -/
theorem C22_psl_not_linearizable : ∃ c, Conf.Reach (CPsl.exec c200) (Conf.init : Conf Nat Nat) c ∧ ¬ Linearizable c.hist := by
  obtain ⟨c, h1, h2⟩ := C26_psl_write_lost
  exact ⟨c, h1, h2.not_linearizable⟩

/-- C27 is false for PSL: thread 2 of the same execution does not find a place for its separator.  It follows the wrong entry to a
leaf, takes the leaf for an inner page and uses a payload as a pointer. -/
theorem C27_psl_splitter_crashes : ∃ c, Conf.Reach (CPsl.exec c200) (Conf.init : Conf Nat Nat) c ∧ c.Bad := by
  have h : (Conf.trace (CPsl.exec c200) 20 (sepRace ++ [.go 2 11])).map (fun c => c.ubAt 2) = some true := by decide +kernel
  rw [Option.map_eq_some_iff] at h
  obtain ⟨c, h1, h2⟩ := h
  exact ⟨c, Conf.trace_reach h1, Conf.bad_of_ubAt h2⟩

/-! ## Two threads install a root -/

/-- Threads 1 and 2 split the root one after the other and both find that it is the page they have split; the second store to
`root_` overwrites the first. -/
def rootRace : List (Sched Nat Nat) :=
  fill ++ [.inv 1 (.write 10 10), .go 1 26, .inv 2 (.write 5 5), .go 2 9, .res 2, .inv 2 (.write 7 7), .go 2 27, .res 2, .go 1 1, .res 1]

/-- C27 is false for PSL: both splits are complete and nobody is active, the left page points to its right sibling 3, but the parent
level (the root alone) has no entry for page 3. -/
theorem C27_psl_separator_lost : ∃ c, Conf.Reach (CPsl.exec c200) (Conf.init : Conf Nat Nat) c ∧ (∀ t < 3, c.idle t = true) ∧
    ∃ n n0, c.mem.heap c.mem.root = some n ∧ n.next = none ∧ n.isInner = true ∧ n.getChild 0 = .ok 0 ∧
      c.mem.heap 0 = some n0 ∧ n0.next = some 3 ∧ ∀ r ∈ n.recs, r.pay ≠ .ptr 3 := by
  have h : (Conf.trace (CPsl.exec c200) 20 rootRace).map (fun c => c.idle 0 && c.idle 1 && c.idle 2 &&
      match c.mem.heap c.mem.root, c.mem.heap 0 with
      | some n, some n0 => decide (n.next = none ∧ n.isInner = true ∧ n.getChild 0 = .ok 0 ∧ n0.next = some 3 ∧
          ∀ r ∈ n.recs, r.pay ≠ .ptr 3)
      | _, _ => false) = some true := by decide +kernel
  rw [Option.map_eq_some_iff] at h
  obtain ⟨c, h1, h2⟩ := h
  simp only [Bool.and_eq_true] at h2
  obtain ⟨⟨⟨i0, i1⟩, i2⟩, h2⟩ := h2
  split at h2
  · next n n0 e e0 =>
    have h2 := of_decide_eq_true h2
    refine ⟨c, Conf.trace_reach h1, ?_, n, n0, e, h2.1, h2.2.1, h2.2.2.1, e0, h2.2.2.2.1, h2.2.2.2.2⟩
    intro t ht
    match t, ht with
    | 0, _ => exact i0
    | 1, _ => exact i1
    | 2, _ => exact i2
  · cases h2

/-! ## A merge waits for itself -/

/-- Thread 1 splits the leaf and pauses before it installs the new root.  Thread 2 deletes three keys of the left half and wants to
merge; as the parent does not know the right half yet, it tries again, and asks a second time for the lock of the right half. -/
def selfBlock : List (Sched Nat Nat) :=
  fill ++ [.inv 1 (.write 10 10), .go 1 22, .inv 2 (.delete 10), .go 2 8, .res 2, .inv 2 (.delete 0), .go 2 8, .res 2,
    .inv 2 (.delete 20), .go 2 19]

/-- Thread `t` asks for the SIX lock on `p` while it holds it. -/
def Conf.SelfBlocked {K V : Type} (c : Conf K V) (t : Tid) (p : Ptr) : Prop :=
  c.wantsSIX t = some p ∧ (c.mem.lk p).six = some t ∧ (c.mem.lk p).x = none ∧ (c.mem.heap p).isSome = true

instance {K V : Type} (c : Conf K V) (t : Tid) (p : Ptr) : Decidable (c.SelfBlocked t p) := by
  unfold Conf.SelfBlocked; infer_instance

theorem wantsSIX_eq {K V : Type} {c : Conf K V} {t : Tid} {p : Ptr} (h : c.wantsSIX t = some p) :
    ∃ k, c.thr t = some (.act (.lockSIX p) k) := by
  unfold Conf.wantsSIX at h
  split at h
  · next k e => cases h; exact ⟨k, e⟩
  · cases h

/-- Nobody else can take the lock away, so the thread waits for ever. -/
theorem Conf.SelfBlocked.step {K V : Type} {I : CImpl K V} {c c' : Conf K V} {t : Tid} {p : Ptr} (h : c.SelfBlocked t p)
    (hs : Conf.Step I c c') : c'.SelfBlocked t p := by
  obtain ⟨h1, h2, h3, h4⟩ := h
  obtain ⟨k, e⟩ := wantsSIX_eq h1
  cases hs with
  | inv u op fuel hu =>
    refine ⟨?_, h2, h3, h4⟩
    have : t ≠ u := by rintro rfl; rw [e] at hu; cases hu
    simpa only [Conf.wantsSIX, Spec.upd, if_neg this] using h1
  | @act u β a k' b m hu hrun =>
    have hne : t ≠ u := by
      rintro rfl
      rw [e] at hu
      cases hu
      simp only [Act.run] at hrun
      split at hrun
      · cases hrun
      · simp [h2] at hrun
    have hl : (m.lk p).six = some t ∧ (m.lk p).x = none ∧ (m.heap p).isSome = true := by
      cases a <;> simp only [Act.run] at hrun <;> (try split at hrun) <;> (try split at hrun) <;> (try split at hrun) <;>
        first
        | (cases hrun; done)
        | (cases hrun; exact ⟨h2, h3, h4⟩)
        | (cases hrun; simp only [Mem.setLk, Mem.setHeap]; split <;> simp_all)
    refine ⟨?_, hl⟩
    simpa only [Conf.wantsSIX, Spec.upd, if_neg hne] using h1
  | @crash u β a k' hu hrun =>
    refine ⟨?_, h2, h3, h4⟩
    have : t ≠ u := by
      rintro rfl
      rw [e] at hu
      cases hu
      simp only [Act.run] at hrun
      split at hrun
      · next e' => rw [e'] at h4; cases h4
      · split at hrun <;> cases hrun
    simpa only [Conf.wantsSIX, Spec.upd, if_neg this] using h1
  | @res u out hu =>
    refine ⟨?_, h2, h3, h4⟩
    have : t ≠ u := by rintro rfl; rw [e] at hu; cases hu
    simpa only [Conf.wantsSIX, Spec.upd, if_neg this] using h1

theorem Conf.SelfBlocked.forever {K V : Type} {I : CImpl K V} {c c' : Conf K V} {t : Tid} {p : Ptr} (h : c.SelfBlocked t p)
    (hs : Conf.Reach I c c') : c'.SelfBlocked t p := by
  induction hs with
  | refl => exact h
  | step _ hs ih => exact ih.step hs

theorem Conf.SelfBlocked.waiting {K V : Type} {c : Conf K V} {t : Tid} {p : Ptr} (h : c.SelfBlocked t p) : c.Waiting t := by
  obtain ⟨h1, h2, h3, h4⟩ := h
  obtain ⟨k, e⟩ := wantsSIX_eq h1
  refine ⟨_, _, k, e, ?_⟩
  simp only [Act.run]
  cases hh : c.mem.heap p with
  | none => rw [hh] at h4; cases h4
  | some n => simp [h2]

/-- C28 is false for PSL: a merging thread can wait for a lock that it holds itself; whatever the other threads do, it waits for
ever. -/
theorem C28_psl_merge_blocks_itself : ∃ c t p, Conf.Reach (CPsl.exec c200) (Conf.init : Conf Nat Nat) c ∧
    (c.mem.lk p).six = some t ∧ c.wantsSIX t = some p ∧ ∀ c', Conf.Reach (CPsl.exec c200) c c' → c'.Waiting t := by
  have h : (Conf.trace (CPsl.exec c200) 20 selfBlock).map (fun c => decide (c.SelfBlocked 2 1)) = some true := by decide +kernel
  rw [Option.map_eq_some_iff] at h
  obtain ⟨c, h1, h2⟩ := h
  have h2 := of_decide_eq_true h2
  exact ⟨c, 2, 1, Conf.trace_reach h1, h2.2.1, h2.1, fun c' hc => (h2.forever hc).waiting⟩

/-! ## A page is retired before it is removed -/

/-- Deleting 0 and 20 merges the two leaves; the root has one child left and `TryShrinkTree` hands it to the garbage collector. -/
def shrinkRace : List (Sched Nat Nat) :=
  fill ++ [.inv 0 (.write 80 80), .go 0 27, .res 0, .inv 1 (.delete 0), .go 1 13, .res 1, .inv 1 (.delete 20), .go 1 34]

/-- C31 is false for PSL: the page 2 has been handed to the garbage collector, then thread 2, which was not running, starts a call
and locks the page (`root_` still points to it). -/
theorem C31_psl_retired_page_reached : ∃ c c' t p, Conf.Reach (CPsl.exec c200) (Conf.init : Conf Nat Nat) c ∧
    p ∈ c.mem.gc ∧ c.idle t = true ∧ Conf.Reach (CPsl.exec c200) c c' ∧ (c'.mem.lk p).holds t = true := by
  have h : ((Conf.trace (CPsl.exec c200) 20 shrinkRace).bind (fun c =>
      (Conf.cmds (CPsl.exec c200) 20 [.inv 2 (.read 40), .go 2 2] c).map (fun c' =>
        decide (2 ∈ c.mem.gc) && c.idle 2 && (c'.mem.lk 2).holds 2))) = some true := by decide +kernel
  rw [Option.bind_eq_some_iff] at h
  obtain ⟨c, h1, h2⟩ := h
  rw [Option.map_eq_some_iff] at h2
  obtain ⟨c', h2, h3⟩ := h2
  simp only [Bool.and_eq_true, decide_eq_true_eq] at h3
  exact ⟨c, c', 2, 2, Conf.trace_reach h1, h3.1.1, h3.1.2, Conf.cmds_reach .refl h2, h3.2⟩

end BT
