import Verif.Seqlock

/-!
# C21: optimistic reads return a consistent snapshot
-/

namespace BT

/-- **C21.** In every execution of any number of readers and writers of a page, if an optimistic reader starts code `p` at instant
`i` (`GetVersion`) and ends it at instant `j` with result `a` and an unchanged version (`HasSameVersion`), then there was one
state of the page, and the page was in that state at *every* instant from `i` to `j`, such that `a` is what `p` computes
from that state alone.  What a word is, which words the reader looks at and whether its choice depends on words read before is
arbitrary. -/
theorem C21_validated_read_is_snapshot {ι α : Type} {W : ι → Type} [DecidableEq ι] {σ : Nat → PageSt ι W α}
    {act : Nat → PageAct ι W α} {N i j : Nat} {t : Tid} {p : Rd ι W α} {a : α} (hrun : PageRun σ act N) (hij : i < j) (hj : j < N)
    (hbegin : act i = .begin t p) (hend : act j = .finish t a true)
    (hsame : ∀ m, i < m → m < j → (act m).edge ≠ some t) :
    ∃ page : (i : ι) → W i, (∀ m, i ≤ m → m ≤ j → (σ m).words = page) ∧ p.run page = a :=
  ⟨(σ i).words, fun m h1 h2 => (hrun.snapshot hij hj hbegin hend hsame m h1 h2).1,
    (hrun.snapshot hij hj hbegin hend hsame i (Nat.le_refl _) (Nat.le_of_lt hij)).2⟩

/-- **C21 for `Read` of OSL.** A validated attempt of node `Read` that started on page `n` gives what the page as a whole says: the right
sibling if the page is not in charge of the key, and otherwise the payload of the key in `n`. -/
theorem C21_osl_read {K V : Type} [LinearOrder K] {σ : Nat → PageSt Fld (Fld.Ty K V) (Res (Lead (Option V)))}
    {act : Nat → PageAct Fld (Fld.Ty K V) (Res (Lead (Option V)))} {N i j : Nat} {t : Tid} {k : K} {n : Node K V}
    {a : Res (Lead (Option V))} (hrun : PageRun σ act N) (hij : i < j) (hj : j < N) (hpage : (σ i).words = n.words)
    (hbegin : act i = .begin t (nodeReadF k)) (hend : act j = .finish t a true)
    (hsame : ∀ m, i < m → m < j → (act m).edge ≠ some t) :
    a = if n.removed = false ∧ n.compHighKey k = true then n.read k >>= fun v => return .here v else return .right n.next := by
  obtain ⟨page, h1, h2⟩ := C21_validated_read_is_snapshot hrun hij hj hbegin hend hsame
  rw [← h2, ← h1 i (Nat.le_refl _) (Nat.le_of_lt hij), hpage, nodeReadF_run]
  rfl

/-- **C21 for `SearchChild` of OSL.** -/
theorem C21_osl_search_child {K V : Type} [LinearOrder K] {σ : Nat → PageSt Fld (Fld.Ty K V) (Res (Lead Ptr))}
    {act : Nat → PageAct Fld (Fld.Ty K V) (Res (Lead Ptr))} {N i j : Nat} {t : Tid} {k : K} {n : Node K V}
    {a : Res (Lead Ptr)} (hrun : PageRun σ act N) (hij : i < j) (hj : j < N) (hpage : (σ i).words = n.words)
    (hbegin : act i = .begin t (searchChildF k)) (hend : act j = .finish t a true)
    (hsame : ∀ m, i < m → m < j → (act m).edge ≠ some t) :
    a = if n.removed = false ∧ n.compHighKey k = true then
          (do let (_, pos) ← n.searchRecord k; n.getChild pos) >>= fun c => return .here c
        else return .right n.next := by
  obtain ⟨page, h1, h2⟩ := C21_validated_read_is_snapshot hrun hij hj hbegin hend hsame
  rw [← h2, ← h1 i (Nat.le_refl _) (Nat.le_of_lt hij), hpage, searchChildF_run]
  rfl

/-! ## An execution

A reader of a two-word page is overtaken by a writer.  Its first attempt has seen the first word before and the second word
after the writer: the pair (0, 5) that the page never contained.  Validation fails; the second attempt succeeds. -/

/-- read both words -/
def pairF : Rd Bool (fun _ => Nat) (Nat × Nat) := .look false fun a => .look true fun b => .ret (a, b)

def tornActs : List (PageAct Bool (fun _ => Nat) (Nat × Nat)) :=
  [.begin 1 pairF, .look 1, .lockX 2, .write 2 false 5, .write 2 true 5, .look 1, .finish 1 (0, 5) false, .unlockX 2,
   .begin 1 pairF, .lockSIX 2, .look 1, .look 1, .finish 1 (5, 5) true]

/-- The effect of the actions in `tornActs`. -/
def PageSt.after {ι α : Type} {W : ι → Type} [DecidableEq ι] (s : PageSt ι W α) : PageAct ι W α → PageSt ι W α
  | .lockX t => { s with lk := { s.lk with x := some t } }
  | .lockSIX t => { s with lk := { s.lk with six := some t } }
  | .unlockX _ => { s with lk := { s.lk with x := none, ver := s.lk.ver + 1 } }
  | .write _ i w => { s with words := Function.update s.words i w }
  | .begin t p => { s with rd := Function.update s.rd t (some (s.lk.ver, p)) }
  | .finish t _ _ => { s with rd := Function.update s.rd t none }
  | .look t => match s.rd t with
    | some (v, .look i k) => { s with rd := Function.update s.rd t (some (v, k (s.words i))) }
    | _ => s
  | _ => s

def tornAct (n : Nat) : PageAct Bool (fun _ => Nat) (Nat × Nat) := tornActs.getD n (.look 0)

def tornRun : Nat → PageSt Bool (fun _ => Nat) (Nat × Nat)
  | 0 => ⟨fun _ => 0, {}, fun _ => none⟩
  | n + 1 => (tornRun n).after (tornAct n)

theorem tornRun_ok : PageRun tornRun tornAct 13 := by
  intro n hn
  match n, hn with
  | 0, _ => exact .begin 1 pairF rfl rfl
  | 1, _ => exact PageStep.look (s := tornRun 1) 1 (v := 0) (i := false) (k := fun a => .look true fun b => .ret (a, b)) rfl
  | 2, _ => exact .lockX 2 rfl rfl rfl
  | 3, _ => exact .write 2 false 5 rfl
  | 4, _ => exact .write 2 true 5 rfl
  | 5, _ => exact PageStep.look (s := tornRun 5) 1 (v := 0) (i := true) (k := fun b => .ret (0, b)) rfl
  | 6, _ => exact PageStep.finish (s := tornRun 6) 1 (v := 0) (a := (0, 5)) rfl
  | 7, _ => exact .unlockX 2 rfl
  | 8, _ => exact .begin 1 pairF rfl rfl
  | 9, _ => exact .lockSIX 2 rfl rfl
  | 10, _ => exact PageStep.look (s := tornRun 10) 1 (v := 1) (i := false) (k := fun a => .look true fun b => .ret (a, b)) rfl
  | 11, _ => exact PageStep.look (s := tornRun 11) 1 (v := 1) (i := true) (k := fun b => .ret (5, b)) rfl
  | 12, _ => exact PageStep.finish (s := tornRun 12) 1 (v := 1) (a := (5, 5)) rfl

/-- The theorem applies to the second attempt… -/
example : ∃ page : Bool → Nat, (∀ m, 8 ≤ m → m ≤ 12 → (tornRun m).words = page) ∧ pairF.run page = (5, 5) :=
  C21_validated_read_is_snapshot (t := 1) tornRun_ok (by decide) (by decide) rfl rfl (by
    intro m h1 h2
    match m, h1, h2 with
    | 9, _, _ => decide
    | 10, _, _ => decide
    | 11, _, _ => decide)

/-- …and its conclusion is false of the first attempt, which was not validated: the page was never in a state that gives (0, 5). -/
example : tornAct 0 = .begin 1 pairF ∧ tornAct 6 = .finish 1 (0, 5) false ∧
    ∀ m, m ≤ 6 → pairF.run (tornRun m).words ≠ (0, 5) := by
  refine ⟨rfl, rfl, fun m hm => ?_⟩
  match m, hm with
  | 0, _ | 1, _ | 2, _ | 3, _ | 4, _ | 5, _ | 6, _ => decide

end BT
