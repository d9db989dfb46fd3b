import Verif.Node
import Verif.SpecConc

/-!
# Several threads on one tree

The code of a thread is a `Prog`: a tree of atomic actions on the shared memory.  Between two actions of a thread
any other threads may act.  The actions are the calls of the lock classes, the accesses to pages, `root_` and
the calls of the garbage collector.

Locks are those of `thirdparty` library `dbgroup::lock` (`common.hpp:30-33`): shared (S), shared with intent
exclusive (SIX) and exclusive (X).  S is compatible with S and SIX, SIX with S only, X with nothing.  `UpgradeToX`
turns an own SIX into X once no S holder is left.  The optimistic lock counts a version that changes whenever an
X lock is given up.

Simplifications, for all definitions of this file:
* sequentially consistent memory;
* a page is read or written by one action.  Pages written under an X lock and read under some lock admit no other
  outcome; reading a page without any lock is allowed by `peek` only.  Optimistic readers in the code read field by
  field; here they read a page with a few `peek`s (header, then records), each of which sees the page between two writes;
* garbage collection never reuses a page that some running operation may still use, so pages are not recycled
  (`retire` records the page only).
-/

namespace BT

/-- Threads. -/
abbrev Tid := Nat

/-- State of one lock. -/
structure Lk where
  s : List Tid := []
  six : Option Tid := none
  x : Option Tid := none
  ver : Nat := 0
  deriving DecidableEq, Repr

/-- Shared memory.  `raced` is not part of the program: it records that one of the situations announced by
`Act.note` or `Act.setRoot` has occurred. -/
structure Mem (K V : Type) where
  heap : Ptr → Option (Node K V)
  lk : Ptr → Lk
  fresh : Ptr
  root : Ptr
  gc : List Ptr
  raced : Bool

namespace Mem
variable {K V : Type}
def setHeap (m : Mem K V) (p : Ptr) (n : Node K V) : Mem K V :=
  { m with heap := fun q => if q = p then some n else m.heap q }
def setLk (m : Mem K V) (p : Ptr) (l : Lk) : Mem K V := { m with lk := fun q => if q = p then l else m.lk q }
end Mem

/-- Atomic actions and their result types. -/
inductive Act (K V : Type) : Type → Type where
  /-- `root_.load` -/
  | getRoot : Act K V Ptr
  /-- `root_.store(p)`; `exp` is what the thread believes `root_` to be, and `raced` records that it is wrong -/
  | setRoot (exp p : Ptr) : Act K V Unit
  /-- `node->IsInner()`, a bit that never changes -/
  | isInner (p : Ptr) : Act K V Bool
  /-- read a page under a lock -/
  | load (p : Ptr) : Act K V (Node K V)
  /-- read a page without a lock -/
  | peek (p : Ptr) : Act K V (Node K V)
  /-- write a page under an X lock -/
  | store (p : Ptr) (n : Node K V) : Act K V Unit
  /-- write a page under an SIX lock, which optimistic readers do not notice -/
  | poke (p : Ptr) (n : Node K V) : Act K V Unit
  /-- `new (GetNodePage()) Node_t{...}` -/
  | alloc (n : Node K V) : Act K V Ptr
  /-- `gc_.AddGarbage<Page>(p)` -/
  | retire (p : Ptr) : Act K V Unit
  | lockS (p : Ptr) : Act K V Unit
  | unlockS (p : Ptr) : Act K V Unit
  | lockSIX (p : Ptr) : Act K V Unit
  | unlockSIX (p : Ptr) : Act K V Unit
  | lockX (p : Ptr) : Act K V Unit
  | unlockX (p : Ptr) : Act K V Unit
  /-- `UnlockX` of the optimistic lock where its result, the new version, is used -/
  | unlockXVer (p : Ptr) : Act K V Nat
  | upgradeX (p : Ptr) : Act K V Unit
  | downgradeSIX (p : Ptr) : Act K V Unit
  /-- `GetVersion` (waits for the end of an X lock) -/
  | getVer (p : Ptr) : Act K V Nat
  /-- `HasSameVersion` -/
  | same (p : Ptr) (ver : Nat) : Act K V Bool
  | tryLockS (p : Ptr) (ver : Nat) : Act K V Bool
  | tryLockSIX (p : Ptr) (ver : Nat) : Act K V Bool
  | tryLockX (p : Ptr) (ver : Nat) : Act K V Bool
  /-- no effect in the code; records in `raced` that the thread is in a situation worth excluding -/
  | note (b : Bool) : Act K V Unit
  /-- `Release<Page>(p)`: the memory of the page and of its lock is given back at once.  The machine only records it in
  `gc`; that no page is used after its release is part of the theorems about PML.  `raced` records that another thread
  holds the lock of the page -/
  | free (p : Ptr) : Act K V Unit

/-- Outcome of an action: done, the thread has to wait, or undefined behaviour. -/
inductive Next (α : Type) where
  | run (a : α)
  | wait
  | ub

/-- Holding some lock on `p` (at least S). -/
def Lk.holds (l : Lk) (t : Tid) : Bool := decide (t ∈ l.s) || decide (l.six = some t) || decide (l.x = some t)

/-- Somebody else than `t` holds the lock. -/
def Lk.busy (l : Lk) (t : Tid) : Bool :=
  l.s.any (fun u => decide (u ≠ t)) || decide (l.six ≠ none ∧ l.six ≠ some t) || decide (l.x ≠ none ∧ l.x ≠ some t)

/-- Effect of an action of thread `t`.  Using a page that does not exist, giving up a lock one does not hold,
reading a page without a lock and writing it without X are undefined (`peek` and `poke` excepted). -/
def Act.run {K V : Type} (t : Tid) : {β : Type} → Act K V β → Mem K V → Next (β × Mem K V)
  | _, .getRoot, m => .run (m.root, m)
  | _, .setRoot e p, m => .run ((), { m with root := p, raced := m.raced || decide (m.root ≠ e) })
  | _, .isInner p, m =>
    match m.heap p with
    | none => .ub
    | some n => .run (n.isInner, m)
  | _, .load p, m =>
    match m.heap p with
    | none => .ub
    | some n => if (m.lk p).holds t then .run (n, m) else .ub
  | _, .peek p, m =>
    match m.heap p with
    | none => .ub
    | some n => .run (n, m)
  | _, .store p n, m =>
    match m.heap p with
    | none => .ub
    | some _ => if (m.lk p).x = some t then .run ((), m.setHeap p n) else .ub
  | _, .poke p n, m =>
    match m.heap p with
    | none => .ub
    | some _ => if (m.lk p).six = some t then .run ((), m.setHeap p n) else .ub
  | _, .alloc n, m => .run (m.fresh, { m.setHeap m.fresh n with fresh := m.fresh + 1 })
  | _, .retire p, m => .run ((), { m with gc := p :: m.gc })
  | _, .lockS p, m =>
    match m.heap p with
    | none => .ub
    | some _ => if (m.lk p).x = none then .run ((), m.setLk p { m.lk p with s := t :: (m.lk p).s }) else .wait
  | _, .unlockS p, m =>
    if t ∈ (m.lk p).s then .run ((), m.setLk p { m.lk p with s := (m.lk p).s.erase t }) else .ub
  | _, .lockSIX p, m =>
    match m.heap p with
    | none => .ub
    | some _ =>
      if (m.lk p).x = none ∧ (m.lk p).six = none then .run ((), m.setLk p { m.lk p with six := some t }) else .wait
  | _, .unlockSIX p, m =>
    if (m.lk p).six = some t then .run ((), m.setLk p { m.lk p with six := none }) else .ub
  | _, .lockX p, m =>
    match m.heap p with
    | none => .ub
    | some _ =>
      if (m.lk p).x = none ∧ (m.lk p).six = none ∧ (m.lk p).s = [] then .run ((), m.setLk p { m.lk p with x := some t })
      else .wait
  | _, .unlockX p, m =>
    if (m.lk p).x = some t then .run ((), m.setLk p { m.lk p with x := none, ver := (m.lk p).ver + 1 }) else .ub
  | _, .unlockXVer p, m =>
    if (m.lk p).x = some t then .run ((m.lk p).ver + 1, m.setLk p { m.lk p with x := none, ver := (m.lk p).ver + 1 }) else .ub
  | _, .upgradeX p, m =>
    if (m.lk p).six = some t then
      if (m.lk p).s = [] then .run ((), m.setLk p { m.lk p with six := none, x := some t }) else .wait
    else .ub
  | _, .downgradeSIX p, m =>
    if (m.lk p).x = some t then
      .run ((), m.setLk p { m.lk p with x := none, six := some t, ver := (m.lk p).ver + 1 })
    else .ub
  | _, .getVer p, m =>
    match m.heap p with
    | none => .ub
    | some _ => if (m.lk p).x = none then .run ((m.lk p).ver, m) else .wait
  | _, .same p v, m =>
    match m.heap p with
    | none => .ub
    | some _ => .run (decide ((m.lk p).x = none ∧ (m.lk p).ver = v), m)
  | _, .tryLockS p v, m =>
    match m.heap p with
    | none => .ub
    | some _ =>
      if (m.lk p).x = none ∧ (m.lk p).ver = v then .run (true, m.setLk p { m.lk p with s := t :: (m.lk p).s })
      else .run (false, m)
  | _, .tryLockSIX p v, m =>
    match m.heap p with
    | none => .ub
    | some _ =>
      if (m.lk p).x = none ∧ (m.lk p).ver = v then
        if (m.lk p).six = none then .run (true, m.setLk p { m.lk p with six := some t }) else .wait
      else .run (false, m)
  | _, .tryLockX p v, m =>
    match m.heap p with
    | none => .ub
    | some _ =>
      if (m.lk p).x = none ∧ (m.lk p).ver = v then
        if (m.lk p).six = none ∧ (m.lk p).s = [] then .run (true, m.setLk p { m.lk p with x := some t }) else .wait
      else .run (false, m)
  | _, .note b, m => .run ((), { m with raced := m.raced || b })
  | _, .free p, m =>
    match m.heap p with
    | none => .ub
    | some _ => .run ((), { m with gc := p :: m.gc, raced := m.raced || (m.lk p).busy t })

/-- Code of a thread.  `stuck`: a loop has used up its fuel (the thread stays there for ever). -/
inductive Prog (K V : Type) (α : Type) : Type 1 where
  | ret (a : α)
  | act {β : Type} (a : Act K V β) (k : β → Prog K V α)
  | ub
  | stuck

namespace Prog
variable {K V α β : Type}

def bind : Prog K V α → (α → Prog K V β) → Prog K V β
  | ret a, f => f a
  | act a k, f => act a (fun b => bind (k b) f)
  | ub, _ => ub
  | stuck, _ => stuck

instance : Monad (Prog K V) where
  pure := ret
  bind := bind

/-- one action -/
def do_ (a : Act K V α) : Prog K V α := act a ret

/-! The actions as code. -/
def getRoot : Prog K V Ptr := do_ .getRoot
def setRoot (e p : Ptr) : Prog K V Unit := do_ (.setRoot e p)
def isInner (p : Ptr) : Prog K V Bool := do_ (.isInner p)
def load (p : Ptr) : Prog K V (Node K V) := do_ (.load p)
def peek (p : Ptr) : Prog K V (Node K V) := do_ (.peek p)
def store (p : Ptr) (n : Node K V) : Prog K V Unit := do_ (.store p n)
def poke (p : Ptr) (n : Node K V) : Prog K V Unit := do_ (.poke p n)
def alloc (n : Node K V) : Prog K V Ptr := do_ (.alloc n)
def retire (p : Ptr) : Prog K V Unit := do_ (.retire p)
def lockS (p : Ptr) : Prog K V Unit := do_ (.lockS p)
def unlockS (p : Ptr) : Prog K V Unit := do_ (.unlockS p)
def lockSIX (p : Ptr) : Prog K V Unit := do_ (.lockSIX p)
def unlockSIX (p : Ptr) : Prog K V Unit := do_ (.unlockSIX p)
def lockX (p : Ptr) : Prog K V Unit := do_ (.lockX p)
def unlockX (p : Ptr) : Prog K V Unit := do_ (.unlockX p)
def unlockXVer (p : Ptr) : Prog K V Nat := do_ (.unlockXVer p)
def upgradeX (p : Ptr) : Prog K V Unit := do_ (.upgradeX p)
def downgradeSIX (p : Ptr) : Prog K V Unit := do_ (.downgradeSIX p)
def getVer (p : Ptr) : Prog K V Nat := do_ (.getVer p)
def same (p : Ptr) (ver : Nat) : Prog K V Bool := do_ (.same p ver)
def tryLockS (p : Ptr) (ver : Nat) : Prog K V Bool := do_ (.tryLockS p ver)
def tryLockSIX (p : Ptr) (ver : Nat) : Prog K V Bool := do_ (.tryLockSIX p ver)
def tryLockX (p : Ptr) (ver : Nat) : Prog K V Bool := do_ (.tryLockX p ver)
def note (b : Bool) : Prog K V Unit := do_ (.note b)
def free (p : Ptr) : Prog K V Unit := do_ (.free p)

/-- a computation on a page that was read before -/
def lift : Res α → Prog K V α
  | .ok a => ret a
  | .ub => ub
  | .fuel => stuck

@[simp] theorem pure_eq (a : α) : (pure a : Prog K V α) = ret a := rfl
@[simp] theorem ret_bind (a : α) (f : α → Prog K V β) : (ret a >>= f) = f a := rfl
@[simp] theorem ub_bind (f : α → Prog K V β) : ((ub : Prog K V α) >>= f) = ub := rfl
@[simp] theorem stuck_bind (f : α → Prog K V β) : ((stuck : Prog K V α) >>= f) = stuck := rfl
@[simp] theorem act_bind {γ : Type} (a : Act K V γ) (k : γ → Prog K V α) (f : α → Prog K V β) :
    (act a k >>= f) = act a (fun b => k b >>= f) := rfl
@[simp] theorem do_bind (a : Act K V α) (f : α → Prog K V β) : (do_ a >>= f) = act a f := rfl
@[simp] theorem lift_ok (a : α) : (lift (.ok a) : Prog K V α) = ret a := rfl

theorem bind_assoc {γ : Type} (p : Prog K V α) (f : α → Prog K V β) (g : β → Prog K V γ) :
    (p >>= f) >>= g = p >>= fun a => f a >>= g := by
  show bind (bind p f) g = bind p (fun a => bind (f a) g)
  induction p with
  | ret a => rfl
  | act a k ih => simp only [bind, ih]
  | ub => rfl
  | stuck => rfl
end Prog

/-- State of the whole system.  `thr t = none`: the thread is between two calls. -/
structure Conf (K V : Type) where
  mem : Mem K V
  thr : Tid → Option (Prog K V (Out K V))
  hist : List (Ev K V)

/-- An implementation: the code of every call, for a given bound on its loops. -/
abbrev CImpl (K V : Type) := Nat → Op K V → Prog K V (Out K V)

variable {K V : Type}

/-- One step of one thread: it calls an operation, acts, runs into undefined behaviour, or returns. -/
inductive Conf.Step (I : CImpl K V) : Conf K V → Conf K V → Prop
  | inv {c : Conf K V} (t op fuel) : c.thr t = none →
      Conf.Step I c { c with thr := Spec.upd c.thr t (some (I fuel op)), hist := c.hist ++ [.inv t op] }
  | act {c : Conf K V} {t : Tid} {β : Type} {a : Act K V β} {k : β → Prog K V (Out K V)} {b m} :
      c.thr t = some (.act a k) → a.run t c.mem = .run (b, m) →
      Conf.Step I c { c with mem := m, thr := Spec.upd c.thr t (some (k b)) }
  | crash {c : Conf K V} {t : Tid} {β : Type} {a : Act K V β} {k : β → Prog K V (Out K V)} :
      c.thr t = some (.act a k) → a.run t c.mem = .ub →
      Conf.Step I c { c with thr := Spec.upd c.thr t (some .ub) }
  | res {c : Conf K V} {t : Tid} {out : Out K V} : c.thr t = some (.ret out) →
      Conf.Step I c { c with thr := Spec.upd c.thr t none, hist := c.hist ++ [.res t out] }

/-- The configurations that threads can produce from `c0`. -/
inductive Conf.Reach (I : CImpl K V) (c0 : Conf K V) : Conf K V → Prop
  | refl : Conf.Reach I c0 c0
  | step {c c'} : Conf.Reach I c0 c → Conf.Step I c c' → Conf.Reach I c0 c'

/-- Some thread has run into undefined behaviour (a data race, an access outside the page, …). -/
def Conf.Bad (c : Conf K V) : Prop := ∃ t, c.thr t = some .ub

/-- A tree that earlier calls have left in the memory `s`, nobody active. -/
def Conf.start (s : St K V) : Conf K V where
  mem := { heap := s.heap, lk := fun _ => {}, fresh := s.fresh, root := s.root, gc := [], raced := false }
  thr := fun _ => none
  hist := []

/-- The constructor of the tree: an empty leaf as root, nobody active. -/
def Conf.init : Conf K V where
  mem := { heap := fun p => if p = 0 then some Node.emptyLeaf else none, lk := fun _ => {}, fresh := 1, root := 0,
           gc := [], raced := false }
  thr := fun _ => none
  hist := []

/-- Thread `t` wants a lock it cannot get at the moment. -/
def Conf.Waiting (c : Conf K V) (t : Tid) : Prop :=
  ∃ (β : Type) (a : Act K V β) (k : β → Prog K V (Out K V)), c.thr t = some (.act a k) ∧ a.run t c.mem = .wait

/-! ## Running a given schedule -/

/-- Scheduler commands: start a call, let a thread act `n` times, let it return. -/
inductive Sched (K V : Type) where
  | inv (t : Tid) (op : Op K V)
  | go (t : Tid) (n : Nat)
  | res (t : Tid)

/-- One action of thread `t`; `none` if it cannot act. -/
def Conf.act1 (c : Conf K V) (t : Tid) : Option (Conf K V) :=
  match c.thr t with
  | some (.act a k) =>
    match a.run t c.mem with
    | .run (b, m) => some { c with mem := m, thr := Spec.upd c.thr t (some (k b)) }
    | .ub => some { c with thr := Spec.upd c.thr t (some .ub) }
    | .wait => none
  | _ => none

def Conf.acts (c : Conf K V) (t : Tid) : Nat → Option (Conf K V)
  | 0 => some c
  | n + 1 => match c.act1 t with
    | some c' => c'.acts t n
    | none => none

def Conf.cmd (I : CImpl K V) (fuel : Nat) (c : Conf K V) : Sched K V → Option (Conf K V)
  | .inv t op => match c.thr t with
    | none => some { c with thr := Spec.upd c.thr t (some (I fuel op)), hist := c.hist ++ [.inv t op] }
    | some _ => none
  | .go t n => c.acts t n
  | .res t => match c.thr t with
    | some (.ret out) => some { c with thr := Spec.upd c.thr t none, hist := c.hist ++ [.res t out] }
    | _ => none

def Conf.cmds (I : CImpl K V) (fuel : Nat) : List (Sched K V) → Conf K V → Option (Conf K V)
  | [], c => some c
  | x :: xs, c => match c.cmd I fuel x with
    | some c' => Conf.cmds I fuel xs c'
    | none => none

variable {I : CImpl K V} {c0 : Conf K V}

theorem Conf.act1_step {c c' : Conf K V} {t : Tid} (h : c.act1 t = some c') : Conf.Step I c c' := by
  unfold Conf.act1 at h
  split at h
  · next a k e =>
    split at h
    · next b m e' => cases h; exact .act e e'
    · next e' => cases h; exact .crash e e'
    · cases h
  · cases h

theorem Conf.acts_reach {t : Tid} : ∀ {n : Nat} {c c' : Conf K V}, Conf.Reach I c0 c → c.acts t n = some c' →
    Conf.Reach I c0 c'
  | 0, c, c', hr, h => by cases h; exact hr
  | n + 1, c, c', hr, h => by
    unfold Conf.acts at h
    split at h
    · next c1 e => exact Conf.acts_reach (hr.step (Conf.act1_step e)) h
    · cases h

theorem Conf.cmd_reach {fuel : Nat} {c c' : Conf K V} {x : Sched K V} (hr : Conf.Reach I c0 c)
    (h : c.cmd I fuel x = some c') : Conf.Reach I c0 c' := by
  unfold Conf.cmd at h
  split at h
  · split at h
    · next e => cases h; exact hr.step (.inv _ _ _ e)
    · cases h
  · exact Conf.acts_reach hr h
  · split at h
    · next e => cases h; exact hr.step (.res e)
    · cases h

/-- Running a schedule reaches a reachable configuration. -/
theorem Conf.cmds_reach {fuel : Nat} : ∀ {xs : List (Sched K V)} {c c' : Conf K V}, Conf.Reach I c0 c →
    Conf.cmds I fuel xs c = some c' → Conf.Reach I c0 c'
  | [], c, c', hr, h => by cases h; exact hr
  | x :: xs, c, c', hr, h => by
    unfold Conf.cmds at h
    split at h
    · next c1 e => exact Conf.cmds_reach (Conf.cmd_reach hr e) h
    · cases h

/-- What a schedule starting with the empty tree leads to. -/
def Conf.trace (I : CImpl K V) (fuel : Nat) (xs : List (Sched K V)) : Option (Conf K V) := Conf.cmds I fuel xs Conf.init

end BT
