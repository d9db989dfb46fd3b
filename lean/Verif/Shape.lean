import Verif.Walk
import Verif.PslOk

/-!
# The shape of a quiescent tree, its destruction and its statistics
-/

set_option linter.unusedSectionVars false

namespace BT
variable {K V : Type} [LinearOrder K]

/-- `Serves s d p lo hi`: following `d` child links from the root one can arrive at page `p`, and the keys of the slots passed on
the way say that `p` is responsible for the keys `lo ≤ k < hi`. -/
inductive Serves (s : St K V) : Nat → Ptr → Bd K → Bd K → Prop
  | root : Serves s 0 s.root .bot .top
  | child {d p lo hi n T r D c} : Serves s d p lo hi → s.heap p = some n → n.isInner = true → n.recs = T ++ r :: D →
      r.pay = .ptr c →
      Serves s (d + 1) c (if T = [] then lo else hiB r.key) (match D with | [] => hi | x :: _ => hiB x.key)

section
variable {cfg : Cfg K} {s : St K V} {H : Nat} {gr : Nat → List Grp}

theorem Serves.at (g : Good cfg s H gr) {d : Nat} {p : Ptr} {lo hi : Bd K} (h : Serves s d p lo hi) :
    d ≤ H ∧ ∃ n, At cfg s gr (H - d) p n lo ∧ hi = hiB n.high := by
  induction h with
  | root =>
    obtain ⟨n, h1, h2⟩ := g.wf.root_at g.np
    exact ⟨Nat.zero_le _, n, h1, by rw [h2]; rfl⟩
  | @child d p lo hi n T r D c _ hp hin hrecs hc ih =>
    obtain ⟨hd, n', hat, rfl⟩ := ih
    have := hat.heap
    rw [hp] at this
    cases this
    have hlt : d < H := by
      by_contra hge
      have h0 : H - d = 0 := by omega
      rw [h0] at hat
      have := hat.ok0.kind
      rw [hin] at this
      cases this
    obtain ⟨j, hj⟩ : ∃ j, H - d = j + 1 := ⟨H - d - 1, by omega⟩
    rw [hj] at hat
    have hj' : H - (d + 1) = j := by omega
    rw [hj']
    obtain ⟨G1, run, G2, lo', e1, e2, e3, e4⟩ := g.wf.follow (i := j) (by omega) hat hrecs
    have : run = [] := g.np j (by omega) (r.toPtr, run) (by rw [e1]; simp)
    subst this
    have hfl : flat (gr j) = flat G1 ++ r.toPtr :: flat G2 := by rw [e1]; simp
    obtain ⟨cn, lo'', hat', hc'⟩ := g.wf.at_of_append (by omega) hfl
    have : lo' = lo'' := At.lo_eq g.wf (by omega) hat' hfl e3
    subst this
    have hptr : r.toPtr = c := toPtr_of hc
    rw [hptr] at hat' e2
    refine ⟨by omega, cn, by rw [← e4]; exact hat', ?_⟩
    rw [lastOf_nil, highOf_eq hat'.heap] at e2
    rw [e2]
    cases D <;> rfl

/-- children of a page -/
def kids (h : Heap K V) (p : Ptr) : List Ptr :=
  match h p with
  | some n => if n.isInner then n.recs.map Rec.toPtr else []
  | none => []

theorem kids_eq {h : Heap K V} {p : Ptr} {n : Node K V} (hp : h p = some n) (hi : n.isInner = true) :
    kids h p = n.recs.map Rec.toPtr := by simp [kids, hp, hi]

theorem slots_fst (recs : List (Rec K V)) (hi : Option K) : (slots recs hi).map Prod.fst = recs.map Rec.toPtr := by
  induction recs with
  | nil => rfl
  | cons r rs ih => simp [slots_cons, ih]

theorem flat_nopend {G : List Grp} (h : ∀ g ∈ G, g.2 = []) : flat G = G.map Prod.fst := by
  induction G with
  | nil => rfl
  | cons g G ih =>
    simp only [flat_cons, List.map_cons, h g (by simp), List.nil_append]
    rw [ih (fun x hx => h x (by simp [hx]))]

theorem Good.kids (g : Good cfg s H gr) {i : Nat} (hi : i < H) :
    (flat (gr (i + 1))).flatMap (kids s.heap) = flat (gr i) := by
  have hk := congrArg (List.map Prod.fst) (g.wf.kid i hi)
  rw [List.map_flatMap, List.map_map] at hk
  have h2 : (gr i).map (Prod.fst ∘ fun g => (g.1, highOf s.heap (lastOf g))) = flat (gr i) := by
    rw [flat_nopend (g.np i (by omega))]
    rfl
  rw [h2] at hk
  rw [← hk]
  apply List.flatMap_congr
  intro p hp
  obtain ⟨n, lo, hat⟩ := g.wf.at_of_mem (by omega) hp
  rw [kids_eq hat.heap hat.okS.kind, slotsOf_eq hat.heap, slots_fst]

theorem At.serves (g : Good cfg s H gr) {d : Nat} (hd : d ≤ H) {p : Ptr} {n : Node K V} {lo : Bd K}
    (h : At cfg s gr (H - d) p n lo) : Serves s d p lo (hiB n.high) := by
  induction d generalizing p n lo with
  | zero =>
    obtain ⟨n', h1, h2⟩ := g.wf.root_at g.np
    obtain ⟨run, hrun⟩ := g.wf.top
    have : run = [] := g.np H (le_refl _) (s.root, run) (by rw [hrun]; simp)
    subst this
    have hp := h.mem
    simp only [Nat.sub_zero, hrun, flat_cons, flat_nil, List.append_nil, List.mem_singleton] at hp
    subst hp
    obtain ⟨rfl, rfl⟩ := At.congr g.wf (le_refl _) h h1
    rw [h2]
    exact .root
  | succ d ih =>
    obtain ⟨j, hj⟩ : ∃ j, H - d = j + 1 := ⟨H - d - 1, by omega⟩
    have hj' : H - (d + 1) = j := by omega
    rw [hj'] at h
    have hm := h.mem
    rw [← g.kids (by omega), List.mem_flatMap] at hm
    obtain ⟨u, hu, hpu⟩ := hm
    obtain ⟨un, lou, hatu⟩ := g.wf.at_of_mem (by omega) hu
    rw [kids_eq hatu.heap hatu.okS.kind] at hpu
    obtain ⟨r, hr, hrp⟩ := List.mem_map.1 hpu
    obtain ⟨T, D, hTD⟩ := List.append_of_mem hr
    obtain ⟨c, hc⟩ := hatu.okS.inner.ptrs r hr
    have hpc : c = p := by rw [← hrp, toPtr_of hc]
    subst hpc
    have hs := ih (by omega) (by rw [hj]; exact hatu)
    have hs' := Serves.child hs hatu.heap hatu.okS.kind hTD hc
    obtain ⟨-, n', hat', hh⟩ := hs'.at g
    rw [hj'] at hat'
    obtain ⟨e1, e2⟩ := At.congr g.wf (by omega) h hat'
    rw [e1, ← hh, e2]
    exact hs'

theorem serves_iff (g : Good cfg s H gr) {d : Nat} {p : Ptr} {lo hi : Bd K} :
    Serves s d p lo hi ↔ d ≤ H ∧ ∃ n, At cfg s gr (H - d) p n lo ∧ hi = hiB n.high := by
  constructor
  · exact fun h => h.at g
  · rintro ⟨hd, n, h, rfl⟩
    exact h.serves g hd

/-- Every key has a page on every level. -/
theorem WF.cover (w : WF cfg s H gr) {i : Nat} (hi : i ≤ H) (k : K) :
    ∃ p n lo, At cfg s gr i p n lo ∧ lo.leKey k ∧ (hiB n.high).gtKey k := by
  have key : ∀ (B A : List Ptr) (lo : Bd K), flat (gr i) = A ++ B → Chain (PageAt cfg i) s.heap lo B .top none →
      Chain (PageAt cfg i) s.heap .bot A lo (B.head?) → lo.leKey k →
      ∃ p n lo, At cfg s gr i p n lo ∧ lo.leKey k ∧ (hiB n.high).gtKey k := by
    intro B
    induction B with
    | nil =>
      intro A lo h1 h2 h3 h4
      have : lo = .top := h2
      rw [this] at h4
      cases h4
    | cons p B ih =>
      intro A lo h1 h2 h3 h4
      obtain ⟨n, c1, c2, c3⟩ := h2
      by_cases hk : (hiB n.high).gtKey k
      · exact ⟨p, n, lo, ⟨A, B, h1, c1, by simpa using h3, by simpa using c2, c3⟩, h4, hk⟩
      · refine ih (A ++ [p]) (hiB n.high) (by rw [h1]; simp) c3 ?_ ?_
        · rw [Chain.append]
          exact ⟨lo, by simpa using h3, n, c1, by simpa using c2, rfl⟩
        · cases hh : hiB n.high with
          | bot => trivial
          | key x => rw [hh] at hk; simpa using hk
          | top => rw [hh] at hk; exact (hk trivial).elim
  exact key _ [] .bot rfl (w.chain i hi) rfl trivial

/-! ## Destruction -/

/-- the pages of the subtree of `p` (a page of level `i`), children before parents -/
def subtree (h : Heap K V) : Nat → Ptr → List Ptr
  | 0, p => [p]
  | i + 1, p => (kids h p).flatMap (subtree h i) ++ [p]

/-- drop several pages -/
def delAll (h : Heap K V) (l : List Ptr) : Heap K V := fun q => if q ∈ l then none else h q

theorem delAll_append (h : Heap K V) (a b : List Ptr) : delAll (delAll h a) b = delAll h (a ++ b) := by
  funext q
  by_cases h1 : q ∈ a <;> by_cases h2 : q ∈ b <;> simp [delAll, h1, h2]

theorem deleteChildren_ok (g : Good cfg s H gr) : ∀ (i : Nat) (p : Ptr) (t : St K V) (fuel : Nat), i ≤ H → p ∈ flat (gr i) →
    i + 1 ≤ fuel → (subtree s.heap i p).Nodup → (∀ q ∈ subtree s.heap i p, t.heap q = s.heap q) →
    deleteChildren fuel p t = .ok ((), { t with heap := delAll t.heap (subtree s.heap i p) }) := by
  intro i
  induction i with
  | zero =>
    intro p t fuel hi hp hf hnd hagree
    obtain ⟨f, rfl⟩ : ∃ f, fuel = f + 1 := ⟨fuel - 1, by omega⟩
    obtain ⟨n, lo, hat⟩ := g.wf.at_of_mem hi hp
    have hheap : t.heap p = some n := by rw [hagree p (by simp [subtree]), hat.heap]
    rw [deleteChildren, M.bind_ok (M.load_ok hheap), hat.ok0.kind]
    simp only [Bool.false_eq_true, if_false]
    simp only [M.free, hheap, subtree]
    congr 3
    funext q
    simp [delAll]
  | succ i ih =>
    intro p t fuel hi hp hf hnd hagree
    obtain ⟨f, rfl⟩ : ∃ f, fuel = f + 1 := ⟨fuel - 1, by omega⟩
    obtain ⟨n, lo, hat⟩ := g.wf.at_of_mem hi hp
    have hheap : t.heap p = some n := by rw [hagree p (by simp [subtree]), hat.heap]
    rw [deleteChildren, M.bind_ok (M.load_ok hheap), hat.okS.kind, if_pos rfl]
    simp only [subtree] at hnd hagree ⊢
    have hkids := kids_eq hat.heap hat.okS.kind
    have hin : ∀ c ∈ kids s.heap p, c ∈ flat (gr i) := by
      intro c hc
      rw [← g.kids (by omega)]
      exact List.mem_flatMap.2 ⟨p, hp, hc⟩
    rw [hkids] at hnd hagree hin ⊢
    have hloop : ∀ (rs : List (Rec K V)) (t : St K V), (∀ r ∈ rs, ∃ c, r.pay = .ptr c) →
        (∀ c ∈ rs.map Rec.toPtr, c ∈ flat (gr i)) → ((rs.map Rec.toPtr).flatMap (subtree s.heap i)).Nodup →
        (∀ q ∈ (rs.map Rec.toPtr).flatMap (subtree s.heap i), t.heap q = s.heap q) →
        M.each (fun r : Rec K V => match r.pay with
          | .ptr c => deleteChildren f c
          | .val _ => M.ub) rs t =
          .ok ((), { t with heap := delAll t.heap ((rs.map Rec.toPtr).flatMap (subtree s.heap i)) }) := by
      intro rs
      induction rs with
      | nil =>
        intro t _ _ _ _
        simp [M.each]
        rfl
      | cons r rs ihr =>
        intro t h1 h2 h3 h4
        simp only [List.map_cons, List.flatMap_cons] at h3 h4 ⊢
        obtain ⟨c, hc⟩ := h1 r (by simp)
        have hrc := toPtr_of hc
        rw [List.nodup_append] at h3
        have hone := ih c t f (by omega) (by rw [← hrc]; exact h2 _ (by simp)) (by omega) (by rw [← hrc]; exact h3.1)
          (fun q hq => h4 q (by rw [hrc]; simp [hq]))
        rw [M.each, hc]
        dsimp only
        rw [M.bind_ok hone, ihr _ (fun x hx => h1 x (by simp [hx])) (fun x hx => h2 x (by simp [hx])) h3.2.1]
        · simp only [delAll_append, hrc]
        · intro q hq
          have hne : q ∉ subtree s.heap i c := by
            intro hq'
            exact h3.2.2 q (by rw [hrc]; exact hq') q hq rfl
          simp only [delAll, hne, if_false]
          exact h4 q (by simp only [List.mem_append]; exact Or.inr hq)
    rw [List.nodup_append] at hnd
    refine (M.bind_ok (hloop n.recs t hat.okS.inner.ptrs hin hnd.1
      (fun q hq => hagree q (by simp only [List.mem_append]; exact Or.inl hq)))).trans ?_
    have hnp : p ∉ (n.recs.map Rec.toPtr).flatMap (subtree s.heap i) := fun hq => hnd.2.2 p hq p (by simp) rfl
    simp only [M.free, delAll, hnp, if_false, hheap]
    congr 3
    funext q
    simp only [delAll, List.mem_append, List.mem_singleton]
    by_cases h1 : q = p
    · simp only [h1, if_true, or_true]
    · simp only [h1, if_false, or_false]

theorem flatMap_snoc_perm (f : Ptr → List Ptr) (U : List Ptr) :
    (U.flatMap (fun p => f p ++ [p])).Perm (U.flatMap f ++ U) := by
  induction U with
  | nil => simp
  | cons u U ih =>
    simp only [List.flatMap_cons, List.append_assoc]
    refine List.Perm.append_left _ ?_
    refine (List.Perm.append_left [u] ih).trans ?_
    simp only [← List.append_assoc]
    refine (List.Perm.append_right U List.perm_append_comm).trans ?_
    simp

theorem subtree_level (g : Good cfg s H gr) : ∀ i ≤ H, ((flat (gr i)).flatMap (subtree s.heap i)).Nodup ∧
    ∀ q, q ∈ (flat (gr i)).flatMap (subtree s.heap i) ↔ ∃ j ≤ i, q ∈ flat (gr j) := by
  intro i
  induction i with
  | zero =>
    intro hi
    have : (flat (gr 0)).flatMap (subtree s.heap 0) = flat (gr 0) := by simp [subtree]
    rw [this]
    refine ⟨g.wf.nodup hi, fun q => ⟨fun h => ⟨0, le_refl _, h⟩, ?_⟩⟩
    rintro ⟨j, hj, h⟩
    obtain rfl : j = 0 := by omega
    exact h
  | succ i ih =>
    intro hi
    obtain ⟨ih1, ih2⟩ := ih (by omega)
    have hp : ((flat (gr (i + 1))).flatMap (subtree s.heap (i + 1))).Perm
        ((flat (gr i)).flatMap (subtree s.heap i) ++ flat (gr (i + 1))) := by
      have := flatMap_snoc_perm (fun p => (kids s.heap p).flatMap (subtree s.heap i)) (flat (gr (i + 1)))
      rw [← List.flatMap_assoc, g.kids (by omega)] at this
      exact this
    constructor
    · rw [hp.nodup_iff, List.nodup_append]
      refine ⟨ih1, g.wf.nodup hi, ?_⟩
      rintro a ha b hb rfl
      obtain ⟨j, hj, hq⟩ := (ih2 a).1 ha
      have := g.wf.disj j (by omega) (i + 1) hi a hq hb
      omega
    · intro q
      rw [hp.mem_iff, List.mem_append, ih2]
      constructor
      · rintro (⟨j, hj, h⟩ | h)
        · exact ⟨j, by omega, h⟩
        · exact ⟨i + 1, le_refl _, h⟩
      · rintro ⟨j, hj, h⟩
        rcases Nat.lt_or_ge i j with hlt | hge
        · obtain rfl : j = i + 1 := by omega
          exact Or.inr h
        · exact Or.inl ⟨j, hge, h⟩

theorem Good.flat_root (g : Good cfg s H gr) : flat (gr H) = [s.root] := by
  obtain ⟨run, hrun⟩ := g.wf.top
  have : run = [] := g.np H (le_refl _) (s.root, run) (by rw [hrun]; simp)
  subst this
  rw [hrun]
  rfl

theorem destroy_eq (g : Good cfg s H gr) {fuel : Nat} (hf : H + 1 ≤ fuel) :
    destroy fuel s = .ok ((), { s with heap := fun _ => none }) := by
  obtain ⟨h1, h2⟩ := subtree_level g H (le_refl _)
  rw [g.flat_root] at h1 h2
  simp only [List.flatMap_cons, List.flatMap_nil, List.append_nil] at h1 h2
  have e : (fun _ => none) = delAll s.heap (subtree s.heap H s.root) := by
    funext p
    simp only [delAll]
    split
    · rfl
    · next hp =>
      by_contra hne
      obtain ⟨i, hi, hm⟩ := (g.wf.alloc p).1 (Ne.symm hne)
      exact hp ((h2 p).2 ⟨i, hi, hm⟩)
  rw [e]
  unfold destroy
  rw [M.bind_ok (a := s.root) (s' := s) rfl]
  exact deleteChildren_ok g H s.root s fuel (le_refl _) (by rw [g.flat_root]; simp) hf h1 (fun _ _ => rfl)

/-! ## Statistics -/

/-- pages `e` levels below `p` -/
def under (h : Heap K V) : Nat → Ptr → List Ptr
  | 0, p => [p]
  | e + 1, p => (kids h p).flatMap (under h e)

/-- bytes reported for one page -/
def usageOf (cfg : Cfg K) (h : Heap K V) (p : Ptr) : Nat := ((h p).map (Node.nodeUsage cfg)).getD 0

/-- the statistics entry of a set of pages -/
def statOf (cfg : Cfg K) (h : Heap K V) (l : List Ptr) : Stat :=
  (l.length, (l.map (usageOf cfg h)).sum, cfg.pageSize * l.length)

def Stat.add (a b : Stat) : Stat := (a.1 + b.1, a.2.1 + b.2.1, a.2.2 + b.2.2)

theorem Stat.add_zero (a : Stat) : Stat.add a (0, 0, 0) = a := by simp [Stat.add]
theorem Stat.add_assoc (a b c : Stat) : Stat.add (Stat.add a b) c = Stat.add a (Stat.add b c) := by
  simp [Stat.add, Nat.add_assoc]
theorem statOf_append (h : Heap K V) (a b : List Ptr) :
    statOf cfg h (a ++ b) = Stat.add (statOf cfg h a) (statOf cfg h b) := by
  simp [statOf, Stat.add, Nat.mul_add]

/-- entry of a level, zero if absent -/
def ent (st : List Stat) (j : Nat) : Stat := (st[j]?).getD (0, 0, 0)

theorem addStat_ok {p : Ptr} {n : Node K V} (hp : s.heap p = some n) {d : Nat} {st : List Stat} (hd : d ≤ st.length) :
    ∃ st', addStat cfg n d st = .ok st' ∧ st'.length = max st.length (d + 1) ∧
      ∀ j, ent st' j = if j = d then Stat.add (ent st j) (statOf cfg s.heap [p]) else ent st j := by
  have hu : usageOf cfg s.heap p = n.nodeUsage cfg := by simp [usageOf, hp]
  unfold addStat
  by_cases h : st.length ≤ d
  · have hd' : d = st.length := by omega
    subst hd'
    rw [if_pos (le_refl _)]
    dsimp only
    rw [List.getElem?_append_right (le_refl _), Nat.sub_self]
    refine ⟨_, rfl, by simp, fun j => ?_⟩
    by_cases hj : j = st.length
    · subst hj
      simp [ent, Stat.add, statOf, hu]
    · rw [if_neg hj]
      unfold ent
      rw [List.getElem?_set_ne (by omega)]
      rcases Nat.lt_or_ge j st.length with hl | hg
      · rw [List.getElem?_append_left hl]
      · rw [List.getElem?_eq_none (by simp; omega), List.getElem?_eq_none (by omega)]
  · rw [if_neg h]
    have hlt : d < st.length := by omega
    dsimp only
    rw [List.getElem?_eq_getElem hlt]
    rcases hx : st[d] with ⟨a, b, c⟩
    dsimp only
    refine ⟨_, rfl, by simp; omega, fun j => ?_⟩
    by_cases hj : j = d
    · subst hj
      simp [ent, Stat.add, statOf, hu, hlt, hx]
    · rw [if_neg hj]
      unfold ent
      rw [List.getElem?_set_ne (by omega)]

theorem collectStats_ok (g : Good cfg s H gr) : ∀ (i : Nat) (p : Ptr) (d : Nat) (st : List Stat) (fuel : Nat), i ≤ H →
    p ∈ flat (gr i) → i + 1 ≤ fuel → d ≤ st.length →
    ∃ st', collectStats cfg fuel p d st s = .ok (st', s) ∧ st'.length = max st.length (d + i + 1) ∧
      ∀ j, ent st' j = Stat.add (ent st j)
        (if d ≤ j ∧ j ≤ d + i then statOf cfg s.heap (under s.heap (j - d) p) else (0, 0, 0)) := by
  intro i
  induction i with
  | zero =>
    intro p d st fuel hi hp hf hd
    obtain ⟨f, rfl⟩ : ∃ f, fuel = f + 1 := ⟨fuel - 1, by omega⟩
    obtain ⟨n, lo, hat⟩ := g.wf.at_of_mem hi hp
    obtain ⟨st', h1, h2, h3⟩ := addStat_ok (cfg := cfg) hat.heap hd
    refine ⟨st', ?_, by simpa using h2, fun j => ?_⟩
    · rw [collectStats, M.bind_ok (M.load_ok hat.heap), M.bind_ok (M.lift_of _ h1), hat.ok0.kind]
      rfl
    · rw [h3]
      by_cases hj : j = d
      · subst hj
        simp [under]
      · rw [if_neg hj, if_neg (by omega), Stat.add_zero]
  | succ i ih =>
    intro p d st fuel hi hp hf hd
    obtain ⟨f, rfl⟩ : ∃ f, fuel = f + 1 := ⟨fuel - 1, by omega⟩
    obtain ⟨n, lo, hat⟩ := g.wf.at_of_mem hi hp
    obtain ⟨st1, h1, h2, h3⟩ := addStat_ok (cfg := cfg) hat.heap hd
    have hkids := kids_eq hat.heap hat.okS.kind
    have hin : ∀ c ∈ n.recs.map Rec.toPtr, c ∈ flat (gr i) := by
      intro c hc
      rw [← g.kids (by omega)]
      exact List.mem_flatMap.2 ⟨p, hp, by rw [hkids]; exact hc⟩
    have hloop : ∀ (rs : List (Rec K V)) (st : List Stat), (∀ r ∈ rs, ∃ c, r.pay = .ptr c) →
        (∀ c ∈ rs.map Rec.toPtr, c ∈ flat (gr i)) → d + 1 ≤ st.length →
        ∃ st', M.foldSlots (fun (r : Rec K V) st => match r.pay with
          | .ptr c => collectStats cfg f c (d + 1) st
          | .val _ => M.ub) rs st s = .ok (st', s) ∧
          st'.length = (if rs = [] then st.length else max st.length (d + 1 + i + 1)) ∧
          ∀ j, ent st' j = Stat.add (ent st j) (if d + 1 ≤ j ∧ j ≤ d + 1 + i then
            statOf cfg s.heap ((rs.map Rec.toPtr).flatMap (under s.heap (j - (d + 1)))) else (0, 0, 0)) := by
      intro rs
      induction rs with
      | nil =>
        intro st _ _ _
        refine ⟨st, rfl, by simp, fun j => ?_⟩
        split <;> simp [statOf, Stat.add]
      | cons r rs ihr =>
        intro st q1 q2 q3
        obtain ⟨c, hc⟩ := q1 r (by simp)
        have hrc := toPtr_of hc
        obtain ⟨sa, a1, a2, a3⟩ := ih c (d + 1) st f (by omega) (by rw [← hrc]; exact q2 _ (by simp)) (by omega) q3
        obtain ⟨sb, b1, b2, b3⟩ := ihr sa (fun x hx => q1 x (by simp [hx])) (fun x hx => q2 x (by simp [hx])) (by omega)
        refine ⟨sb, ?_, ?_, fun j => ?_⟩
        · rw [M.foldSlots, hc]
          dsimp only
          rw [M.bind_ok a1]
          exact b1
        · rw [b2, if_neg (List.cons_ne_nil _ _), a2]
          split <;> omega
        · rw [b3, a3, Stat.add_assoc]
          congr 1
          split
          · simp only [List.map_cons, List.flatMap_cons, hrc]
            rw [statOf_append]
          · rfl
    obtain ⟨st', b1, b2, b3⟩ := hloop n.recs st1 hat.okS.inner.ptrs hin (by omega)
    refine ⟨st', ?_, ?_, fun j => ?_⟩
    · rw [collectStats, M.bind_ok (M.load_ok hat.heap), M.bind_ok (M.lift_of _ h1), hat.okS.kind, if_pos rfl]
      exact b1
    · rw [b2, if_neg hat.okS.inner.ne]
      omega
    · rw [b3, h3]
      by_cases hj : j = d
      · subst hj
        rw [if_pos rfl, if_neg (by omega), if_pos (by omega), Stat.add_zero]
        simp [under]
      · rw [if_neg hj]
        congr 1
        by_cases hc : d + 1 ≤ j ∧ j ≤ d + 1 + i
        · rw [if_pos hc, if_pos (by omega)]
          obtain ⟨e, rfl⟩ : ∃ e, j = d + 1 + e := ⟨j - (d + 1), by omega⟩
          have e1 : d + 1 + e - (d + 1) = e := by omega
          have e2 : d + 1 + e - d = e + 1 := by omega
          rw [e1, e2, under, hkids]
        · rw [if_neg hc, if_neg (by omega)]

theorem under_succ (h : Heap K V) (e : Nat) (p : Ptr) : under h (e + 1) p = (under h e p).flatMap (kids h) := by
  induction e generalizing p with
  | zero => simp [under]
  | succ e ih =>
    rw [under]
    conv_rhs => rw [under]
    rw [List.flatMap_assoc]
    apply List.flatMap_congr
    intro c _
    exact ih c

theorem under_root (g : Good cfg s H gr) : ∀ d ≤ H, under s.heap d s.root = flat (gr (H - d)) := by
  intro d
  induction d with
  | zero => intro _; rw [under, Nat.sub_zero, g.flat_root]
  | succ d ih =>
    intro hd
    obtain ⟨j, hj⟩ : ∃ j, H - d = j + 1 := ⟨H - d - 1, by omega⟩
    have hj' : H - (d + 1) = j := by omega
    rw [under_succ, ih (by omega), hj, hj', g.kids (by omega)]

theorem statistics_ok (g : Good cfg s H gr) {fuel : Nat} (hf : H + 1 ≤ fuel) :
    ∃ st, statistics cfg fuel s = .ok (st, s) ∧ st.length = H + 1 ∧
      ∀ d ≤ H, st[d]? = some (statOf cfg s.heap (flat (gr (H - d)))) := by
  obtain ⟨st, h1, h2, h3⟩ := collectStats_ok g H s.root 0 [] fuel (le_refl _) (by rw [g.flat_root]; simp) hf (by simp)
  refine ⟨st, ?_, by simpa using h2, fun d hd => ?_⟩
  · unfold statistics
    rw [M.bind_ok (a := s.root) (s' := s) rfl]
    exact h1
  · have := h3 d
    rw [if_pos (by omega), Nat.sub_zero, under_root g d hd] at this
    have hlt : d < st.length := by simp at h2; omega
    unfold ent at this
    rw [List.getElem?_eq_getElem hlt] at this ⊢
    simp only [Option.getD_some, List.getElem?_nil, Option.getD_none] at this
    rw [this]
    simp [Stat.add]

end
end BT
