import Verif.Nav

/-!
# Tree-level steps used by all variants, when nothing is pending
-/

set_option linter.unusedSectionVars false

namespace BT
variable {K V : Type} [LinearOrder K]

theorem M.load_ok {s : St K V} {p : Ptr} {n : Node K V} (h : s.heap p = some n) :
    M.load p s = .ok (n, s) := by simp [M.load, h]
theorem M.store_ok {s : St K V} {p : Ptr} {n n' : Node K V} (h : s.heap p = some n) :
    M.store p n' s = .ok ((), { s with heap := upd s.heap p n' }) := by
  simp only [M.store, h]; rfl
theorem M.free_ok {s : St K V} {p : Ptr} {n : Node K V} (h : s.heap p = some n) :
    M.free p s = .ok ((), { s with heap := del s.heap p }) := by
  simp only [M.free, h]; rfl
theorem M.alloc_run (s : St K V) (n : Node K V) :
    M.alloc n s = .ok (s.fresh, { s with heap := upd s.heap s.fresh n, fresh := s.fresh + 1 }) := rfl
theorem M.lift_of {α : Type} {r : Res α} {a : α} (s : St K V) (h : r = .ok a) :
    (M.lift r : M K V α) s = .ok (a, s) := by rw [h]; rfl

section wf
variable {cfg : Cfg K} {L : Nat} {s : St K V} {H : Nat} {gr : Nat → List Grp}

/-- Carrying `At` over to another well-formed state. -/
theorem At.transfer {s' : St K V} {H' : Nat} {gr' : Nat → List Grp} {i : Nat} {p : Ptr} {n n' : Node K V}
    {lo : Bd K} (h : At cfg s gr i p n lo) (w' : WF cfg s' H' gr') (hi : i ≤ H')
    (hflat : flat (gr' i) = flat (gr i))
    (hhigh : ∀ q ∈ flat (gr i), highOf s'.heap q = highOf s.heap q)
    (hp : s'.heap p = some n') : At cfg s' gr' i p n' lo := by
  obtain ⟨A, B, h1, h2, h3, h4, h5⟩ := h
  rw [h1] at hflat
  obtain ⟨n1, lo1, hat, hc⟩ := w'.at_of_append hi hflat
  have e1 := hc.end_eq
  have e2 := h3.end_eq
  have : lo1 = lo := by
    rw [e1, e2]
    rcases List.eq_nil_or_concat' A with rfl | ⟨A', a, rfl⟩
    · rfl
    · simp only [List.getLast?_append, List.getLast?_singleton, Option.or]
      rw [hhigh a (by rw [h1]; simp)]
  subst this
  have e : n1 = n' := by have := hat.heap; rw [hp] at this; exact (Option.some.inj this).symm
  subst e
  exact hat

theorem highOf_upd {h : Heap K V} {p : Ptr} {n n' : Node K V} (hp : h p = some n) (hh : n'.high = n.high)
    (q : Ptr) : highOf (upd h p n') q = highOf h q := by
  by_cases e : q = p
  · subst e; simp [highOf, hp, hh]
  · simp [highOf, upd_other _ e]

theorem SamePage.slots {n n' : Node K V} (h : SamePage n n') (hi : n.isInner = true) :
    slots n'.recs n'.high = slots n.recs n.high := by
  rw [h.recs hi, h.frame.high]

/-- Rewriting a page into an equivalent one. -/
theorem WF.samePage (w : WF cfg s H gr) {i : Nat} (hi : i ≤ H) {p : Ptr} {n n' : Node K V} {lo : Bd K}
    (hat : At cfg s gr i p n lo) (hok : NodeOk cfg (decide (i ≠ 0)) lo n') (hs : SamePage n n') :
    WF cfg { s with heap := upd s.heap p n' } H gr ∧
    contents { s with heap := upd s.heap p n' } gr = contents s gr ∧
    At cfg { s with heap := upd s.heap p n' } gr i p n' lo ∧
    (∀ j ≤ H, ∀ q m lo', q ≠ p → At cfg s gr j q m lo' →
      At cfg { s with heap := upd s.heap p n' } gr j q m lo') := by
  have w' : WF cfg { s with heap := upd s.heap p n' } H gr := by
    refine w.replacePage hi hat hok hs.frame.next hs.frame.high ?_
    intro h0
    refine hs.slots ?_
    rw [hat.ok.kind]
    simp; omega
  refine ⟨w', w.replacePage_contents hi hat (fun _ => hs.pairs), ?_, ?_⟩
  · exact hat.transfer w' hi rfl (fun q _ => highOf_upd hat.heap hs.frame.high q) (by simp)
  · intro j hj q m lo' hne hq
    exact hq.transfer w' hj rfl (fun q _ => highOf_upd hat.heap hs.frame.high q)
      (by dsimp only; rw [upd_other _ hne]; exact hq.heap)

/-- The state between two operations. -/
structure Good (cfg : Cfg K) (s : St K V) (H : Nat) (gr : Nat → List Grp) : Prop where
  wf : WF cfg s H gr
  np : NoPend H gr

theorem NoPend.update {i : Nat} {G : List Grp} (np : NoPend H gr) (hG : ∀ g ∈ G, g.2 = []) :
    NoPend H (Function.update gr i G) := by
  intro j hj g hg
  by_cases h : j = i
  · subst h; rw [Function.update_self] at hg; exact hG g hg
  · rw [Function.update_of_ne h] at hg; exact np j hj g hg

theorem NoPend.group (np : NoPend H gr) {i : Nat} (hi : i ≤ H) {G1 G2 : List Grp} {g : Grp}
    (h : gr i = G1 ++ g :: G2) : (∀ x ∈ G1, x.2 = []) ∧ g.2 = [] ∧ (∀ x ∈ G2, x.2 = []) := by
  rw [NoPend] at np
  refine ⟨fun x hx => np i hi x (by rw [h]; simp [hx]), np i hi g (by rw [h]; simp),
    fun x hx => np i hi x (by rw [h]; simp [hx])⟩

/-- `hasNext` depends on the kind only. -/
theorem hasNext_kind {n n' : Node K V} (h : n.isInner = n'.isInner) : n.hasNext cfg = n'.hasNext cfg := by
  simp [Node.hasNext, h]

/-- Page facts of a split in the shape `WF.halfSplit` wants. -/
theorem SplitPost.pages {b : Bool} {i : Nat} (hb : b = decide (i ≠ 0)) {lo : Bd K} {n l rn : Node K V} {r : Ptr}
    {sep : K} (hk : n.isInner = b) (h : SplitPost cfg L b lo n r l rn sep) :
    ∀ nx, PageAt cfg i lo n nx → PageAt cfg i lo l (some r) ∧ PageAt cfg i (hiB l.high) rn nx := by
  intro nx hp
  subst hb
  refine ⟨⟨h.left, ?_⟩, ⟨by rw [h.lhigh]; exact h.right, ?_⟩⟩
  · intro hh
    rw [hasNext_kind (n' := n) (by rw [h.left.kind, hk])] at hh
    exact h.lnext hh
  · intro hh
    rw [hasNext_kind (n' := n) (by rw [h.right.kind, hk])] at hh
    rw [h.rnext hh]
    exact hp.2 hh

/-- Split the child in slot `T.length` of `u` and tell `u`. -/
theorem WF.splitChild (hr : Roomy cfg L) (w : WF cfg s H gr) (np : NoPend H gr) {i : Nat} (hi : i < H)
    {u : Ptr} {un : Node K V} {lo : Bd K} (hatu : At cfg s gr (i + 1) u un lo)
    {T D : List (Rec K V)} {rr : Rec K V} (hrecs : un.recs = T ++ rr :: D)
    {c : Ptr} (hc : rr.toPtr = c) {G1 G2 : List Grp} (hg : gr i = G1 ++ (c, []) :: G2)
    {cn : Node K V} {lo' : Bd K} (hatc : At cfg s gr i c cn lo')
    (hch : cn.high = hdKey D un.high) (hlo' : lo' = (if T = [] then lo else hiB rr.key))
    {q : Ptr} (hq : s.heap q = none) {fresh' : Ptr} (hf : s.fresh ≤ fresh') (hqf : q < fresh')
    (hroomu : Room cfg L un)
    {l rn : Node K V} {sep : K} (hs : SplitPost cfg L (decide (i ≠ 0)) lo' cn q l rn sep) :
    ∃ un' gr', un.placeChild cfg (some sep) q T.length = .ok un' ∧
      (let s' : St K V := ⟨upd (upd (upd s.heap c l) q rn) u un', fresh', s.root⟩
       WF cfg s' H gr' ∧ NoPend H gr' ∧ contents s' gr' = contents s gr ∧
       At cfg s' gr' i c l lo' ∧ At cfg s' gr' i q rn (.key sep)) ∧
      gr' = Function.update gr i (G1 ++ (c, []) :: (q, []) :: G2) ∧ SameFrame un un' ∧ NodeOk cfg true lo un' := by
  have hkeyT : T ≠ [] → ∃ a, rr.key = some a ∧ lo.lt (.key a) := by
    intro hT
    obtain ⟨a, ha, h1, -⟩ := hatu.okS.inner.keyed rr (by
      rw [hrecs]
      cases T with
      | nil => exact absurd rfl hT
      | cons t T => simp)
    exact ⟨a, ha, h1⟩
  have hT : T ≠ [] → ∃ a, rr.key = some a ∧ a < sep := by
    intro hT
    obtain ⟨a, ha, -⟩ := hkeyT hT
    refine ⟨a, ha, ?_⟩
    have := hs.sepLo
    rw [hlo', if_neg hT, ha] at this
    exact this
  have hlosep : lo.lt (.key sep) := by
    by_cases h : T = []
    · have := hs.sepLo
      rwa [hlo', if_pos h] at this
    · obtain ⟨a, ha, h1⟩ := hkeyT h
      have := hs.sepLo
      rw [hlo', if_neg h, ha] at this
      exact Bd.lt_trans h1 this
  have hD : (hiB (hdKey D un.high)).gtKey sep := by
    rw [← hch, Bd.gtKey_iff]
    exact hs.sepHi
  obtain ⟨un', e1, e2, e3, e4⟩ := placeChild_ok (q := q) hatu.okS hrecs (hroomu.fitsOne_inner hr sep) hT hlosep hD
  have hcu : u ≠ c := by
    rintro rfl
    have := w.disj i (by omega) (i + 1) (by omega) u hatc.mem hatu.mem
    omega
  have hqu : u ≠ q := by
    rintro rfl
    rw [hatu.heap] at hq; cases hq
  obtain ⟨w1, c1⟩ := w.halfSplit (i := i) (by omega) (g := (c, [])) (g' := (c, [q])) (R1 := []) (R2 := [])
    (p := c) hg rfl rfl hatc hq hf hqf (hs.pages rfl hatc.ok.kind) hs.rhigh
    (fun h0 => hs.slots (by simp; omega)) (fun _ => hs.pairs)
  have hatu1 : At cfg ⟨upd (upd s.heap c l) q rn, fresh', s.root⟩
      (Function.update gr i (G1 ++ (c, [q]) :: G2)) (i + 1) u un lo := by
    have hne : ∀ x ∈ flat (gr (i + 1)), upd (upd s.heap c l) q rn x = s.heap x := by
      intro x hx
      have h1 : x ≠ q := by
        rintro rfl
        exact (w.alloc x).2 ⟨i + 1, by omega, hx⟩ hq
      have h2 : x ≠ c := by
        rintro rfl
        have := w.disj i (by omega) (i + 1) (by omega) x hatc.mem hx
        omega
      rw [upd_other _ h1, upd_other _ h2]
    refine hatu.transfer w1 (by omega) ?_ ?_ ?_
    · rw [Function.update_of_ne (by omega)]
    · intro x hx
      simp only [highOf, hne x hx]
    · dsimp only
      rw [hne u hatu.mem]
      exact hatu.heap
  have hcq : c ≠ q := by
    rintro rfl
    rw [hatc.heap] at hq; cases hq
  have hhc : highOf (upd (upd s.heap c l) q rn) c = some sep := by
    rw [highOf_eq (n := l) (by rw [upd_other _ hcq]; simp), hs.lhigh]
  obtain ⟨w2, c2⟩ := w1.attach (i := i) hi hatu1 hrecs hc (A := []) (B := []) (q := q)
    (by rw [Function.update_self]; rfl) (k := sep) (by rw [lastOf_nil]; exact hhc) e2 e3.next e3.high e4
  rw [Function.update_idem] at w2 c2
  have hfl : flat (Function.update gr i (G1 ++ (c, []) :: (q, []) :: G2) i) = flat G1 ++ c :: q :: flat G2 := by
    rw [Function.update_self]; simp
  have hsame : ∀ x ∈ flat G1, highOf (upd (upd (upd s.heap c l) q rn) u un') x = highOf s.heap x := by
    intro x hx
    have hxi : x ∈ flat (gr i) := by rw [hg]; simp [hx]
    have h1 : x ≠ u := by
      rintro rfl
      have := w.disj i (by omega) (i + 1) (by omega) x hxi hatu.mem
      omega
    have h2 : x ≠ q := by
      rintro rfl
      exact (w.alloc x).2 ⟨i, by omega, hxi⟩ hq
    have h3 : x ≠ c := by
      rintro rfl
      have hn := w.nodup (i := i) (by omega)
      rw [hg, flat_append, List.nodup_append] at hn
      exact hn.2.2 x hx x (by simp) rfl
    simp only [highOf, upd_other _ h1, upd_other _ h2, upd_other _ h3]
  refine ⟨un', _, e1, ⟨w2, ?_, by rw [c2, c1], ?_, ?_⟩, rfl, e3, e2⟩
  · obtain ⟨h1, h2, h3⟩ := np.group (by omega) hg
    refine NoPend.update np ?_
    intro x hx
    simp only [List.mem_append, List.mem_cons] at hx
    rcases hx with hx | rfl | rfl | hx
    · exact h1 x hx
    · rfl
    · rfl
    · exact h3 x hx
  · have := w2.at_mk (i := i) (by omega) hfl (n := l) (by
      dsimp only; rw [upd_other _ hcu.symm, upd_other _ hcq]; simp)
    dsimp only at this
    rw [endB_congr hsame, ← At.lo_endB w (by omega) hatc (B := flat G2) (by rw [hg]; simp)] at this
    exact this
  · have := w2.at_mk (i := i) (by omega) (A := flat G1 ++ [c]) (B := flat G2) (p := q) (n := rn)
      (by rw [hfl]; simp) (by dsimp only; rw [upd_other _ hqu.symm]; simp)
    dsimp only at this
    rw [endB_concat] at this
    have e5 : highOf (upd (upd (upd s.heap c l) q rn) u un') c = some sep := by
      simp only [highOf, upd_other _ hcu.symm, upd_other _ hcq]
      simp [hs.lhigh]
    rw [e5] at this
    exact this

/-- Merge the child in slot `T.length` of `u` with the one in the next slot. -/
theorem WF.mergeChild (hr : Roomy cfg L) (w : WF cfg s H gr) (np : NoPend H gr) {i : Nat} (hi : i < H)
    {u : Ptr} {un : Node K V} {lo : Bd K} (hatu : At cfg s gr (i + 1) u un lo)
    {T D : List (Rec K V)} {rr d : Rec K V} (hrecs : un.recs = T ++ rr :: d :: D)
    {c q : Ptr} (hc : rr.toPtr = c) (hq : d.toPtr = q)
    {G1 G2 : List Grp} (hg : gr i = G1 ++ (c, []) :: G2)
    {cn qn : Node K V} {lo' : Bd K} (hatc : At cfg s gr i c cn lo')
    (hch : cn.high = d.key) (hqn : s.heap q = some qn) (hcan : cn.canMerge cfg qn = true) :
    ∃ m un' gr', cn.merge cfg qn = .ok m ∧ un.dropChild cfg (T.length + 1) = .ok un' ∧ c ≠ q ∧ u ≠ c ∧ u ≠ q ∧
      SameFrame un un' ∧ MergePost cfg L (decide (i ≠ 0)) lo' cn qn m ∧
      (let s' : St K V := ⟨del (upd (upd s.heap c m) u un') q, s.fresh, s.root⟩
       WF cfg s' H gr' ∧ NoPend H gr' ∧ contents s' gr' = contents s gr ∧
       At cfg s' gr' i c m lo') ∧ (∀ j, j ≠ i → gr' j = gr j) ∧
      (∃ G3, G2 = (q, []) :: G3 ∧ gr' i = G1 ++ (c, []) :: G3) ∧ NodeOk cfg true lo un' := by
  -- the right child
  obtain ⟨G1', run, G2', lo2, f1, f2, f3, f4⟩ := w.follow hi hatu (T := T ++ [rr]) (r := d) (D := D)
    (by rw [hrecs]; simp)
  rw [hq] at f1 f2 f3
  have : run = [] := np i (by omega) (q, run) (by rw [f1]; simp)
  subst this
  have hflq : flat (gr i) = flat G1' ++ q :: flat G2' := by rw [f1]; simp
  have hatq := w.at_mk (i := i) (by omega) hflq hqn
  rw [← f3.endB_eq, f4, if_neg (by simp), ← hch] at hatq
  obtain ⟨m, m1, m2⟩ := merge_ok (L := L) hr hatc.ok hatq.ok hcan
  obtain ⟨un', e1, e2, e3, e4, -⟩ := dropChild_ok (L := L) hatu.okS hrecs
  obtain ⟨B, G3, rfl, -, w1, c1⟩ := w.detach hi hatu hrecs hc hq hg e2 e3.next e3.high e4
  obtain ⟨n1, -, n3⟩ := np.group (by omega) hg
  have hB : B = [] := n3 (q, B) (by simp)
  subst hB
  have hcu : u ≠ c := by
    rintro rfl
    have := w.disj i (by omega) (i + 1) (by omega) u hatc.mem hatu.mem
    omega
  have hqu : u ≠ q := by
    rintro rfl
    have := w.disj i (by omega) (i + 1) (by omega) u hatq.mem hatu.mem
    omega
  have hnd := w.nodup (i := i) (by omega)
  have hfl : flat (gr i) = flat G1 ++ c :: q :: flat G3 := by rw [hg]; simp
  rw [hfl, List.nodup_append] at hnd
  have hcq : c ≠ q := by
    rintro rfl
    simp at hnd
  have hatc1 : At cfg { s with heap := upd s.heap u un' } (Function.update gr i (G1 ++ (c, [] ++ [q]) :: G3))
      i c cn lo' := by
    refine hatc.transfer w1 (by omega) ?_ (fun x _ => highOf_upd hatu.heap e3.high x) ?_
    · rw [Function.update_self, hfl]; simp
    · dsimp only; rw [upd_other _ hcu.symm]; exact hatc.heap
  obtain ⟨w2, c2⟩ := w1.mergePages (i := i) (by omega) (g := (c, [q])) (g' := (c, [])) (R1 := []) (R2 := [])
    (p := c) (r := q) (G1 := G1) (G2 := G3) (m := m) (rn := qn)
    (by rw [Function.update_self]; rfl) rfl rfl hatc1
    (by dsimp only; rw [upd_other _ hqu.symm]; exact hqn)
    (by
      intro nx p1 p2
      refine ⟨m2.ok, ?_⟩
      intro hh
      have hk : m.isInner = cn.isInner := by rw [m2.ok.kind, hatc.ok.kind]
      have hk' : m.isInner = qn.isInner := by rw [m2.ok.kind, hatq.ok.kind]
      rw [m2.next (by rwa [hasNext_kind hk] at hh)]
      exact p2.2 (by rwa [hasNext_kind hk'] at hh))
    m2.high (fun h0 => m2.slots (by simp; omega)) (fun _ => m2.pairs)
  rw [Function.update_idem] at w2 c2
  have hheap : del (upd (upd s.heap u un') c m) q = del (upd (upd s.heap c m) u un') q := by
    congr 1
    funext x
    by_cases h1 : x = c
    · subst h1; rw [upd_same, upd_other _ hcu.symm, upd_same]
    · by_cases h2 : x = u
      · subst h2; rw [upd_same, upd_other _ h1, upd_same]
      · rw [upd_other _ h1, upd_other _ h2, upd_other _ h2, upd_other _ h1]
  dsimp only at w2 c2
  rw [hheap] at w2 c2
  refine ⟨m, un', _, m1, e1, hcq, hcu, hqu, e3, m2, ⟨w2, ?_, by rw [c2, c1], ?_⟩,
    fun j hj => Function.update_of_ne hj _ _, ⟨G3, rfl, Function.update_self ..⟩, e2⟩
  · refine NoPend.update np ?_
    intro x hx
    simp only [List.mem_append, List.mem_cons] at hx
    rcases hx with hx | rfl | hx
    · exact n1 x hx
    · rfl
    · exact n3 x (by simp [hx])
  · have := w2.at_mk (i := i) (by omega) (A := flat G1) (B := flat G3) (p := c) (n := m)
      (by rw [Function.update_self]; simp)
      (by dsimp only; rw [del_other _ hcq, upd_other _ hcu.symm]; simp)
    dsimp only at this
    rw [endB_congr (h := s.heap), ← At.lo_endB w (by omega) hatc hfl] at this
    · exact this
    · intro x hx
      have hxi : x ∈ flat (gr i) := by rw [hg]; simp [hx]
      have h1 : x ≠ u := by
        rintro rfl
        have := w.disj i (by omega) (i + 1) (by omega) x hxi hatu.mem
        omega
      have h2 : x ≠ q := by
        rintro rfl
        exact hnd.2.2 x hx x (by simp) rfl
      have h3 : x ≠ c := by
        rintro rfl
        exact hnd.2.2 x hx x (by simp) rfl
      simp only [highOf, upd_other _ h1, del_other _ h2, upd_other _ h3]

/-- Split the root and put a new root on top. -/
theorem WF.splitRoot (hr : Roomy cfg L) (w : WF cfg s H gr) (np : NoPend H gr)
    {n : Node K V} (hat : At cfg s gr H s.root n .bot)
    {q p : Ptr} (hq : s.heap q = none) (hp : s.heap p = none) (hpq : p ≠ q) {fresh' : Ptr}
    (hf : s.fresh ≤ fresh') (hqf : q < fresh') (hpf : p < fresh')
    {l rn : Node K V} {sep : K} (hs : SplitPost cfg L (decide (H ≠ 0)) .bot n q l rn sep) :
    ∃ rt gr', Node.newRoot cfg (some sep) s.root q = .ok rt ∧
      (let s' : St K V := ⟨upd (upd (upd s.heap s.root l) q rn) p rt, fresh', p⟩
       WF cfg s' (H + 1) gr' ∧ NoPend (H + 1) gr' ∧ contents s' gr' = contents s gr ∧ Room cfg L rt ∧
       At cfg s' gr' H s.root l .bot ∧ At cfg s' gr' H q rn (.key sep)) ∧
      gr' H = [(s.root, []), (q, [])] ∧ gr' (H + 1) = [(p, [])] ∧ (∀ j < H, gr' j = gr j) := by
  obtain ⟨run, hrun⟩ := w.top
  have : run = [] := np H (le_refl _) (s.root, run) (by rw [hrun]; simp)
  subst this
  obtain ⟨w1, c1⟩ := w.halfSplit (i := H) (le_refl _) (g := (s.root, [])) (g' := (s.root, [q])) (R1 := [])
    (R2 := []) (p := s.root) (G1 := []) (G2 := []) (by rw [hrun]; rfl) rfl rfl hat hq hf hqf
    (hs.pages rfl hat.ok.kind) hs.rhigh
    (fun h0 => hs.slots (by simp; omega)) (fun _ => hs.pairs)
  obtain ⟨rt, r1, r2, r3, r4, r5, r6⟩ := newRoot_ok (L := L) (V := V) hr sep s.root q
  have hpr : p ≠ s.root := by rintro rfl; rw [hat.heap] at hp; cases hp
  have hqr : q ≠ s.root := by rintro rfl; rw [hat.heap] at hq; cases hq
  obtain ⟨w2, c2⟩ := w1.growRoot (A := []) (B := []) (q := q) (p := p) (k := sep) (n := rt) (fresh' := fresh')
    (by rw [Function.update_self]; rfl)
    (by
      rw [lastOf_nil]
      simp only [highOf, upd_other _ hqr.symm]
      simp [hs.lhigh])
    (by dsimp only; rw [upd_other _ hpq, upd_other _ hpr]; exact hp) (le_refl _) hpf
    ⟨by simpa using r2, fun _ => r4⟩ r3 r5
  dsimp only at w2 c2
  generalize hgr : Function.update (Function.update (Function.update gr H ([] ++ (s.root, [q]) :: [])) (H + 1)
    [(p, [])]) H [(s.root, []), (q, [])] = gr' at w2 c2
  have hH : gr' H = [(s.root, []), (q, [])] := by subst hgr; rw [Function.update_self]
  refine ⟨rt, gr', r1, ⟨w2, ?_, by rw [c2, c1], r6, ?_, ?_⟩, hH, ?_, ?_⟩
  · intro j hj g hg
    subst hgr
    by_cases h1 : j = H
    · subst h1
      rw [Function.update_self] at hg
      simp at hg
      rcases hg with rfl | rfl <;> rfl
    · rw [Function.update_of_ne h1] at hg
      by_cases h2 : j = H + 1
      · subst h2
        rw [Function.update_self] at hg
        simp at hg
        rw [hg]
      · rw [Function.update_of_ne h2, Function.update_of_ne h1] at hg
        exact np j (by omega) g hg
  · have := w2.at_mk (i := H) (by omega) (A := []) (B := [q]) (p := s.root) (n := l)
      (by rw [hH]; simp) (by dsimp only; rw [upd_other _ hpr.symm, upd_other _ hqr.symm]; simp)
    exact this
  · have := w2.at_mk (i := H) (by omega) (A := [s.root]) (B := []) (p := q) (n := rn)
      (by rw [hH]; simp) (by dsimp only; rw [upd_other _ hpq.symm]; simp)
    dsimp only at this
    rw [show [s.root] = [] ++ [s.root] from rfl, endB_concat] at this
    have e5 : highOf (upd (upd (upd s.heap s.root l) q rn) p rt) s.root = some sep := by
      simp only [highOf, upd_other _ hpr.symm, upd_other _ hqr.symm]
      simp [hs.lhigh]
    rw [e5] at this
    exact this
  · subst hgr
    rw [Function.update_of_ne (by omega), Function.update_self]
  · intro j hj
    subst hgr
    rw [Function.update_of_ne (by omega), Function.update_of_ne (by omega), Function.update_of_ne (by omega)]

end wf
end BT
