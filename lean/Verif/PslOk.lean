import Verif.BlinkMerge
import Verif.OmlOk
import Verif.ScanOk

/-!
# PSL and OSL refine the map specification (single thread)
-/

set_option linter.unusedSectionVars false

namespace BT
variable {K V : Type} [LinearOrder K]

section wf
variable {cfg : Cfg K} {L : Nat} {s : St K V} {H : Nat} {gr : Nat → List Grp}

/-- The range of a child lies within that of its parent. -/
theorem NodeOk.child_le {lo : Bd K} {n : Node K V} (h : NodeOk cfg true lo n) {T D : List (Rec K V)} {r : Rec K V}
    (hrecs : n.recs = T ++ r :: D) :
    lo.le (if T = [] then lo else hiB r.key) ∧ (hiB (hdKey D n.high)).le (hiB n.high) := by
  constructor
  · by_cases hT : T = []
    · rw [if_pos hT]; exact Bd.le_refl' _
    · rw [if_neg hT]
      obtain ⟨a, ha, hlt, -⟩ := h.inner.keyed r (by
        rw [hrecs]
        cases T with
        | nil => exact absurd rfl hT
        | cons t T => simp)
      rw [ha]
      exact Or.inr hlt
  · cases D with
    | nil => exact Bd.le_refl' _
    | cons d D =>
      obtain ⟨a, ha, -, hlt⟩ := h.inner.keyed d (by
        rw [hrecs]
        cases T with
        | nil => simp
        | cons t T => simp)
      simp only [hdKey, ha]
      exact Or.inr (Bd.gtKey_iff.1 hlt)

/-- One step down while recording the path. -/
theorem Path.push (g : Good cfg s H gr) {i : Nat} (hi : i < H) {u : Ptr} {un : Node K V} {lo : Bd K} {k : K}
    {st : List Ptr} (hat : At cfg s gr (i + 1) u un lo) (hlo : lo.leKey k) (hhi : (hiB un.high).gtKey k)
    (hp : Path cfg s gr H (i + 1 + 1) lo (hiB un.high) st) :
    ∃ rc pos c cn lo', un.searchRecord k = .ok (rc, pos) ∧ un.getChild pos = .ok c ∧
      At cfg s gr i c cn lo' ∧ lo'.leKey k ∧ (hiB cn.high).gtKey k ∧
      Path cfg s gr H (i + 1) lo' (hiB cn.high) (u :: st) := by
  obtain ⟨T, r, D, rc, c, h1, h2, h3, h4, h5, h6, h7, h8⟩ := hat.okS.search_inner k hhi
  obtain ⟨G1, G2, cn, lo', g1, g2, g3, g4, g5, g6⟩ := g.wf.child g.np hi hat hlo h1 h7 h6
  obtain ⟨l1, l2⟩ := hat.okS.child_le h1
  rw [toPtr_of h3] at g2
  refine ⟨rc, _, c, cn, lo', h2, h4, g2, g4, g5, by omega, un, lo, hat, ?_, ?_, hp⟩
  · rw [g6]; exact l1
  · rw [g3]; exact l2

theorem Psl.descendForRead_ok (g : Good cfg s H gr) (k : K) :
    ∀ (i fuel : Nat), i + 1 ≤ fuel → ∀ (p : Ptr) (n : Node K V) (lo : Bd K), i ≤ H → At cfg s gr i p n lo →
      lo.leKey k → (hiB n.high).gtKey k →
    ∃ leaf n' lo', Psl.descendForRead k fuel p s = .ok (leaf, s) ∧ At cfg s gr 0 leaf n' lo' ∧ lo'.leKey k ∧
      (hiB n'.high).gtKey k := by
  intro i
  induction i with
  | zero =>
    intro fuel hf p n lo _ hat h1 h2
    obtain ⟨f, rfl⟩ : ∃ f, fuel = f + 1 := ⟨fuel - 1, by omega⟩
    refine ⟨p, n, lo, ?_, hat, h1, h2⟩
    unfold Psl.descendForRead
    rw [M.bind_ok (checkKeyRange_ok hat.heap hat.ok.notRemoved h2 (by omega)), M.bind_ok (M.load_ok hat.heap)]
    simp [hat.ok0.kind]
  | succ i ih =>
    intro fuel hf p n lo hle hat h1 h2
    obtain ⟨f, rfl⟩ : ∃ f, fuel = f + 1 := ⟨fuel - 1, by omega⟩
    obtain ⟨T, r, D, rc, c, e1, e2, e3, e4, e5, e6, e7, e8⟩ := hat.okS.search_inner k h2
    obtain ⟨G1, G2, cn, lo', g1, g2, g3, g4, g5, g6⟩ := g.wf.child g.np (by omega) hat h1 e1 e7 e6
    rw [toPtr_of e3] at g2
    obtain ⟨leaf, n', lo'', q1, q2⟩ := ih f (by omega) c cn lo' (by omega) g2 g4 g5
    refine ⟨leaf, n', lo'', ?_, q2⟩
    unfold Psl.descendForRead
    rw [M.bind_ok (checkKeyRange_ok hat.heap hat.ok.notRemoved h2 (by omega)), M.bind_ok (M.load_ok hat.heap),
      if_pos hat.okS.kind, M.bind_ok (M.lift_of _ e2)]
    dsimp only
    rw [M.bind_ok (M.lift_of _ e4)]
    exact q1

theorem Psl.descendForWrite_ok (g : Good cfg s H gr) (k : K) :
    ∀ (i fuel : Nat), i + 1 ≤ fuel → ∀ (st : List Ptr) (p : Ptr) (n : Node K V) (lo : Bd K), i ≤ H →
      At cfg s gr i p n lo → lo.leKey k → (hiB n.high).gtKey k → Path cfg s gr H (i + 1) lo (hiB n.high) st →
    ∃ leaf st' n' lo', Psl.descendForWrite k fuel st p s = .ok (leaf :: st', s) ∧ At cfg s gr 0 leaf n' lo' ∧
      lo'.leKey k ∧ (hiB n'.high).gtKey k ∧ Path cfg s gr H 1 lo' (hiB n'.high) st' := by
  intro i
  induction i with
  | zero =>
    intro fuel hf st p n lo _ hat h1 h2 hp
    obtain ⟨f, rfl⟩ : ∃ f, fuel = f + 1 := ⟨fuel - 1, by omega⟩
    refine ⟨p, st, n, lo, ?_, hat, h1, h2, hp⟩
    unfold Psl.descendForWrite
    rw [M.bind_ok (M.load_ok hat.heap), M.bind_ok (checkKeyRange_ok hat.heap hat.ok.notRemoved h2 (by omega))]
    simp [hat.ok0.kind]
  | succ i ih =>
    intro fuel hf st p n lo hle hat h1 h2 hp
    obtain ⟨f, rfl⟩ : ∃ f, fuel = f + 1 := ⟨fuel - 1, by omega⟩
    obtain ⟨rc, pos, c, cn, lo', e1, e2, e3, e4, e5, e6⟩ := Path.push g (by omega) hat h1 h2 hp
    obtain ⟨leaf, st', n', lo'', q1, q2⟩ := ih f (by omega) (p :: st) c cn lo' (by omega) e3 e4 e5 e6
    refine ⟨leaf, st', n', lo'', ?_, q2⟩
    unfold Psl.descendForWrite
    rw [M.bind_ok (M.load_ok hat.heap), M.bind_ok (checkKeyRange_ok hat.heap hat.ok.notRemoved h2 (by omega)),
      if_pos hat.okS.kind, M.bind_ok (M.load_ok hat.heap), M.bind_ok (M.lift_of _ e1)]
    dsimp only
    rw [M.bind_ok (M.lift_of _ e2)]
    exact q1

theorem Psl.searchLeafForWrite_ok (g : Good cfg s H gr) (k : K) {fuel : Nat} (hf : H + 1 ≤ fuel) :
    ∃ leaf st n lo, Psl.searchLeafForWrite fuel k s = .ok ((leaf, st), s) ∧ At cfg s gr 0 leaf n lo ∧
      lo.leKey k ∧ (hiB n.high).gtKey k ∧ Path cfg s gr H 1 lo (hiB n.high) st := by
  obtain ⟨n, hat, hh⟩ := g.wf.root_at g.np
  obtain ⟨leaf, st, n', lo', q1, q2⟩ := Psl.descendForWrite_ok g k H fuel hf [] s.root n .bot (le_refl _) hat trivial
    (by rw [hh]; trivial) rfl
  refine ⟨leaf, st, n', lo', ?_, q2⟩
  unfold Psl.searchLeafForWrite
  rw [M.bind_ok (a := s.root) (s' := s) rfl, M.bind_ok q1]
  rfl

theorem Osl.descend_ok (g : Good cfg s H gr) (k : K) :
    ∀ (i fuel : Nat), i + 1 ≤ fuel → ∀ (p : Ptr) (n : Node K V) (lo : Bd K), i ≤ H → At cfg s gr i p n lo →
      lo.leKey k → (hiB n.high).gtKey k →
    ∃ leaf n' lo', Osl.descend k fuel p s = .ok (leaf, s) ∧ At cfg s gr 0 leaf n' lo' ∧ lo'.leKey k ∧
      (hiB n'.high).gtKey k := by
  intro i
  induction i with
  | zero =>
    intro fuel hf p n lo _ hat h1 h2
    obtain ⟨f, rfl⟩ : ∃ f, fuel = f + 1 := ⟨fuel - 1, by omega⟩
    refine ⟨p, n, lo, ?_, hat, h1, h2⟩
    unfold Osl.descend
    rw [M.bind_ok (M.load_ok hat.heap)]
    simp [hat.ok0.kind]
  | succ i ih =>
    intro fuel hf p n lo hle hat h1 h2
    obtain ⟨f, rfl⟩ : ∃ f, fuel = f + 1 := ⟨fuel - 1, by omega⟩
    obtain ⟨T, r, D, rc, c, e1, e2, e3, e4, e5, e6, e7, e8⟩ := hat.okS.search_inner k h2
    obtain ⟨G1, G2, cn, lo', g1, g2, g3, g4, g5, g6⟩ := g.wf.child g.np (by omega) hat h1 e1 e7 e6
    rw [toPtr_of e3] at g2
    obtain ⟨leaf, n', lo'', q1, q2⟩ := ih f (by omega) c cn lo' (by omega) g2 g4 g5
    refine ⟨leaf, n', lo'', ?_, q2⟩
    unfold Osl.descend
    rw [M.bind_ok (M.load_ok hat.heap), if_pos hat.okS.kind,
      M.bind_ok (checkKeyRange_ok hat.heap hat.ok.notRemoved h2 (by omega)), M.bind_ok (M.load_ok hat.heap),
      M.bind_ok (M.lift_of _ e2)]
    dsimp only
    rw [M.bind_ok (M.lift_of _ e4)]
    exact q1

theorem Osl.descendForWrite_ok (g : Good cfg s H gr) (k : K) :
    ∀ (i fuel : Nat), i + 1 ≤ fuel → ∀ (st : List Ptr) (p : Ptr) (n : Node K V) (lo : Bd K), i ≤ H →
      At cfg s gr i p n lo → lo.leKey k → (hiB n.high).gtKey k → Path cfg s gr H (i + 1) lo (hiB n.high) st →
    ∃ leaf st' n' lo', Osl.descendForWrite k fuel st p s = .ok ((leaf, st'), s) ∧ At cfg s gr 0 leaf n' lo' ∧
      lo'.leKey k ∧ (hiB n'.high).gtKey k ∧ Path cfg s gr H 1 lo' (hiB n'.high) st' := by
  intro i
  induction i with
  | zero =>
    intro fuel hf st p n lo _ hat h1 h2 hp
    obtain ⟨f, rfl⟩ : ∃ f, fuel = f + 1 := ⟨fuel - 1, by omega⟩
    refine ⟨p, st, n, lo, ?_, hat, h1, h2, hp⟩
    unfold Osl.descendForWrite
    rw [M.bind_ok (M.load_ok hat.heap)]
    simp [hat.ok0.kind]
  | succ i ih =>
    intro fuel hf st p n lo hle hat h1 h2 hp
    obtain ⟨f, rfl⟩ : ∃ f, fuel = f + 1 := ⟨fuel - 1, by omega⟩
    obtain ⟨rc, pos, c, cn, lo', e1, e2, e3, e4, e5, e6⟩ := Path.push g (by omega) hat h1 h2 hp
    obtain ⟨leaf, st', n', lo'', q1, q2⟩ := ih f (by omega) (p :: st) c cn lo' (by omega) e3 e4 e5 e6
    refine ⟨leaf, st', n', lo'', ?_, q2⟩
    unfold Osl.descendForWrite
    rw [M.bind_ok (M.load_ok hat.heap), if_pos hat.okS.kind,
      M.bind_ok (checkKeyRange_ok hat.heap hat.ok.notRemoved h2 (by omega)), M.bind_ok (M.load_ok hat.heap),
      M.bind_ok (M.lift_of _ e1)]
    dsimp only
    rw [M.bind_ok (M.lift_of _ e2)]
    exact q1

theorem Osl.searchLeafForWrite_ok (g : Good cfg s H gr) (k : K) {fuel : Nat} (hf : H + 1 ≤ fuel) :
    ∃ leaf st n lo, Osl.searchLeafForWrite fuel k s = .ok ((leaf, st), s) ∧ At cfg s gr 0 leaf n lo ∧
      lo.leKey k ∧ (hiB n.high).gtKey k ∧ Path cfg s gr H 1 lo (hiB n.high) st := by
  obtain ⟨n, hat, hh⟩ := g.wf.root_at g.np
  obtain ⟨leaf, st, n', lo', q1, q2, q3, q4, q5⟩ := Osl.descendForWrite_ok g k H fuel hf [] s.root n .bot (le_refl _)
    hat trivial (by rw [hh]; trivial) rfl
  refine ⟨leaf, st, n', lo', ?_, q2, q3, q4, q5⟩
  unfold Osl.searchLeafForWrite
  rw [M.bind_ok (a := s.root) (s' := s) rfl, M.bind_ok q1]
  dsimp only
  rw [M.bind_ok (checkKeyRange_ok q2.heap q2.ok.notRemoved q4 (by omega))]
  rfl

/-- Splitting a leaf, putting the record into one half, and completing the split. -/
theorem Blink.leafSplit_ok (hr : Roomy cfg L) (g : Good cfg s H gr) {leaf : Ptr} {n : Node K V} {lo : Bd K}
    {st : List Ptr} {k : K} (hat : At cfg s gr 0 leaf n lo) (hlo : lo.leKey k) (hhi : (hiB n.high).gtKey k)
    (hp : Path cfg s gr H 1 lo (hiB n.high) st) (hbig : Big cfg n)
    (habs : ∀ x ∈ pairs n.recs, x.1 ≠ k) :
    ∃ r s1 ln t tn lot sep, Blink.halfSplit cfg leaf s = .ok (r, s1) ∧ s1.heap leaf = some ln ∧
      Pml.validSplitNode leaf ln k r = t ∧ s1.heap t = some tn ∧
      NodeOk cfg false lot tn ∧ lot.leKey k ∧ (hiB tn.high).gtKey k ∧ Room cfg L tn ∧
      (∀ x ∈ tn.recs, x.del = false) ∧ (∀ x ∈ pairs tn.recs, x.1 ≠ k) ∧
      ∀ (tn' : Node K V) (v : V) (A B : List (K × V)), NodeOk cfg false lot tn' → SameFrame tn tn' →
        Around k (pairs tn.recs) A none B → Around k (pairs tn'.recs) A (some v) B →
        (Blink.separatorKey (decide (t = leaf)) tn' : M K V K) { s1 with heap := upd s1.heap t tn' }
          = .ok (sep, { s1 with heap := upd s1.heap t tn' }) ∧
        ∃ N s' H' gr', (∀ fuel, N ≤ fuel →
            Blink.completeSplit cfg fuel st none leaf r sep { s1 with heap := upd s1.heap t tn' } = .ok ((), s')) ∧
          Good cfg s' H' gr' ∧ mapOf (contents s' gr') = Spec.set (mapOf (contents s gr)) k (some v) := by
  have w := g.wf
  obtain ⟨G1, G2, hg⟩ := group_of_mem (fun x hx => g.np 0 (by omega) x hx) hat.mem
  obtain ⟨l, rn, sep, hs, d1, d2, d3, d4, d5⟩ := Blink.halfSplit_ok hr w (by omega) hat hbig hg
  have hne : leaf ≠ s.fresh := w.ne_fresh (Nat.zero_le _) hat.mem
  obtain ⟨t, tn, lot, ht, hatt, hlt, hht, hrt, hlv, hab, htsep⟩ : ∃ t tn lot,
      Pml.validSplitNode leaf l k s.fresh = t ∧
      At cfg ⟨upd (upd s.heap leaf l) s.fresh rn, s.fresh + 1, s.root⟩
        (Function.update gr 0 (G1 ++ (leaf, [s.fresh]) :: G2)) 0 t tn lot ∧
      lot.leKey k ∧ (hiB tn.high).gtKey k ∧ Room cfg L tn ∧ (∀ x ∈ tn.recs, x.del = false) ∧
      (∀ x ∈ pairs tn.recs, x.1 ≠ k) ∧
      ((t = leaf ∧ tn = l ∧ tn.high = some sep) ∨ (t = s.fresh ∧ tn = rn ∧ tn.low = some sep)) := by
    by_cases hk : l.compHighKey k = true
    · exact ⟨leaf, l, lo, by simp [Pml.validSplitNode, hk], d4, hlo, compHighKey_iff.1 hk, hs.roomL, hs.liveL,
        fun x hx => habs x (by rw [hs.pairs]; simp [hx]), Or.inl ⟨rfl, rfl, hs.lhigh⟩⟩
    · refine ⟨s.fresh, rn, .key sep, by simp [Pml.validSplitNode, hk], d5, ?_, ?_, hs.roomR, hs.liveR,
        fun x hx => habs x (by rw [hs.pairs]; simp [hx]), Or.inr ⟨rfl, rfl, hs.rlow⟩⟩
      · rw [compHighKey_iff, hs.lhigh] at hk
        simpa [hiB] using hk
      · rw [hs.rhigh]; exact hhi
  refine ⟨s.fresh, _, l, t, tn, lot, sep, d1, d4.heap, ht, hatt.heap, hatt.ok0, hlt, hht, hrt, hlv, hab, ?_⟩
  intro tn' v A B hok hf ha ha'
  dsimp only
  obtain ⟨A', B', b1, b2⟩ := d2.around hatt hlt hht ha
  have w2 := d2.replacePage (Nat.zero_le _) hatt (by simpa using hok) hf.next hf.high (by simp)
  have hset := b1.set (b2 tn' (some v) ha')
  refine ⟨?_, ?_⟩
  · rcases htsep with ⟨x1, x2, x3⟩ | ⟨x1, x2, x3⟩
    · simp [Blink.separatorKey, x1, hf.high, x3]
    · have : s.fresh ≠ leaf := hne.symm
      simp [Blink.separatorKey, x1, this, hf.low, x3]
  · have hat3 : ∀ {p : Ptr} {m : Node K V} {lom : Bd K},
        At cfg ⟨upd (upd s.heap leaf l) s.fresh rn, s.fresh + 1, s.root⟩
          (Function.update gr 0 (G1 ++ (leaf, [s.fresh]) :: G2)) 0 p m lom →
        ∃ m', At cfg ⟨upd (upd (upd s.heap leaf l) s.fresh rn) t tn', s.fresh + 1, s.root⟩
          (Function.update gr 0 (G1 ++ (leaf, [s.fresh]) :: G2)) 0 p m' lom ∧ m'.high = m.high := by
      intro p m lom hm
      have htr : ∀ m', upd (upd (upd s.heap leaf l) s.fresh rn) t tn' p = some m' →
          At cfg ⟨upd (upd (upd s.heap leaf l) s.fresh rn) t tn', s.fresh + 1, s.root⟩
          (Function.update gr 0 (G1 ++ (leaf, [s.fresh]) :: G2)) 0 p m' lom := by
        intro m' hm'
        exact hm.transfer w2 (Nat.zero_le _) rfl (fun x _ => highOf_upd hatt.heap hf.high x) hm'
      by_cases hpt : p = t
      · subst hpt
        have e : m = tn := by have := hm.heap; rw [hatt.heap] at this; cases this; rfl
        subst e
        exact ⟨tn', htr tn' (by simp), hf.high⟩
      · exact ⟨m, htr m (by rw [upd_other _ hpt]; exact hm.heap), rfl⟩
    have hhalf : Half cfg ⟨upd (upd (upd s.heap leaf l) s.fresh rn) t tn', s.fresh + 1, s.root⟩ H
        (Function.update gr 0 (G1 ++ (leaf, [s.fresh]) :: G2)) 0 leaf s.fresh sep lo (hiB n.high) := by
      refine ⟨w2, Nat.zero_le _, ⟨G1, G2, by rw [Function.update_self], ?_⟩, ?_, ?_⟩
      · rw [Function.update_idem]
        obtain ⟨y1, -, y3⟩ := g.np.group (Nat.zero_le _) hg
        refine NoPend.update g.np ?_
        intro x hx
        simp only [List.mem_append, List.mem_cons] at hx
        rcases hx with hx | rfl | rfl | hx
        · exact y1 x hx
        · rfl
        · rfl
        · exact y3 x hx
      · obtain ⟨m', x1, x2⟩ := hat3 d4
        exact ⟨m', x1, by rw [x2, hs.lhigh]⟩
      · obtain ⟨m', x1, x2⟩ := hat3 d5
        exact ⟨m', x1, by rw [x2, hs.rhigh]⟩
    have htu : t = leaf ∨ t = s.fresh := by rcases htsep with ⟨x, -⟩ | ⟨x, -⟩ <;> simp [x]
    have hpath : Path cfg ⟨upd (upd (upd s.heap leaf l) s.fresh rn) t tn', s.fresh + 1, s.root⟩
        (Function.update gr 0 (G1 ++ (leaf, [s.fresh]) :: G2)) H (0 + 1) lo (hiB n.high) st := by
      refine Path.transfer w2 hp ?_
      intro j hj1 hj2
      refine ⟨by rw [Function.update_of_ne (by omega)], ?_⟩
      intro p hp
      have y1 : p ≠ leaf := w.ne_level hj2 (Nat.zero_le _) (by omega) hp hat.mem
      have y2 : p ≠ s.fresh := w.ne_fresh hj2 hp
      have y3 : p ≠ t := by rcases htu with rfl | rfl <;> assumption
      dsimp only
      rw [upd_other _ y3, upd_other _ y2, upd_other _ y1]
    obtain ⟨N, s', H', gr', z1, z2, z3⟩ := Blink.completeSplit_ok hr st hhalf hpath
    refine ⟨N, s', H', gr', z1, z2, ?_⟩
    rw [z3, hset, d3]

/-- Writing back a leaf whose record for `k` changed. -/
theorem Good.commit (g : Good cfg s H gr) {k : K} {p : Ptr} {n n' : Node K V} {lo : Bd K} {A B : List (K × V)}
    {C : Option V} (hat : At cfg s gr 0 p n lo) (hlo : lo.leKey k) (hhi : (hiB n.high).gtKey k)
    (ha : Around k (pairs n.recs) A C B) (hok : NodeOk cfg false lo n') (hf : SameFrame n n') :
    Good cfg { s with heap := upd s.heap p n' } H gr ∧ mapOf (contents s gr) k = C ∧
    (∀ C', Around k (pairs n'.recs) A C' B →
      mapOf (contents { s with heap := upd s.heap p n' } gr) = Spec.set (mapOf (contents s gr)) k C') ∧
    At cfg { s with heap := upd s.heap p n' } gr 0 p n' lo ∧
    ∀ {st hi}, Path cfg s gr H 1 lo hi st → Path cfg { s with heap := upd s.heap p n' } gr H 1 lo hi st := by
  obtain ⟨A', B', h1, h2⟩ := g.wf.around hat hlo hhi ha
  have w' := g.wf.replacePage (Nat.zero_le _) hat (by simpa using hok) hf.next hf.high (by simp)
  refine ⟨⟨w', g.np⟩, h1.map, fun C' ha' => h1.set (h2 n' C' ha'), ?_, ?_⟩
  · exact hat.transfer w' (Nat.zero_le _) rfl (fun q _ => highOf_upd hat.heap hf.high q) (by simp)
  · intro st hi hp
    refine hp.transfer w' ?_
    intro j hj1 hj2
    refine ⟨rfl, ?_⟩
    intro q hq
    have y1 : q ≠ p := g.wf.ne_level hj2 (Nat.zero_le _) (by omega) hq hat.mem
    dsimp only
    rw [upd_other _ y1]

theorem Around.none_ne {k : K} {l A B : List (K × V)} (h : Around k l A none B) : ∀ x ∈ l, x.1 ≠ k := by
  intro x hx
  have he := h.eq
  simp at he
  rw [he] at hx
  rcases List.mem_append.1 hx with hx | hx
  · exact ne_of_lt (h.lo x hx)
  · exact ne_of_gt (h.hi x hx)

theorem Psl.read_ok (g : Good cfg s H gr) (k : K) {fuel : Nat} (hf : H + 1 ≤ fuel) :
    Psl.read fuel k s = .ok (mapOf (contents s gr) k, s) := by
  obtain ⟨n, hat, hh⟩ := g.wf.root_at g.np
  obtain ⟨leaf, n', lo', q1, q2, q3, q4⟩ := Psl.descendForRead_ok g k H fuel hf s.root n .bot (le_refl _) hat trivial
    (by rw [hh]; trivial)
  obtain ⟨A, C, B, a1, a2⟩ := leafRead_ok q2.ok0 k
  obtain ⟨A', B', b1, -⟩ := g.wf.around q2 q3 q4 a1
  unfold Psl.read
  rw [M.bind_ok (a := s.root) (s' := s) rfl, M.bind_ok q1, M.bind_ok (M.load_ok q2.heap), M.lift_of _ a2, b1.map]

theorem Osl.read_ok (g : Good cfg s H gr) (k : K) {fuel : Nat} (hf : H + 1 ≤ fuel) :
    Osl.read fuel k s = .ok (mapOf (contents s gr) k, s) := by
  obtain ⟨n, hat, hh⟩ := g.wf.root_at g.np
  obtain ⟨leaf, n', lo', q1, q2, q3, q4⟩ := Osl.descend_ok g k H fuel hf s.root n .bot (le_refl _) hat trivial
    (by rw [hh]; trivial)
  obtain ⟨A, C, B, a1, a2⟩ := leafRead_ok q2.ok0 k
  obtain ⟨A', B', b1, -⟩ := g.wf.around q2 q3 q4 a1
  unfold Osl.read
  rw [M.bind_ok (a := s.root) (s' := s) rfl, M.bind_ok q1,
    M.bind_ok (checkKeyRange_ok q2.heap q2.ok.notRemoved q4 (by omega)), M.bind_ok (M.load_ok q2.heap),
    M.lift_of _ a2, b1.map]

theorem SamePage.around {n n' : Node K V} (h : SamePage n n') {k : K} {A B : List (K × V)} {C : Option V}
    (ha : Around k (BT.pairs n.recs) A C B) : Around k (BT.pairs n'.recs) A C B := by rw [h.pairs]; exact ha

/-- After a split, the second node `Write` completes. -/
theorem Blink.leafWrite_room (hr : Roomy cfg L) {n : Node K V} {lo : Bd K} {k : K} (h : NodeOk cfg false lo n)
    (hlo : lo.leKey k) (hhi : (hiB n.high).gtKey k) (hroom : Room cfg L n) (v : V)
    (habs : ∀ x ∈ pairs n.recs, x.1 ≠ k) :
    ∃ n' A B, Blink.leafWrite cfg n k v = .ok (.completed, n') ∧ NodeOk cfg false lo n' ∧ SameFrame n n' ∧
      Around k (pairs n.recs) A none B ∧ Around k (pairs n'.recs) A (some v) B := by
  obtain ⟨rc2, n', f1, f2, f3⟩ := Blink.leafWrite_ok hr h hlo hhi v
  have hrc : rc2 = .completed := by
    obtain ⟨u1, u2⟩ := cleanUpIfNeeded_room hr hroom (leafLen_le hr k)
    rcases f3 with ⟨rfl, -⟩ | ⟨rfl, -⟩
    · exfalso
      simp only [Blink.leafWrite, u1, Res.ok_bind, u2] at f1
      cases hs : n.searchRecord k with
      | ub => rw [hs] at f1; simp at f1
      | fuel => rw [hs] at f1; simp at f1
      | ok x =>
        obtain ⟨rc, pos⟩ := x
        rw [hs] at f1
        simp only [Res.ok_bind] at f1
        split at f1
        · cases hi : n.insertRecord cfg k (.val v) pos <;> rw [hi] at f1 <;> simp at f1
        · split at f1
          · cases hi : n.reuseRecord cfg pos v <;> rw [hi] at f1 <;> simp at f1
          · cases hi : n.setPayload pos v <;> rw [hi] at f1 <;> simp at f1
    · rfl
  rcases f3 with ⟨rfl, -⟩ | ⟨-, h1, A', C', B', h2, h3⟩
  · cases hrc
  have hC : C' = none := by
    cases C' with
    | none => rfl
    | some c => exact (habs (k, c) (by rw [h2.eq]; simp) rfl).elim
  subst hC
  exact ⟨n', A', B', by rw [f1, hrc], f2, h1, h2, h3⟩

/-- After a split, the second node `Insert` completes. -/
theorem Blink.leafInsert_room (hr : Roomy cfg L) {n : Node K V} {lo : Bd K} {k : K} (h : NodeOk cfg false lo n)
    (hlo : lo.leKey k) (hhi : (hiB n.high).gtKey k) (hroom : Room cfg L n) (v : V)
    (habs : ∀ x ∈ pairs n.recs, x.1 ≠ k) :
    ∃ n' A B, Blink.leafInsert cfg n k v = .ok (.completed, n') ∧ NodeOk cfg false lo n' ∧ SameFrame n n' ∧
      Around k (pairs n.recs) A none B ∧ Around k (pairs n'.recs) A (some v) B := by
  obtain ⟨rc2, n', f1, f2, f3⟩ := Blink.leafInsert_ok hr h hlo hhi v
  have hrc : rc2 ≠ .needSplit := by
    obtain ⟨u1, u2⟩ := cleanUpIfNeeded_room hr hroom (leafLen_le hr k)
    rintro rfl
    simp only [Blink.leafInsert, u1, Res.ok_bind, u2] at f1
    cases hs : n.searchRecord k with
    | ub => rw [hs] at f1; simp at f1
    | fuel => rw [hs] at f1; simp at f1
    | ok x =>
      obtain ⟨rc, pos⟩ := x
      rw [hs] at f1
      simp only [Res.ok_bind] at f1
      split at f1
      · cases hi : n.insertRecord cfg k (.val v) pos <;> rw [hi] at f1 <;> simp at f1
      · split at f1
        · cases hi : n.reuseRecord cfg pos v <;> rw [hi] at f1 <;> simp at f1
        · simp at f1
  rcases f3 with ⟨h0, -⟩ | ⟨rfl, h1, A', B', h2, h3⟩ | ⟨-, -, A', C', B', h2, h3⟩
  · exact absurd h0 hrc
  · exact ⟨n', A', B', f1, f2, h1, h2, h3⟩
  · cases C' with
    | none => exact absurd rfl h3
    | some c => exact (habs (k, c) (by rw [h2.eq]; simp) rfl).elim

theorem Spec.set_set_eq (m : Map K V) (k : K) (a b : Option V) : Spec.set (Spec.set m k a) k b = Spec.set m k b := by
  funext j
  simp only [Spec.set]
  split <;> rfl

theorem Spec.set_self (m : Map K V) (k : K) : Spec.set m k (m k) = m := by
  funext j
  simp only [Spec.set]
  split
  · next h => rw [h]
  · rfl

theorem Psl.write_ok (hr : Roomy cfg L) (g : Good cfg s H gr) (k : K) (v : V) :
    ∃ fuel s' H' gr', Psl.write cfg fuel k v s = .ok (.success, s') ∧ Good cfg s' H' gr' ∧
      mapOf (contents s' gr') = Spec.set (mapOf (contents s gr)) k (some v) := by
  obtain ⟨leaf, st, n, lo, q1, q2, q3, q4, q5⟩ := Psl.searchLeafForWrite_ok g k (le_refl (H + 1))
  obtain ⟨rc, n1, e1, e2, e3⟩ := Blink.leafWrite_ok hr q2.ok0 q3 q4 v
  rcases e3 with ⟨rfl, x1, x2, A, B, x3⟩ | ⟨rfl, x1, A, C, B, x2, x3⟩
  · obtain ⟨g1, y1, y2, y3, y4⟩ := g.commit q2 q3 q4 x3 e2 x1.frame
    have hset1 := y2 none (x1.around x3)
    obtain ⟨r, s1, ln, t, tn, lot, sep, z1, z2, z3, z4, z5, z6, z7, z8, z9, z10, z11⟩ := Blink.leafSplit_ok hr g1 y3 q3
      (by rw [x1.frame.high]; exact q4) (by rw [x1.frame.high]; exact y4 q5) x2 (x1.around x3).none_ne
    obtain ⟨tn', A', B', f1, f2, h1, h2, h3⟩ := Blink.leafWrite_room hr z5 z6 z7 z8 v z10
    obtain ⟨k1, N, s', H', gr', k2, k3, k4⟩ := z11 tn' v A' B' f2 h1 h2 h3
    refine ⟨N + H + 1, s', H', gr', ?_, k3, by rw [k4, hset1, Spec.set_set_eq]⟩
    unfold Psl.write
    rw [M.bind_ok ((Psl.search_mono k _ (N + H + 1) (by omega)).le s _ q1)]
    dsimp only
    rw [M.bind_ok (M.load_ok q2.heap), M.bind_ok (M.lift_of _ e1)]
    dsimp only
    rw [M.bind_ok (M.store_ok q2.heap), if_pos rfl, M.bind_ok z1, M.bind_ok (M.load_ok z2)]
    rw [z3, M.bind_ok (M.load_ok z4), M.bind_ok (M.lift_of _ f1)]
    dsimp only
    rw [M.bind_ok (M.store_ok z4), M.bind_ok k1, M.bind_ok (k2 _ (by omega))]
    rfl
  · obtain ⟨g1, y1, y2, y3, y4⟩ := g.commit q2 q3 q4 x2 e2 x1
    refine ⟨H + 1, _, H, gr, ?_, g1, y2 _ x3⟩
    unfold Psl.write
    rw [M.bind_ok q1]
    dsimp only
    rw [M.bind_ok (M.load_ok q2.heap), M.bind_ok (M.lift_of _ e1)]
    dsimp only
    rw [M.bind_ok (M.store_ok q2.heap), if_neg (by simp)]
    rfl

theorem Psl.insert_ok (hr : Roomy cfg L) (g : Good cfg s H gr) (k : K) (v : V) :
    ∃ fuel rc s' H' gr', Psl.insert cfg fuel k v s = .ok (rc, s') ∧ Good cfg s' H' gr' ∧
    ((mapOf (contents s gr) k = none ∧ rc = .success ∧
        mapOf (contents s' gr') = Spec.set (mapOf (contents s gr)) k (some v)) ∨
     (mapOf (contents s gr) k ≠ none ∧ rc = .keyExist ∧ mapOf (contents s' gr') = mapOf (contents s gr))) := by
  obtain ⟨leaf, st, n, lo, q1, q2, q3, q4, q5⟩ := Psl.searchLeafForWrite_ok g k (le_refl (H + 1))
  obtain ⟨rc, n1, e1, e2, e3⟩ := Blink.leafInsert_ok hr q2.ok0 q3 q4 v
  rcases e3 with ⟨rfl, x1, x2, A, B, x3⟩ | ⟨rfl, x1, A, B, x2, x3⟩ | ⟨rfl, x1, A, C, B, x2, x3⟩
  · obtain ⟨g1, y1, y2, y3, y4⟩ := g.commit q2 q3 q4 x3 e2 x1.frame
    have hset1 := y2 none (x1.around x3)
    obtain ⟨r, s1, ln, t, tn, lot, sep, z1, z2, z3, z4, z5, z6, z7, z8, z9, z10, z11⟩ := Blink.leafSplit_ok hr g1 y3 q3
      (by rw [x1.frame.high]; exact q4) (by rw [x1.frame.high]; exact y4 q5) x2 (x1.around x3).none_ne
    obtain ⟨tn', A', B', f1, f2, h1, h2, h3⟩ := Blink.leafInsert_room hr z5 z6 z7 z8 v z10
    obtain ⟨k1, N, s', H', gr', k2, k3, k4⟩ := z11 tn' v A' B' f2 h1 h2 h3
    refine ⟨N + H + 1, .success, s', H', gr', ?_, k3, Or.inl ⟨y1, rfl, by rw [k4, hset1, Spec.set_set_eq]⟩⟩
    unfold Psl.insert
    rw [M.bind_ok ((Psl.search_mono k _ (N + H + 1) (by omega)).le s _ q1)]
    dsimp only
    rw [M.bind_ok (M.load_ok q2.heap), M.bind_ok (M.lift_of _ e1)]
    dsimp only
    rw [M.bind_ok (M.store_ok q2.heap), if_neg (by simp), if_pos rfl, M.bind_ok z1, M.bind_ok (M.load_ok z2)]
    rw [z3, M.bind_ok (M.load_ok z4), M.bind_ok (M.lift_of _ f1)]
    dsimp only
    rw [M.bind_ok (M.store_ok z4), M.bind_ok k1, M.bind_ok (k2 _ (by omega))]
    rfl
  · obtain ⟨g1, y1, y2, y3, y4⟩ := g.commit q2 q3 q4 x2 e2 x1
    refine ⟨H + 1, .success, _, H, gr, ?_, g1, Or.inl ⟨y1, rfl, y2 _ x3⟩⟩
    unfold Psl.insert
    rw [M.bind_ok q1]
    dsimp only
    rw [M.bind_ok (M.load_ok q2.heap), M.bind_ok (M.lift_of _ e1)]
    dsimp only
    rw [M.bind_ok (M.store_ok q2.heap), if_neg (by simp), if_neg (by simp)]
    rfl
  · obtain ⟨g1, y1, y2, y3, y4⟩ := g.commit q2 q3 q4 x2 e2 x1.frame
    refine ⟨H + 1, .keyExist, _, H, gr, ?_, g1, Or.inr ⟨by rw [y1]; exact x3, rfl, ?_⟩⟩
    · unfold Psl.insert
      rw [M.bind_ok q1]
      dsimp only
      rw [M.bind_ok (M.load_ok q2.heap), M.bind_ok (M.lift_of _ e1)]
      dsimp only
      rw [M.bind_ok (M.store_ok q2.heap), if_pos rfl]
      rfl
    · rw [y2 _ (x1.around x2), ← y1, Spec.set_self]

theorem Psl.update_ok (g : Good cfg s H gr) (k : K) (v : V) :
    ∃ fuel rc s' H' gr', Psl.update fuel k v s = .ok (rc, s') ∧ Good cfg s' H' gr' ∧
    ((mapOf (contents s gr) k ≠ none ∧ rc = .success ∧
        mapOf (contents s' gr') = Spec.set (mapOf (contents s gr)) k (some v)) ∨
     (mapOf (contents s gr) k = none ∧ rc = .keyNotExist ∧ mapOf (contents s' gr') = mapOf (contents s gr))) := by
  obtain ⟨leaf, st, n, lo, q1, q2, q3, q4, q5⟩ := Psl.searchLeafForWrite_ok g k (le_refl (H + 1))
  obtain ⟨n', rc, A, C, B, e1, e2, e3, e4, e5⟩ := leafUpdate_ok q2.ok0 k v
  obtain ⟨g1, y1, y2, y3, y4⟩ := g.commit q2 q3 q4 e4 e2 e3
  refine ⟨H + 1, rc, _, H, gr, ?_, g1, ?_⟩
  · unfold Psl.update
    rw [M.bind_ok q1]
    dsimp only
    rw [M.bind_ok (M.load_ok q2.heap), M.bind_ok (M.lift_of _ e1)]
    dsimp only
    rw [M.bind_ok (M.store_ok q2.heap)]
    rfl
  · rcases e5 with ⟨x1, x2, x3⟩ | ⟨x1, x2, x3⟩
    · exact Or.inl ⟨by rw [y1]; exact x1, x2, y2 _ x3⟩
    · subst x3
      exact Or.inr ⟨by rw [y1, x1], x2, by rw [upd_self q2.heap]⟩

theorem Psl.delete_ok (hr : Roomy cfg L) (hb : cfg.blink = true) (g : Good cfg s H gr) (k : K) :
    ∃ fuel rc s' H' gr', Psl.delete cfg fuel k s = .ok (rc, s') ∧ Good cfg s' H' gr' ∧
    ((mapOf (contents s gr) k ≠ none ∧ rc = .success ∧
        mapOf (contents s' gr') = Spec.set (mapOf (contents s gr)) k none) ∨
     (mapOf (contents s gr) k = none ∧ rc = .keyNotExist ∧ mapOf (contents s' gr') = mapOf (contents s gr))) := by
  obtain ⟨leaf, st, n, lo, q1, q2, q3, q4, q5⟩ := Psl.searchLeafForWrite_ok g k (le_refl (H + 1))
  obtain ⟨rc, n', e1, e2, e3, A, C, B, e4, e5⟩ := Blink.leafDelete_ok hr q2.ok0 k
  obtain ⟨g1, y1, y2, y3, y4⟩ := g.commit q2 q3 q4 e4 e2 e3
  rcases e5 with ⟨rfl | rfl, x1, x2⟩ | ⟨rfl, x1, rfl⟩
  · obtain ⟨N, s', H', gr', z1, z2, z3⟩ := Blink.mergeLoop_ok hr hb st g1 (Nat.zero_le _) y3
      (by rw [e3.high]; exact y4 q5)
    refine ⟨N + H + 1, .success, s', H', gr', ?_, z2, Or.inl ⟨by rw [y1]; exact x1, rfl, by rw [z3, y2 _ x2]⟩⟩
    unfold Psl.delete
    rw [M.bind_ok ((Psl.search_mono k _ (N + H + 1) (by omega)).le s _ q1)]
    dsimp only
    rw [M.bind_ok (M.load_ok q2.heap), M.bind_ok (M.lift_of _ e1)]
    dsimp only
    rw [M.bind_ok (M.store_ok q2.heap), if_neg (by simp), if_pos rfl, M.bind_ok (z1 _ (by omega))]
    rfl
  · refine ⟨H + 1, .success, _, H, gr, ?_, g1, Or.inl ⟨by rw [y1]; exact x1, rfl, y2 _ x2⟩⟩
    unfold Psl.delete
    rw [M.bind_ok q1]
    dsimp only
    rw [M.bind_ok (M.load_ok q2.heap), M.bind_ok (M.lift_of _ e1)]
    dsimp only
    rw [M.bind_ok (M.store_ok q2.heap), if_neg (by simp), if_neg (by simp)]
    rfl
  · refine ⟨H + 1, .keyNotExist, _, H, gr, ?_, g1, Or.inr ⟨by rw [y1, x1], rfl, by rw [upd_self q2.heap]⟩⟩
    unfold Psl.delete
    rw [M.bind_ok q1]
    dsimp only
    rw [M.bind_ok (M.load_ok q2.heap), M.bind_ok (M.lift_of _ e1)]
    dsimp only
    rw [M.bind_ok (M.store_ok q2.heap), if_pos rfl]
    rfl

theorem Psl.scan_ok (g : Good cfg s H gr) (b e : ScanKey K) {fuel : Nat} (hf : H + 1 ≤ fuel)
    (hf' : (flat (gr 0)).length + (contents s gr).length + 1 ≤ fuel) :
    ∃ l, Psl.scan fuel b e s = .ok (l, s) ∧ Spec.IsScan (mapOf (contents s gr)) b e l := by
  obtain ⟨n, hat, hh⟩ := g.wf.root_at g.np
  unfold Psl.scan
  rw [M.bind_ok (a := s.root) (s' := s) rfl]
  cases b with
  | none =>
    obtain ⟨leaf, n', q1, q2⟩ := Oml.descendLeft_ok g H fuel hf s.root n (le_refl _) hat
    dsimp only
    unfold Psl.descendLeft
    rw [M.bind_ok q1]
    exact scanFrom_ok g.wf q2 (b := none) rfl hf'
  | some kc =>
    obtain ⟨k, cl⟩ := kc
    obtain ⟨leaf, n', lo', q1, q2, q3, q4⟩ := Psl.descendForRead_ok g k H fuel hf s.root n .bot (le_refl _) hat
      trivial (by rw [hh]; trivial)
    dsimp only
    rw [M.bind_ok q1]
    exact scanFrom_ok g.wf q2 (b := some (k, cl)) ⟨q3, q4⟩ hf'

theorem Psl.callsOk (hr : Roomy cfg L) (hb : cfg.blink = true) : CallsOk (Psl.impl cfg : Impl K V) cfg where
  fuelOk := Psl.fuelOk cfg
  read := fun {_ H _} g k => ⟨H + 1, Psl.read_ok g k (le_refl _)⟩
  write := fun g k v => Psl.write_ok hr g k v
  insert := fun g k v => Psl.insert_ok hr g k v
  update := fun g k v => Psl.update_ok g k v
  delete := fun g k => Psl.delete_ok hr hb g k
  scan := fun {s H gr} g b e => ⟨max (H + 1) ((flat (gr 0)).length + (contents s gr).length + 1),
    Psl.scan_ok g b e (le_max_left _ _) (le_max_right _ _)⟩

/-! ## OSL -/

theorem Osl.splitAndInsert_ok (hr : Roomy cfg L) (g : Good cfg s H gr) {leaf : Ptr} {n : Node K V} {lo : Bd K}
    {st : List Ptr} {k : K} (hat : At cfg s gr 0 leaf n lo) (hlo : lo.leKey k) (hhi : (hiB n.high).gtKey k)
    (hp : Path cfg s gr H 1 lo (hiB n.high) st) (hbig : Big cfg n)
    (habs : ∀ x ∈ pairs n.recs, x.1 ≠ k) (v : V) :
    ∃ N s' H' gr', (∀ fuel, N ≤ fuel → Osl.splitAndInsert cfg fuel leaf st k v s = .ok (.success, s')) ∧
      Good cfg s' H' gr' ∧ mapOf (contents s' gr') = Spec.set (mapOf (contents s gr)) k (some v) := by
  obtain ⟨r, s1, ln, t, tn, lot, sep, z1, z2, z3, z4, z5, z6, z7, z8, z9, z10, z11⟩ := Blink.leafSplit_ok hr g hat hlo
    hhi hp hbig habs
  obtain ⟨tn', A', B', f1, f2, h1, h2, h3⟩ := Osl.insertInto_ok z5 z9 (z8.fitsOne_leaf hr k) z6 z7 v z10
  obtain ⟨k1, N, s', H', gr', k2, k3, k4⟩ := z11 tn' v A' B' f2 h1 h2 h3
  refine ⟨N, s', H', gr', ?_, k3, k4⟩
  intro fuel hf
  unfold Osl.splitAndInsert
  rw [M.bind_ok z1, M.bind_ok (M.load_ok z2)]
  rw [z3, M.bind_ok (M.load_ok z4), M.bind_ok (M.lift_of _ f1)]
  rw [M.bind_ok (M.store_ok z4), M.bind_ok k1, M.bind_ok (k2 _ (by omega))]
  rfl

theorem Osl.write_ok (hr : Roomy cfg L) (g : Good cfg s H gr) (k : K) (v : V) :
    ∃ fuel s' H' gr', Osl.write cfg fuel k v s = .ok (.success, s') ∧ Good cfg s' H' gr' ∧
      mapOf (contents s' gr') = Spec.set (mapOf (contents s gr)) k (some v) := by
  obtain ⟨leaf, st, n, lo, q1, q2, q3, q4, q5⟩ := Osl.searchLeafForWrite_ok g k (le_refl (H + 1))
  obtain ⟨rc, n1, e1, e2, e3⟩ := Blink.leafWrite_ok hr q2.ok0 q3 q4 v
  rcases e3 with ⟨rfl, x1, x2, A, B, x3⟩ | ⟨rfl, x1, A, C, B, x2, x3⟩
  · obtain ⟨g1, y1, y2, y3, y4⟩ := g.commit q2 q3 q4 x3 e2 x1.frame
    have hset1 := y2 none (x1.around x3)
    obtain ⟨N, s', H', gr', z1, z2, z3⟩ := Osl.splitAndInsert_ok hr g1 y3 q3
      (by rw [x1.frame.high]; exact q4) (by rw [x1.frame.high]; exact y4 q5) x2 (x1.around x3).none_ne v
    refine ⟨N + H + 1, s', H', gr', ?_, z2, by rw [z3, hset1, Spec.set_set_eq]⟩
    unfold Osl.write
    rw [M.bind_ok ((Osl.search_mono k _ (N + H + 1) (by omega)).le s _ q1)]
    dsimp only
    rw [M.bind_ok (M.load_ok q2.heap), M.bind_ok (M.lift_of _ e1)]
    dsimp only
    rw [M.bind_ok (M.store_ok q2.heap), if_pos rfl]
    exact z1 _ (by omega)
  · obtain ⟨g1, y1, y2, y3, y4⟩ := g.commit q2 q3 q4 x2 e2 x1
    refine ⟨H + 1, _, H, gr, ?_, g1, y2 _ x3⟩
    unfold Osl.write
    rw [M.bind_ok q1]
    dsimp only
    rw [M.bind_ok (M.load_ok q2.heap), M.bind_ok (M.lift_of _ e1)]
    dsimp only
    rw [M.bind_ok (M.store_ok q2.heap), if_neg (by simp)]
    rfl

theorem Osl.insert_ok (hr : Roomy cfg L) (g : Good cfg s H gr) (k : K) (v : V) :
    ∃ fuel rc s' H' gr', Osl.insert cfg fuel k v s = .ok (rc, s') ∧ Good cfg s' H' gr' ∧
    ((mapOf (contents s gr) k = none ∧ rc = .success ∧
        mapOf (contents s' gr') = Spec.set (mapOf (contents s gr)) k (some v)) ∨
     (mapOf (contents s gr) k ≠ none ∧ rc = .keyExist ∧ mapOf (contents s' gr') = mapOf (contents s gr))) := by
  obtain ⟨leaf, st, n, lo, q1, q2, q3, q4, q5⟩ := Osl.searchLeafForWrite_ok g k (le_refl (H + 1))
  obtain ⟨rc, n1, e1, e2, e3⟩ := Blink.leafInsert_ok hr q2.ok0 q3 q4 v
  rcases e3 with ⟨rfl, x1, x2, A, B, x3⟩ | ⟨rfl, x1, A, B, x2, x3⟩ | ⟨rfl, x1, A, C, B, x2, x3⟩
  · obtain ⟨g1, y1, y2, y3, y4⟩ := g.commit q2 q3 q4 x3 e2 x1.frame
    have hset1 := y2 none (x1.around x3)
    obtain ⟨N, s', H', gr', z1, z2, z3⟩ := Osl.splitAndInsert_ok hr g1 y3 q3
      (by rw [x1.frame.high]; exact q4) (by rw [x1.frame.high]; exact y4 q5) x2 (x1.around x3).none_ne v
    refine ⟨N + H + 1, .success, s', H', gr', ?_, z2, Or.inl ⟨y1, rfl, by rw [z3, hset1, Spec.set_set_eq]⟩⟩
    unfold Osl.insert
    rw [M.bind_ok ((Osl.search_mono k _ (N + H + 1) (by omega)).le s _ q1)]
    dsimp only
    rw [M.bind_ok (M.load_ok q2.heap), M.bind_ok (M.lift_of _ e1)]
    dsimp only
    rw [M.bind_ok (M.store_ok q2.heap), if_neg (by simp), if_pos rfl]
    exact z1 _ (by omega)
  · obtain ⟨g1, y1, y2, y3, y4⟩ := g.commit q2 q3 q4 x2 e2 x1
    refine ⟨H + 1, .success, _, H, gr, ?_, g1, Or.inl ⟨y1, rfl, y2 _ x3⟩⟩
    unfold Osl.insert
    rw [M.bind_ok q1]
    dsimp only
    rw [M.bind_ok (M.load_ok q2.heap), M.bind_ok (M.lift_of _ e1)]
    dsimp only
    rw [M.bind_ok (M.store_ok q2.heap), if_neg (by simp), if_neg (by simp)]
    rfl
  · obtain ⟨g1, y1, y2, y3, y4⟩ := g.commit q2 q3 q4 x2 e2 x1.frame
    refine ⟨H + 1, .keyExist, _, H, gr, ?_, g1, Or.inr ⟨by rw [y1]; exact x3, rfl, ?_⟩⟩
    · unfold Osl.insert
      rw [M.bind_ok q1]
      dsimp only
      rw [M.bind_ok (M.load_ok q2.heap), M.bind_ok (M.lift_of _ e1)]
      dsimp only
      rw [M.bind_ok (M.store_ok q2.heap), if_pos rfl]
      rfl
    · rw [y2 _ (x1.around x2), ← y1, Spec.set_self]

theorem Osl.update_ok (g : Good cfg s H gr) (k : K) (v : V) :
    ∃ fuel rc s' H' gr', Osl.update fuel k v s = .ok (rc, s') ∧ Good cfg s' H' gr' ∧
    ((mapOf (contents s gr) k ≠ none ∧ rc = .success ∧
        mapOf (contents s' gr') = Spec.set (mapOf (contents s gr)) k (some v)) ∨
     (mapOf (contents s gr) k = none ∧ rc = .keyNotExist ∧ mapOf (contents s' gr') = mapOf (contents s gr))) := by
  obtain ⟨n, hat, hh⟩ := g.wf.root_at g.np
  obtain ⟨leaf, n, lo, q1, q2, q3, q4⟩ := Osl.descend_ok g k H (H + 1) (le_refl _) s.root n .bot (le_refl _) hat trivial
    (by rw [hh]; trivial)
  obtain ⟨n', rc, A, C, B, e1, e2, e3, e4, e5⟩ := leafUpdate_ok q2.ok0 k v
  obtain ⟨g1, y1, y2, y3, y4⟩ := g.commit q2 q3 q4 e4 e2 e3
  refine ⟨H + 1, rc, _, H, gr, ?_, g1, ?_⟩
  · unfold Osl.update
    rw [M.bind_ok (a := s.root) (s' := s) rfl, M.bind_ok q1,
      M.bind_ok (checkKeyRange_ok q2.heap q2.ok.notRemoved q4 (by omega)),
      M.bind_ok (M.load_ok q2.heap), M.bind_ok (M.lift_of _ e1)]
    dsimp only
    rw [M.bind_ok (M.store_ok q2.heap)]
    rfl
  · rcases e5 with ⟨x1, x2, x3⟩ | ⟨x1, x2, x3⟩
    · exact Or.inl ⟨by rw [y1]; exact x1, x2, y2 _ x3⟩
    · subst x3
      exact Or.inr ⟨by rw [y1, x1], x2, by rw [upd_self q2.heap]⟩

theorem Osl.delete_ok (hr : Roomy cfg L) (hb : cfg.blink = true) (g : Good cfg s H gr) (k : K) :
    ∃ fuel rc s' H' gr', Osl.delete cfg fuel k s = .ok (rc, s') ∧ Good cfg s' H' gr' ∧
    ((mapOf (contents s gr) k ≠ none ∧ rc = .success ∧
        mapOf (contents s' gr') = Spec.set (mapOf (contents s gr)) k none) ∨
     (mapOf (contents s gr) k = none ∧ rc = .keyNotExist ∧ mapOf (contents s' gr') = mapOf (contents s gr))) := by
  obtain ⟨leaf, st, n, lo, q1, q2, q3, q4, q5⟩ := Osl.searchLeafForWrite_ok g k (le_refl (H + 1))
  obtain ⟨rc, n', e1, e2, e3, A, C, B, e4, e5⟩ := Blink.leafDelete_ok hr q2.ok0 k
  obtain ⟨g1, y1, y2, y3, y4⟩ := g.commit q2 q3 q4 e4 e2 e3
  rcases e5 with ⟨rfl | rfl, x1, x2⟩ | ⟨rfl, x1, rfl⟩
  · obtain ⟨N, s', H', gr', z1, z2, z3⟩ := Blink.mergeLoop_ok hr hb st g1 (Nat.zero_le _) y3
      (by rw [e3.high]; exact y4 q5)
    refine ⟨N + H + 1, .success, s', H', gr', ?_, z2, Or.inl ⟨by rw [y1]; exact x1, rfl, by rw [z3, y2 _ x2]⟩⟩
    unfold Osl.delete
    rw [M.bind_ok ((Osl.search_mono k _ (N + H + 1) (by omega)).le s _ q1)]
    dsimp only
    rw [M.bind_ok (M.load_ok q2.heap), M.bind_ok (M.lift_of _ e1)]
    dsimp only
    rw [M.bind_ok (M.store_ok q2.heap), if_neg (by simp), if_pos rfl, M.bind_ok (z1 _ (by omega))]
    rfl
  · refine ⟨H + 1, .success, _, H, gr, ?_, g1, Or.inl ⟨by rw [y1]; exact x1, rfl, y2 _ x2⟩⟩
    unfold Osl.delete
    rw [M.bind_ok q1]
    dsimp only
    rw [M.bind_ok (M.load_ok q2.heap), M.bind_ok (M.lift_of _ e1)]
    dsimp only
    rw [M.bind_ok (M.store_ok q2.heap), if_neg (by simp), if_neg (by simp)]
    rfl
  · refine ⟨H + 1, .keyNotExist, _, H, gr, ?_, g1, Or.inr ⟨by rw [y1, x1], rfl, by rw [upd_self q2.heap]⟩⟩
    unfold Osl.delete
    rw [M.bind_ok q1]
    dsimp only
    rw [M.bind_ok (M.load_ok q2.heap), M.bind_ok (M.lift_of _ e1)]
    dsimp only
    rw [M.bind_ok (M.store_ok q2.heap), if_pos rfl]
    rfl

theorem Osl.scan_ok (g : Good cfg s H gr) (key : Option K) (b e : ScanKey K) :
    ∃ fuel l, Osl.scan key fuel b e s = .ok (l, s) ∧ Spec.IsScan (mapOf (contents s gr)) b e l := by
  obtain ⟨n, hat, hh⟩ := g.wf.root_at g.np
  cases b with
  | none =>
    obtain ⟨leaf, n', q1, q2⟩ := Oml.descendLeft_ok g H (H + 1) (le_refl _) s.root n (le_refl _) hat
    obtain ⟨l, ⟨N, h1⟩, h2⟩ := oscanFrom_ok g.wf q2 key (b := none) (e := e) rfl
    refine ⟨N + H + 1, l, ?_, h2⟩
    unfold Osl.scan
    rw [M.bind_ok (a := s.root) (s' := s) rfl]
    dsimp only
    unfold Osl.descendLeft
    rw [M.bind_ok ((Oml.descendLeft_mono s.root _ (N + H + 1) (by omega)).le s _ q1)]
    exact h1 _ (by omega)
  | some kc =>
    obtain ⟨k, cl⟩ := kc
    obtain ⟨leaf, n', lo', q1, q2, q3, q4⟩ := Osl.descend_ok g k H (H + 1) (le_refl _) s.root n .bot
      (le_refl _) hat trivial (by rw [hh]; trivial)
    obtain ⟨l, ⟨N, h1⟩, h2⟩ := oscanFrom_ok g.wf q2 key (b := some (k, cl)) (e := e) ⟨q3, q4⟩
    refine ⟨N + H + 1, l, ?_, h2⟩
    unfold Osl.scan
    rw [M.bind_ok (a := s.root) (s' := s) rfl]
    dsimp only
    rw [M.bind_ok ((Osl.descend_mono k s.root _ (N + H + 1) (by omega)).le s _ q1)]
    exact h1 _ (by omega)

theorem Osl.callsOk (hr : Roomy cfg L) (hb : cfg.blink = true) (key : Option K) :
    CallsOk (Osl.impl cfg key : Impl K V) cfg where
  fuelOk := Osl.fuelOk cfg key
  read := fun {_ H _} g k => ⟨H + 1, Osl.read_ok g k (le_refl _)⟩
  write := fun g k v => Osl.write_ok hr g k v
  insert := fun g k v => Osl.insert_ok hr g k v
  update := fun g k v => Osl.update_ok g k v
  delete := fun g k => Osl.delete_ok hr hb g k
  scan := fun g b e => Osl.scan_ok g key b e

end wf
end BT
