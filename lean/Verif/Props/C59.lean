import Verif.Lemmas.TW6
/-!
# C59: the sequential 2-way FM refiner of initial partitioning

`SequentialTwoWayFmRefiner::refine` (sequential_twoway_fm_refiner.cpp:36-155) and the rounds of `refineCurrentPartition`
(initial_partitioning_data_container.h:311-316). `order` is the shuffled list of the free nodes and `xs` the sequence of results of `deleteMax`; both are arbitrary.
-/
namespace Verif
namespace TwoWay
open DFlow (set set_same set_other set_apply)

section
variable {ι : Type} [LinearOrder ι] {c : Cfg ι}

/-- imbalance of a partition -/
def imbOf (c : Cfg ι) (Φ : Assign) : ι := c.imb (c.H.blockWeight Φ 0) (c.H.blockWeight Φ 1)

/-- the state in which the loop of a call of `refine` starts -/
def startOf (c : Cfg ι) (s : St) (order : List Nat) : Loop ι := ⟨initSt c s order, [], c.H.cut s.Φ, imbOf c s.Φ, c.H.cut s.Φ, imbOf c s.Φ, 0⟩

/-- `v` is a free node that was not tried, it is a pin of a cut hyperedge and the other block is not full -/
def Candidate (c : Cfg ι) (Φ : Assign) (tried : List Nat) (v : Nat) : Prop :=
  v ∈ c.H.nodes ∧ c.fixed v = false ∧ v ∉ tried ∧ (∃ e ∈ c.H.edges, v ∈ c.H.pins e ∧ c.H.lam Φ e > 1) ∧
  ∃ b < 2, Φ v = some b ∧ c.H.blockWeight Φ (1 - b) < c.mx (1 - b)

/-- reduction of the cut if `v` changes its block -/
def cutGain (H : HG) (Φ : Assign) (v : Nat) : Int := H.cut Φ - H.cut (flip Φ v)

theorem flips_two {H : HG} {Φ : Assign} (hT : ∀ v ∈ H.nodes, Φ v = some 0 ∨ Φ v = some 1) {l : List Nat} (hl : l.Nodup) :
    ∀ v ∈ H.nodes, flips Φ l v = some 0 ∨ flips Φ l v = some 1 := by
  intro v hv
  rw [flips_apply l hl]
  by_cases h : v ∈ l
  · rw [if_pos h]
    rcases hT v hv with h | h <;> rw [h] <;> simp
  · rw [if_neg h]; exact hT v hv

/-- **C59**: one call of `refine`. -/
theorem C59_refine (hw : c.H.WF) (hnw : ∀ v ∈ c.H.nodes, 0 ≤ c.H.nw v) {s s' : St} (hT : ∀ v ∈ c.H.nodes, s.Φ v = some 0 ∨ s.Φ v = some 1)
    {order : List Nat} (ho : order.Perm (c.H.nodes.filter (fun v => !c.fixed v))) {xs : List (Nat × Nat × Int)} {q : Int} {im : ι} {improved : Bool}
    (h : refine c s (c.H.cut s.Φ) (imbOf c s.Φ) order xs = some (s', q, im, improved)) :
    -- the reported metrics are those of the resulting partition
    q = c.H.cut s'.Φ ∧ im = imbOf c s'.Φ ∧
    -- the result is a bipartition; fixed nodes keep their block
    (∀ v ∈ c.H.nodes, s'.Φ v = some 0 ∨ s'.Φ v = some 1) ∧ (∀ v, c.fixed v = true ∨ v ∉ c.H.nodes → s'.Φ v = s.Φ v) ∧
    -- `false` is returned for an unchanged partition, `true` for a better one
    (improved = false → s'.Φ = s.Φ) ∧
    (improved = true → c.H.cut s'.Φ < c.H.cut s.Φ ∨ (c.H.cut s'.Φ = c.H.cut s.Φ ∧ imbOf c s'.Φ < imbOf c s.Φ)) ∧
    -- no block becomes overloaded or more overloaded, and no block is emptied
    (∀ b < 2, c.H.blockWeight s'.Φ b ≤ max (c.H.blockWeight s.Φ b) (c.mx b)) ∧
    (improved = true → (∀ v ∈ c.H.nodes, 0 < c.H.nw v) → ∀ b < 2, 0 < c.H.blockWeight s'.Φ b) ∧
    -- every free node is tried at most once
    (xs.map Prod.fst).Nodup ∧ xs.length ≤ (c.H.nodes.filter (fun v => !c.fixed v)).length := by
  unfold refine at h
  cases hl : loop c ⟨initSt c s order, [], c.H.cut s.Φ, imbOf c s.Φ, c.H.cut s.Φ, imbOf c s.Φ, 0⟩ xs with
  | none => rw [hl] at h; exact absurd h (by simp)
  | some l =>
    rw [hl] at h
    injection h with h
    have L := loop_inv hw hnw xs (start_inv hw hT ho) hl
    rw [List.nil_append] at L
    have hm : ∀ v ∈ l.moves, v ∈ c.H.nodes ∧ c.fixed v = false := fun v hv => L.tmem v (L.sub v hv)
    have hΦ : s'.Φ = flips s.Φ (l.moves.take l.idx) := by
      have : s'.Φ = rollback l.s.Φ l.moves l.idx := by
        have := congrArg (fun x => x.1.Φ) h
        exact this.symm
      rw [this, rollback_eq, L.part]
      exact flips_back L.nodup (fun v hv => hT v (hm v hv).1) l.idx
    have hq : q = l.bestQ := (congrArg (fun x => x.2.1) h).symm
    have hi : im = l.bestI := (congrArg (fun x => x.2.2.1) h).symm
    have hb : improved = decide (0 < l.idx) := (congrArg (fun x => x.2.2.2) h).symm
    have hnd : (l.moves.take l.idx).Nodup := L.nodup.sublist (List.take_sublist _ _)
    refine ⟨?_, ?_, ?_, ?_, ?_, ?_, ?_, ?_, L.tnodup, ?_⟩
    · rw [hq, L.bestQ, hΦ]
    · rw [hi, L.bestI, hΦ]; rfl
    · rw [hΦ]; exact flips_two hT hnd
    · intro v hv
      rw [hΦ, flips_apply _ hnd, if_neg]
      intro hmem
      have := hm v (List.mem_of_mem_take hmem)
      rcases hv with hv | hv
      · rw [this.2] at hv; cases hv
      · exact hv this.1
    · intro hf
      rw [hb] at hf
      have : l.idx = 0 := by simpa using hf
      rw [hΦ, this]; rfl
    · intro hf
      rw [hb] at hf
      have hp : 0 < l.idx := by simpa using hf
      rcases L.better with h0 | h0
      · omega
      · rw [L.bestQ, L.bestI] at h0
        rw [hΦ]; exact h0
    · intro b hb; rw [hΦ]; exact L.balB b hb
    · intro hf hpos b hb2
      rw [hb] at hf
      have hp : 0 < l.idx := by simpa using hf
      rcases L.pos (Or.inr hpos) with h0 | h0
      · omega
      · rw [hΦ]; exact h0 b hb2
    · have : (xs.map Prod.fst).Subperm (c.H.nodes.filter (fun v => !c.fixed v)) :=
        List.subperm_of_subset L.tnodup (fun v hv => by
          have := L.tmem v hv
          rw [List.mem_filter]; exact ⟨this.1, by rw [this.2]; rfl⟩)
      simpa using this.length_le

theorem flip_put {Φ : Assign} {v b : Nat} (h : Φ v = some b) : flip Φ v = Φ.put v (1 - b) := by
  unfold flip; rw [h]

theorem cand_entry (hw : c.H.WF) {Φ : Assign} {tried : List Nat} {l : Loop ι} (L : LInv c Φ tried l) {v : Nat} (hv : Candidate c l.s.Φ tried v) :
    ∃ p < 2, l.s.Φ v = some (1 - p) ∧ l.s.en p = true ∧ l.s.pq p v = some (cutGain c.H l.s.Φ v) := by
  obtain ⟨h1, h2, h3, ⟨e, he, hpe, hlam⟩, b, hb, hΦ, hwt⟩ := hv
  have I := L.inv
  have hnm : l.s.vs v ≠ .moved := fun h => by
    rcases (L.tmv v h1).mp h with h | h
    · exact h3 h
    · rw [h2] at h; cases h
  have hnc : 0 < l.s.nc v := by
    rw [I.nc v h1]
    unfold ncut
    rw [List.countP_pos_iff]
    exact ⟨e, (hw.inc_iff v h1 e).mpr ⟨he, hpe⟩, by simpa using hlam⟩
  have ha := (I.vst v h1 hnm).mpr hnc
  have hb1 : 1 - (1 - b) = b := by omega
  have hy := I.pq.yes v (1 - b) h1 ha (by rw [hb1]; exact hΦ) (by omega)
  rw [hb1, gain_eq hw I.two h1 hΦ, ← flip_put hΦ] at hy
  refine ⟨1 - b, by omega, by rw [hb1]; exact hΦ, ?_, hy⟩
  rw [I.en (1 - b)]
  refine ⟨by omega, ?_, hwt⟩
  unfold nonempty
  rw [List.any_eq_true]
  exact ⟨v, h1, by rw [hy]; rfl⟩

theorem entry_cand (hw : c.H.WF) {Φ : Assign} {tried : List Nat} {l : Loop ι} (L : LInv c Φ tried l) {v p : Nat} {key : Int} (hp : l.s.en p = true)
    (hk : l.s.pq p v = some key) : Candidate c l.s.Φ tried v ∧ key = cutGain c.H l.s.Φ v ∧ l.s.Φ v = some (1 - p) := by
  have I := L.inv
  obtain ⟨h1, h2, h3, h4, h5⟩ := I.entry hk
  have hp1 : 1 - (1 - p) = p := by omega
  have hen := (I.en p).mp hp
  refine ⟨⟨h1, ?_, ?_, ?_, 1 - p, by omega, h3, by rw [hp1]; exact hen.2.2⟩, ?_, h3⟩
  · cases hf : c.fixed v with
    | false => rfl
    | true => have := I.fix v h1 hf; rw [h2] at this; cases this
  · intro ht
    have := (L.tmv v h1).mpr (Or.inl ht)
    rw [h2] at this; cases this
  · have hnc : 0 < l.s.nc v := (I.vst v h1 (by rw [h2]; simp)).mp h2
    rw [I.nc v h1] at hnc
    unfold ncut at hnc
    rw [List.countP_pos_iff] at hnc
    obtain ⟨e, he, hl⟩ := hnc
    have := (hw.inc_iff v h1 e).mp he
    exact ⟨e, this.1, this.2, by simpa using hl⟩
  · have := gain_eq hw I.two h1 h3
    rw [hp1] at this
    rw [h5, this, cutGain, flip_put h3, hp1]

/-- **C59**: in every iteration the node taken from the queue is a candidate, its key is the reduction of the cut, and no candidate has a larger reduction. -/
theorem C59_choice (hw : c.H.WF) (hnw : ∀ v ∈ c.H.nodes, 0 ≤ c.H.nw v) {s : St} (hT : ∀ v ∈ c.H.nodes, s.Φ v = some 0 ∨ s.Φ v = some 1)
    {order : List Nat} (ho : order.Perm (c.H.nodes.filter (fun v => !c.fixed v))) {xs : List (Nat × Nat × Int)} {l l' : Loop ι}
    (h : loop c (startOf c s order) xs = some l) {v b : Nat} {gain : Int} (hs : step c l (v, b, gain) = some l') :
    Candidate c l.s.Φ (xs.map Prod.fst) v ∧ l.s.Φ v = some (1 - b) ∧ gain = cutGain c.H l.s.Φ v ∧
    (∀ u, Candidate c l.s.Φ (xs.map Prod.fst) u → cutGain c.H l.s.Φ u ≤ gain) ∧
    -- the node is moved if and only if it fits into the block
    l'.s.Φ = (if c.H.blockWeight l.s.Φ b + c.H.nw v ≤ c.mx b then flip l.s.Φ v else l.s.Φ) := by
  have L := loop_inv hw hnw xs (start_inv hw hT ho) h
  rw [List.nil_append] at L
  have hmax : isMax c l.s v b gain = true := by
    cases hm : isMax c l.s v b gain with
    | true => rfl
    | false => unfold step at hs; dsimp only at hs; rw [hm] at hs; simp at hs
  obtain ⟨m1, m2, m3, m4, m5⟩ := isMax_iff.mp hmax
  obtain ⟨e1, e2, e3⟩ := entry_cand hw L m2 m4
  refine ⟨e1, e3, e2, fun u hu => ?_, ?_⟩
  · obtain ⟨p, hp, -, hen, hpq⟩ := cand_entry hw L hu
    exact m5 p hp hen u hu.1 _ hpq
  · have hP := pop_inv L.inv m4
    have hsrc : 1 - (1 - b) = b := by omega
    have hA := applyMove_inv hw hnw hP.1 m3 (src := 1 - b) (by rw [hP.2.1]; exact e3) (by rw [hP.2.2.1, set_same]) (by rw [hP.2.1]; exact hP.2.2.2)
    rw [hsrc, hP.2.1] at hA
    unfold step at hs
    dsimp only at hs
    rw [if_pos hmax, e3] at hs
    dsimp only at hs
    have hwt : wt c { pqRemove c l.s b v with vs := set (pqRemove c l.s b v).vs v VS.moved } b = c.H.blockWeight l.s.Φ b := by
      show c.H.blockWeight (popped c l.s v b).Φ b = _
      rw [hP.2.1]
    rw [hwt] at hs
    by_cases hfit : c.H.blockWeight l.s.Φ b + c.H.nw v ≤ c.mx b
    · rw [if_pos hfit]
      rw [if_pos hfit] at hs
      rw [flip_put e3, hsrc, ← hA.2.1]
      have : ∀ (P : Prop) [Decidable P] (x y : Loop ι), (if P then some x else some y) = some l' → x.s = y.s → l'.s = x.s := by
        intro P _ x y h hxy
        by_cases hP : P
        · rw [if_pos hP] at h; injection h with h; rw [h]
        · rw [if_neg hP] at h; injection h with h; rw [← h, hxy]
      rw [this _ _ _ hs rfl]; rfl
    · rw [if_neg hfit]
      rw [if_neg hfit] at hs
      injection hs with hs
      rw [← hs]; exact hP.2.1

theorem exists_max {α : Type} (f : α → Int) : ∀ (l : List α), l ≠ [] → ∃ x ∈ l, ∀ y ∈ l, f y ≤ f x
  | [], h => absurd rfl h
  | [a], _ => ⟨a, by simp, by simp⟩
  | a :: b :: l, _ => by
    obtain ⟨x, hx, hm⟩ := exists_max f (b :: l) (by simp)
    by_cases h : f a ≤ f x
    · exact ⟨x, List.mem_cons_of_mem _ hx, fun y hy => by rcases List.mem_cons.mp hy with rfl | hy; exacts [h, hm y hy]⟩
    · exact ⟨a, List.mem_cons_self, fun y hy => by
        rcases List.mem_cons.mp hy with rfl | hy
        · exact le_refl _
        · have := hm y hy; omega⟩

/-- **C59**: as long as there is a candidate the loop can continue; thus it ends only by the stopping rule or if there is no candidate. -/
theorem C59_continues (hw : c.H.WF) (hnw : ∀ v ∈ c.H.nodes, 0 ≤ c.H.nw v) {s : St} (hT : ∀ v ∈ c.H.nodes, s.Φ v = some 0 ∨ s.Φ v = some 1)
    {order : List Nat} (ho : order.Perm (c.H.nodes.filter (fun v => !c.fixed v))) {xs : List (Nat × Nat × Int)} {l : Loop ι}
    (h : loop c (startOf c s order) xs = some l) : (∃ x l', step c l x = some l') ↔ ∃ v, Candidate c l.s.Φ (xs.map Prod.fst) v := by
  constructor
  · rintro ⟨⟨v, b, g⟩, l', hs⟩
    exact ⟨v, (C59_choice hw hnw hT ho h hs).1⟩
  · rintro ⟨v, hv⟩
    have L := loop_inv hw hnw xs (start_inv hw hT ho) h
    rw [List.nil_append] at L
    classical
    have hmem : v ∈ c.H.nodes.filter (fun u => decide (Candidate c l.s.Φ (xs.map Prod.fst) u)) := by
      rw [List.mem_filter]; exact ⟨hv.1, by simpa using hv⟩
    obtain ⟨x, hx, hm⟩ := exists_max (cutGain c.H l.s.Φ) _ (List.ne_nil_of_mem hmem)
    have hxc : Candidate c l.s.Φ (xs.map Prod.fst) x := by simpa using (List.mem_filter.mp hx).2
    obtain ⟨p, hp, hΦ, hen, hpq⟩ := cand_entry hw L hxc
    have hmax : isMax c l.s x p (cutGain c.H l.s.Φ x) = true := by
      rw [isMax_iff]
      refine ⟨hp, hen, hxc.1, hpq, fun q hq hqe u hu k hk => ?_⟩
      obtain ⟨e1, e2, -⟩ := entry_cand hw L hqe hk
      rw [e2]
      exact hm u (List.mem_filter.mpr ⟨hu, by simpa using e1⟩)
    refine ⟨(x, p, cutGain c.H l.s.Φ x), ?_⟩
    unfold step
    dsimp only
    rw [if_pos hmax, hΦ]
    dsimp only
    repeat' first
      | exact ⟨_, rfl⟩
      | (rename_i hcontra; exact absurd hmax hcontra)
      | split

/-- **C59**: any number of rounds. The reported metrics are exact, lexicographically (cut, imbalance) not worse than before, the blocks do not become overloaded and the
fixed nodes keep their block. -/
theorem C59_rounds (hw : c.H.WF) (hnw : ∀ v ∈ c.H.nodes, 0 ≤ c.H.nw v) : ∀ (rs : List (List Nat × List (Nat × Nat × Int))) {s s' : St} {q : Int} {im : ι},
    (∀ v ∈ c.H.nodes, s.Φ v = some 0 ∨ s.Φ v = some 1) → (∀ r ∈ rs, r.1.Perm (c.H.nodes.filter (fun v => !c.fixed v))) →
    rounds c s (c.H.cut s.Φ) (imbOf c s.Φ) rs = some (s', q, im) →
    q = c.H.cut s'.Φ ∧ im = imbOf c s'.Φ ∧ (∀ v ∈ c.H.nodes, s'.Φ v = some 0 ∨ s'.Φ v = some 1) ∧
    (∀ v, c.fixed v = true ∨ v ∉ c.H.nodes → s'.Φ v = s.Φ v) ∧
    (s'.Φ = s.Φ ∨ c.H.cut s'.Φ < c.H.cut s.Φ ∨ (c.H.cut s'.Φ = c.H.cut s.Φ ∧ imbOf c s'.Φ < imbOf c s.Φ)) ∧
    (∀ b < 2, c.H.blockWeight s'.Φ b ≤ max (c.H.blockWeight s.Φ b) (c.mx b)) ∧
    (s'.Φ ≠ s.Φ → (∀ v ∈ c.H.nodes, 0 < c.H.nw v) → ∀ b < 2, 0 < c.H.blockWeight s'.Φ b)
  | [], s, s', q, im, hT, _, h => by
    injection h with h
    have h1 := congrArg Prod.fst h
    have h2 := congrArg (fun x => x.2.1) h
    have h3 := congrArg (fun x => x.2.2) h
    dsimp only at h1 h2 h3
    subst h1
    exact ⟨h2.symm, h3.symm, hT, fun _ _ => rfl, Or.inl rfl, fun b _ => le_max_left _ _, fun hne => absurd rfl hne⟩
  | r :: rs, s, s', q, im, hT, hr, h => by
    rw [rounds] at h
    cases hx : refine c s (c.H.cut s.Φ) (imbOf c s.Φ) r.1 r.2 with
    | none => rw [hx] at h; exact absurd h (by simp)
    | some y =>
      obtain ⟨s1, q1, im1, imp⟩ := y
      rw [hx] at h
      dsimp only at h
      obtain ⟨r1, r2, r3, r4, r5, r6, r7, r8, -, -⟩ := C59_refine hw hnw hT (hr r List.mem_cons_self) hx
      cases imp with
      | false =>
        rw [if_neg (by simp)] at h
        injection h with h
        have h1 := congrArg Prod.fst h
        have h2 := congrArg (fun x => x.2.1) h
        have h3 := congrArg (fun x => x.2.2) h
        dsimp only at h1 h2 h3
        subst h1 h2 h3
        exact ⟨r1, r2, r3, r4, Or.inl (r5 rfl), r7, fun hne => absurd (r5 rfl) hne⟩
      | true =>
        rw [if_pos rfl, r1, r2] at h
        obtain ⟨t1, t2, t3, t4, t5, t6, t7⟩ := C59_rounds hw hnw rs r3 (fun r' hr' => hr r' (List.mem_cons_of_mem _ hr')) h
        refine ⟨t1, t2, t3, fun v hv => (t4 v hv).trans (r4 v hv), Or.inr ?_, fun b hb => ?_, fun _ hp b hb => ?_⟩
        · have r6 := r6 rfl
          rcases t5 with t5 | t5 | t5
          · rw [t5]; exact r6
          · rcases r6 with r6 | r6
            · left; omega
            · left; omega
          · rcases r6 with r6 | r6
            · left; omega
            · right; exact ⟨t5.1.trans r6.1, t5.2.trans r6.2⟩
        · have := t6 b hb
          have := r7 b hb
          exact (t6 b hb).trans (max_le this (le_max_right _ _))
        · by_cases he : s'.Φ = s1.Φ
          · rw [he]; exact r8 rfl hp b hb
          · exact t7 he hp b hb

end

/-! ## A concrete run -/

/-- four nodes, hyperedges {0,1,2}, {2,3}, {0,3}; node 3 is fixed in block 1 -/
def exH : HG where
  nodes := [0, 1, 2, 3]
  edges := [0, 1, 2]
  pins := fun e => if e = 0 then [0, 1, 2] else if e = 1 then [2, 3] else if e = 2 then [0, 3] else []
  inc := fun v => if v = 0 then [0, 2] else if v = 1 then [0] else if v = 2 then [0, 1] else if v = 3 then [1, 2] else []
  nw := fun _ => 1
  ew := fun e => if e = 0 then 1 else if e = 1 then 4 else 2

def exC : Cfg Int where
  H := exH
  fixed := fun v => v == 3
  mx := fun _ => 3
  imb := fun a b => max a b

def exS : St where
  Φ := fun v => if v = 0 ∨ v = 2 then some 0 else if v = 1 ∨ v = 3 then some 1 else none
  vs := fun _ => .inactive
  hs := fun _ => .free
  nc := fun _ => 0
  pq := fun _ _ => none
  en := fun _ => false
  act := []
  rem := []

theorem exH_wf : exH.WF := by
  refine ⟨by decide, by decide, by decide, by decide, by decide, ?_⟩
  intro v hv e
  have hv' : v = 0 ∨ v = 1 ∨ v = 2 ∨ v = 3 := by simpa [exH] using hv
  rcases hv' with rfl | rfl | rfl | rfl <;> constructor <;> intro h
  all_goals first
    | (have he : e ∈ exH.edges := by
        simp [exH] at h ⊢; omega
       revert h; revert e; decide)
    | (have he := h.1; revert h; revert e; decide)

/-- The run: node 2 moves to block 1, node 1 to block 0, node 0 to block 1; the cut decreases from 7 to 1 and the fixed node stays. The hypotheses of the theorems above
hold. -/
theorem C59_run : (refine exC exS (exC.H.cut exS.Φ) (imbOf exC exS.Φ) [1, 2, 0] [(2, 1, 4), (1, 0, 0), (0, 1, 2)]).map
    (fun x => ([0, 1, 2, 3].map x.1.Φ, x.2)) = some ([some 1, some 0, some 1, some 1], 1, 3, true) ∧
    exC.H.cut exS.Φ = 7 ∧ exC.H.WF ∧ (∀ v ∈ exC.H.nodes, 0 < exC.H.nw v) ∧ (∀ v ∈ exC.H.nodes, exS.Φ v = some 0 ∨ exS.Φ v = some 1) ∧
    [1, 2, 0].Perm (exC.H.nodes.filter (fun v => !exC.fixed v)) ∧
    (step exC (startOf exC exS [1, 2, 0]) (2, 1, 4)).isSome = true := by
  refine ⟨by decide +kernel, by decide +kernel, exH_wf, by decide, by decide, by decide +kernel, by decide +kernel⟩

/-- two rounds of the run above (the second one finds no improvement) -/
theorem C59_run_rounds :
    (rounds exC exS (exC.H.cut exS.Φ) (imbOf exC exS.Φ) [([1, 2, 0], [(2, 1, 4), (1, 0, 0), (0, 1, 2)]), ([0, 1, 2], [])]).map (fun x => x.2) = some (1, 3) := by
  decide +kernel

/-- **C59**, the exception: `refineAndUpdateStats` (initial_partitioning_data_container.h:240-253) starts with the objective of the context. If the objective is `soed`
(direct k-way initial partitioning with k = 2), the cut gains are subtracted from a `soed` value and the reported quality is not the objective of the result. -/
theorem C59_soed_witness : ∃ s' q im, refine exC exS (exC.H.soed exS.Φ) (imbOf exC exS.Φ) [1, 2, 0] [(2, 1, 4), (1, 0, 0), (0, 1, 2)] = some (s', q, im, true) ∧
    q ≠ exC.H.soed s'.Φ ∧ q ≠ exC.H.cut s'.Φ := by
  have h : (refine exC exS (exC.H.soed exS.Φ) (imbOf exC exS.Φ) [1, 2, 0] [(2, 1, 4), (1, 0, 0), (0, 1, 2)]).elim false
      (fun x => x.2.2.2 && decide (x.2.1 ≠ exC.H.soed x.1.Φ) && decide (x.2.1 ≠ exC.H.cut x.1.Φ)) = true := by decide +kernel
  cases hx : refine exC exS (exC.H.soed exS.Φ) (imbOf exC exS.Φ) [1, 2, 0] [(2, 1, 4), (1, 0, 0), (0, 1, 2)] with
  | none => rw [hx] at h; simp at h
  | some x =>
    obtain ⟨s', q, im, b⟩ := x
    rw [hx] at h
    simp only [Option.elim, Bool.and_eq_true, decide_eq_true_eq] at h
    obtain ⟨⟨hb, h1⟩, h2⟩ := h
    subst hb
    exact ⟨s', q, im, rfl, h1, h2⟩

end TwoWay
end Verif
