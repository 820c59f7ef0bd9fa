import Verif.Lemmas.FNet8
/-! The flow refiner: moves, improvement and balance. -/
namespace Verif
namespace FNet
open DetLP (Mv moveAll moveAll_other moveAll_mem)
open DFlow (TaskOK)

variable {c : NCfg} {r : Region}

/-! ### Weights of the two sides -/

def sideSum (S : Nat → Bool) : List Int → Nat → Int
  | [], _ => 0
  | w :: l, n => (if S n then w else 0) + sideSum S l (n + 1)

theorem sideSum_append (S : Nat → Bool) (l l' : List Int) : ∀ n, sideSum S (l ++ l') n = sideSum S l n + sideSum S l' (n + l.length) := by
  induction l with
  | nil => intro n; simp [sideSum]
  | cons a l ih =>
    intro n
    simp only [List.cons_append, sideSum, ih, List.length_cons]
    rw [show n + 1 + l.length = n + (l.length + 1) by omega]
    omega

theorem sideWeight_eq (ws : List Int) (S : Nat → Bool) : sideWeight ws S = sideSum S ws 0 := by
  unfold sideWeight
  induction ws using List.reverseRecOn with
  | nil => rfl
  | append_singleton l a ih =>
    rw [sideSum_append, ← ih, List.length_append, List.length_singleton, List.range_succ, List.map_append, List.sum_append]
    congr 1
    · congr 1
      apply List.map_congr_left
      intro u hu
      rw [List.mem_range] at hu
      simp [List.getD_eq_getElem?_getD, List.getElem?_append_left hu]
    · simp [sideSum]

theorem sideSum_map (S : Nat → Bool) (f : Nat → Nat) (nw : Nat → Int) (l : List Nat) : ∀ n, (∀ i v, l[i]? = some v → f v = n + i) →
    sideSum S (l.map nw) n = (l.map (fun v => if S (f v) then nw v else 0)).sum := by
  induction l with
  | nil => intro n _; rfl
  | cons a l ih =>
    intro n h
    simp only [List.map_cons, sideSum, List.sum_cons]
    rw [ih (n + 1) (fun i v hv => by rw [h (i + 1) v hv]; omega), h 0 a rfl, Nat.add_zero]

/-- number of a node in the network -/
def numOf (r : Region) (v : Nat) : Nat := (nodeMap r v).getD 0

theorem numOf_spec (hn : (r.n0 ++ r.n1).Nodup) : (∀ i v, r.n0[i]? = some v → nodeMap r v = some (1 + i)) ∧ (∀ i v, r.n1[i]? = some v → nodeMap r v = some (sinkOf r + 1 + i)) := by
  obtain ⟨h0, h1, hd⟩ := List.nodup_append.1 hn
  refine ⟨fun i v hv => ?_, fun i v hv => ?_⟩
  · have hm := List.mem_of_getElem? hv
    unfold nodeMap
    rw [writeIds_not (f := writeIds (fun _ => none) r.n0 1) r.n1 (fun hh => hd v hm v hh rfl)]
    exact writeIds_get _ h0 hv
  · unfold nodeMap
    exact writeIds_get _ h1 hv

theorem sideWeight_region (h : NOK c r) (pw : Nat → Int) (S : Nat → Bool) :
    sideWeight (weightsOf c.H pw c.b0 c.b1 r) S =
    (if S 0 then max 0 (pw c.b0 - r.w0) else 0) + (if S (sinkOf r) then max 0 (pw c.b1 - r.w1) else 0) +
    ((r.n0 ++ r.n1).map (fun v => if S (numOf r v) then c.H.nw v else 0)).sum := by
  obtain ⟨h0, h1⟩ := numOf_spec h.nodup
  rw [sideWeight_eq]
  unfold weightsOf
  rw [List.cons_append, sideSum, sideSum_append, sideSum,
    sideSum_map S (numOf r) c.H.nw r.n0 (0 + 1) (fun i v hv => by unfold numOf; rw [h0 i v hv]; simp),
    sideSum_map S (numOf r) c.H.nw r.n1 _ (fun i v hv => by unfold numOf; rw [h1 i v hv]; unfold sinkOf; simp; omega)]
  rw [List.map_append, List.sum_append, List.length_map, show 0 + 1 + r.n0.length = sinkOf r by unfold sinkOf; omega]
  omega

/-! ### Block weights -/

theorem blockWeight_sum (H : HG) (Θ : Assign) (b : Nat) : H.blockWeight Θ b = (H.nodes.map (fun v => if Θ v = some b then H.nw v else 0)).sum := by
  unfold HG.blockWeight
  induction H.nodes with
  | nil => rfl
  | cons a l ih =>
    rw [List.filter_cons, List.map_cons, List.sum_cons, ← ih]
    by_cases h : Θ a = some b
    · simp [h]
    · simp [h]

theorem sum_region (h : NOK c r) {d : Nat → Int} (hd : ∀ v ∈ c.H.nodes, v ∉ r.n0 ++ r.n1 → d v = 0) :
    (c.H.nodes.map d).sum = ((r.n0 ++ r.n1).map d).sum := by
  rw [← List.sum_toFinset _ h.wf.nodes_nodup, ← List.sum_toFinset _ h.nodup]
  symm
  apply Finset.sum_subset
  · intro v hv
    rw [List.mem_toFinset] at *
    exact h.mem v hv
  · intro v hv hn
    rw [List.mem_toFinset] at hv
    exact hd v hv (fun hh => hn (List.mem_toFinset.2 hh))

theorem map_sum_sub {α : Type} (l : List α) (f g : α → Int) : (l.map (fun a => f a - g a)).sum = (l.map f).sum - (l.map g).sum := by
  induction l with
  | nil => rfl
  | cons a l ih => simp only [List.map_cons, List.sum_cons, ih]; omega

theorem assignOf_num (h : NOK c r) (S : Nat → Bool) {v : Nat} (hv : v ∈ r.n0 ++ r.n1) :
    assignOf c r S v = some (if S (numOf r v) then c.b0 else c.b1) := by
  unfold assignOf numOf
  cases hc : nodeMap r v with
  | none => exact absurd hv ((nodeMap_none h.nodup v).1 hc)
  | some u => rfl

theorem blockWeight_side (h : NOK c r) (hw0 : r.w0 = (r.n0.map c.H.nw).sum) (hw1 : r.w1 = (r.n1.map c.H.nw).sum) (S : Nat → Bool) :
    c.H.blockWeight (assignOf c r S) c.b0 = c.H.blockWeight c.Φ c.b0 - r.w0 + ((r.n0 ++ r.n1).map (fun v => if S (numOf r v) then c.H.nw v else 0)).sum ∧
    c.H.blockWeight (assignOf c r S) c.b1 = c.H.blockWeight c.Φ c.b1 - r.w1 + ((r.n0 ++ r.n1).map (fun v => if !S (numOf r v) then c.H.nw v else 0)).sum := by
  have key : ∀ b, c.H.blockWeight (assignOf c r S) b - c.H.blockWeight c.Φ b =
      ((r.n0 ++ r.n1).map (fun v => if assignOf c r S v = some b then c.H.nw v else 0)).sum -
      ((r.n0 ++ r.n1).map (fun v => if c.Φ v = some b then c.H.nw v else 0)).sum := by
    intro b
    rw [blockWeight_sum, blockWeight_sum, ← map_sum_sub, ← map_sum_sub]
    apply sum_region h
    intro v _ hv
    have : assignOf c r S v = c.Φ v := by unfold assignOf; rw [(nodeMap_none h.nodup v).2 hv]
    rw [this]; omega
  have e : ∀ l : List Nat, ∀ b, (∀ v ∈ l, c.Φ v = some b) → (l.map (fun v => if c.Φ v = some b then c.H.nw v else 0)).sum = (l.map c.H.nw).sum := by
    intro l b hl
    congr 1
    apply List.map_congr_left
    intro v hv
    rw [if_pos (hl v hv)]
  have z : ∀ l : List Nat, ∀ b, (∀ v ∈ l, c.Φ v ≠ some b) → (l.map (fun v => if c.Φ v = some b then c.H.nw v else 0)).sum = 0 := by
    intro l b hl
    apply List.sum_eq_zero
    intro x hx
    obtain ⟨v, hv, rfl⟩ := List.mem_map.1 hx
    rw [if_neg (hl v hv)]
  have g0 : (r.n0 ++ r.n1).map (fun v => if assignOf c r S v = some c.b0 then c.H.nw v else 0) = (r.n0 ++ r.n1).map (fun v => if S (numOf r v) then c.H.nw v else 0) := by
    apply List.map_congr_left
    intro v hv
    rw [assignOf_num h S hv]
    cases S (numOf r v) <;> simp [h.ne.symm]
  have g1 : (r.n0 ++ r.n1).map (fun v => if assignOf c r S v = some c.b1 then c.H.nw v else 0) = (r.n0 ++ r.n1).map (fun v => if !S (numOf r v) then c.H.nw v else 0) := by
    apply List.map_congr_left
    intro v hv
    rw [assignOf_num h S hv]
    cases S (numOf r v) <;> simp [h.ne]
  have k0 := key c.b0
  have k1 := key c.b1
  rw [g0, List.map_append (l₁ := r.n0) (f := fun v => if c.Φ v = some c.b0 then c.H.nw v else 0), List.sum_append, e r.n0 c.b0 h.m0,
    z r.n1 c.b0 (fun v hv hh => h.ne (by rw [h.m1 v hv] at hh; exact (Option.some.inj hh).symm)), ← hw0] at k0
  rw [g1, List.map_append (l₁ := r.n0) (f := fun v => if c.Φ v = some c.b1 then c.H.nw v else 0), List.sum_append, e r.n1 c.b1 h.m1,
    z r.n0 c.b1 (fun v hv hh => h.ne (by rw [h.m0 v hv] at hh; exact (Option.some.inj hh))), ← hw1] at k1
  constructor <;> omega

/-! ### Moves -/

/-- the moves for a side assignment -/
def movesOf (c : NCfg) (r : Region) (S : Nat → Bool) (n : Nat) : List Mv :=
  (List.range n).filterMap (fun u =>
    match (nodesOf r).getD u none with
    | none => none
    | some v =>
      let dst := if S u then c.b0 else c.b1
      match c.Φ v with
      | none => none
      | some src => if src ≠ dst then some ⟨v, src, dst, 0⟩ else none)

theorem mem_movesOf (h : NOK c r) {S : Nat → Bool} {n : Nat} {m : Mv} (hm : m ∈ movesOf c r S n) :
    m.node ∈ r.n0 ++ r.n1 ∧ c.Φ m.node = some m.src ∧ m.src ≠ m.dst ∧ assignOf c r S m.node = some m.dst ∧ (m.dst = c.b0 ∨ m.dst = c.b1) := by
  obtain ⟨u, _, hu⟩ := List.mem_filterMap.1 hm
  cases hg : (nodesOf r).getD u none with
  | none => rw [hg] at hu; cases hu
  | some v =>
    rw [hg] at hu
    dsimp only at hu
    have hget : (nodesOf r)[u]? = some (some v) := by
      rw [List.getD_eq_getElem?_getD] at hg
      cases hq : (nodesOf r)[u]? with
      | none => rw [hq] at hg; cases hg
      | some o => rw [hq] at hg; simp only [Option.getD_some] at hg; rw [hg]
    have hmap := (nodeMap_iff h.nodup v u).2 hget
    have hv : v ∈ r.n0 ++ r.n1 := by
      by_contra hh
      rw [(nodeMap_none h.nodup v).2 hh] at hmap; cases hmap
    cases hs : c.Φ v with
    | none => rw [hs] at hu; cases hu
    | some src =>
      rw [hs] at hu
      dsimp only at hu
      by_cases hne : src ≠ (if S u then c.b0 else c.b1)
      · rw [if_pos hne] at hu
        cases hu
        refine ⟨hv, hs, hne, ?_, ?_⟩
        · unfold assignOf; rw [hmap]
        · dsimp only; by_cases hS : S u = true
          · rw [if_pos hS]; exact Or.inl rfl
          · rw [if_neg hS]; exact Or.inr rfl
      · rw [if_neg hne] at hu; cases hu

theorem movesOf_nodup (h : NOK c r) (S : Nat → Bool) (n : Nat) : ((movesOf c r S n).map Mv.node).Nodup := by
  unfold movesOf
  rw [List.map_filterMap]
  refine List.Nodup.filterMap ?_ List.nodup_range
  have key : ∀ u v, v ∈ Option.map Mv.node (match (nodesOf r).getD u none with
      | none => none
      | some v =>
        let dst := if S u then c.b0 else c.b1
        match c.Φ v with
        | none => none
        | some src => if src ≠ dst then some (⟨v, src, dst, 0⟩ : Mv) else none) → nodeMap r v = some u := by
    intro u v hu
    cases hg : (nodesOf r).getD u none with
    | none => rw [hg] at hu; cases hu
    | some w =>
      rw [hg] at hu
      dsimp only at hu
      have hget : (nodesOf r)[u]? = some (some w) := by
        rw [List.getD_eq_getElem?_getD] at hg
        cases hq : (nodesOf r)[u]? with
        | none => rw [hq] at hg; cases hg
        | some o => rw [hq] at hg; simp only [Option.getD_some] at hg; rw [hg]
      cases hs : c.Φ w with
      | none => rw [hs] at hu; cases hu
      | some src =>
        rw [hs] at hu
        dsimp only at hu
        by_cases hne : src ≠ (if S u then c.b0 else c.b1)
        · rw [if_pos hne] at hu
          simp only [Option.map_some, Option.mem_def, Option.some.injEq] at hu
          subst hu
          exact (nodeMap_iff h.nodup _ u).2 hget
        · rw [if_neg hne] at hu; cases hu
  intro u u' v hu hu'
  exact Option.some.inj ((key u v hu).symm.trans (key u' v hu'))

theorem moveAll_movesOf (h : NOK c r) (S : Nat → Bool) {n : Nat} (hn : (nodesOf r).length ≤ n) : moveAll c.Φ (movesOf c r S n) = assignOf c r S := by
  funext v
  by_cases hv : v ∈ (movesOf c r S n).map Mv.node
  · obtain ⟨m, hm, rfl⟩ := List.mem_map.1 hv
    rw [moveAll_mem _ (movesOf_nodup h S n) m hm, (mem_movesOf h hm).2.2.2.1]
  · rw [moveAll_other _ hv]
    unfold assignOf
    cases hc : nodeMap r v with
    | none => rfl
    | some u =>
      obtain ⟨hvn, hb⟩ := h.region hc
      have hget := (nodeMap_iff h.nodup v u).1 hc
      have hul := (List.getElem?_eq_some_iff.1 hget).1
      dsimp only
      by_contra hne
      apply hv
      obtain ⟨src, hs⟩ := Option.ne_none_iff_exists'.1 (h.all v hvn)
      refine List.mem_map.2 ⟨⟨v, src, if S u then c.b0 else c.b1, 0⟩, List.mem_filterMap.2 ⟨u, List.mem_range.2 (by omega), ?_⟩, rfl⟩
      rw [List.getD_eq_getElem?_getD, hget, Option.getD_some]
      dsimp only
      rw [hs]
      dsimp only
      rw [if_pos (fun e => hne (by rw [hs, e]))]

/-! ### The refiner -/

/-- The network gives the exact change of the objective. -/
def Exact (c : NCfg) (r : Region) (nets : Nets) (total nonrem : Int) : Prop := ∀ S : Nat → Bool, S 0 = true → S (sinkOf r) = false →
  c.H.objective (assignOf c r S) c.o - c.H.objective c.Φ c.o = netCut S nets + nonrem - total

/-- What is assumed of the flow algorithm: if it succeeds, source and sink are on different sides, the flow value is the capacity of the cut nets, the weights
are those of the two sides, and they respect the given maximum weights. -/
def Sound (solve : Solver) : Prop := ∀ P m0 m1 fb S, solve P m0 m1 fb = some S → S.isSource P.source = true ∧ S.isSource P.sink = false ∧
  S.flow = netCut S.isSource P.nets ∧ S.ws = sideWeight P.weights S.isSource ∧ S.wt = sideWeight P.weights (fun u => !S.isSource u) ∧ S.ws ≤ m0 ∧ S.wt ≤ m1

structure RefineOK (c : NCfg) (r : Region) (mx : Nat → Int) (p : List Mv × Int) : Prop where
  task : TaskOK c.H c.Φ c.b0 c.b1 p.1
  region : ∀ m ∈ p.1, m.node ∈ r.n0 ++ r.n1
  improvement : p.2 = c.H.objective c.Φ c.o - c.H.objective (moveAll c.Φ p.1) c.o
  nonneg : 0 ≤ p.2
  balance : ∀ b, b = c.b0 ∨ b = c.b1 → c.H.blockWeight (moveAll c.Φ p.1) b ≤ max (c.H.blockWeight c.Φ b) (mx b)
  strict : p.1 ≠ [] → 0 < p.2 ∨ max (c.H.blockWeight (moveAll c.Φ p.1) c.b0) (c.H.blockWeight (moveAll c.Φ p.1) c.b1) <
    max (c.H.blockWeight c.Φ c.b0) (c.H.blockWeight c.Φ c.b1)

theorem RefineOK.nothing (c : NCfg) (r : Region) (mx : Nat → Int) : RefineOK c r mx ([], 0) where
  task := ⟨by simp, by simp, by simp, by simp⟩
  region := by simp
  improvement := by show (0 : Int) = c.H.objective c.Φ c.o - c.H.objective c.Φ c.o; omega
  nonneg := Int.le_refl _
  balance := fun b _ => le_max_left _ _
  strict := fun h => absurd rfl h

theorem flowRefine_spec (h : NOK c r) (hw0 : r.w0 = (r.n0.map c.H.nw).sum) (hw1 : r.w1 = (r.n1.map c.H.nw).sum) {mx : Nat → Int} {solve : Solver} (hs : Sound solve)
    {nets : Nets} {total nonrem : Int} (hx : Exact c r nets total nonrem) :
    RefineOK c r mx (flowRefine c.Φ c.b0 c.b1 mx solve r (problem c.H (c.H.blockWeight c.Φ) c.b0 c.b1 r nets total nonrem)) := by
  unfold flowRefine
  set P := problem c.H (c.H.blockWeight c.Φ) c.b0 c.b1 r nets total nonrem with hP
  by_cases hpos : P.total - P.nonrem > 0
  swap
  · rw [if_neg hpos]; exact RefineOK.nothing c r mx
  rw [if_pos hpos]
  -- source and sink have positive weight
  have hz : max 0 (c.H.blockWeight c.Φ c.b0 - r.w0) ≠ 0 ∧ max 0 (c.H.blockWeight c.Φ c.b1 - r.w1) ≠ 0 := by
    by_contra hh
    have hzz : (decide (max 0 (c.H.blockWeight c.Φ c.b0 - r.w0) = 0) || decide (max 0 (c.H.blockWeight c.Φ c.b1 - r.w1) = 0)) = true := by
      rw [Bool.or_eq_true, decide_eq_true_eq, decide_eq_true_eq]
      by_contra h2
      rw [not_or] at h2
      exact hh h2
    have : P.total = 0 ∧ P.nonrem = 0 := by
      rw [hP]; unfold problem; dsimp only; rw [hzz]; exact ⟨rfl, rfl⟩
    omega
  have hzz : (decide (max 0 (c.H.blockWeight c.Φ c.b0 - r.w0) = 0) || decide (max 0 (c.H.blockWeight c.Φ c.b1 - r.w1) = 0)) = false := by
    simp [hz.1, hz.2]
  have hT : P.total = total ∧ P.nonrem = nonrem := by rw [hP]; unfold problem; dsimp only; rw [hzz]; exact ⟨rfl, rfl⟩
  have hm0 : max 0 (c.H.blockWeight c.Φ c.b0 - r.w0) = c.H.blockWeight c.Φ c.b0 - r.w0 := by have := hz.1; omega
  have hm1 : max 0 (c.H.blockWeight c.Φ c.b1 - r.w1) = c.H.blockWeight c.Φ c.b1 - r.w1 := by have := hz.2; omega
  have hW : P.w0 = c.H.blockWeight c.Φ c.b0 ∧ P.w1 = c.H.blockWeight c.Φ c.b1 := by
    rw [hP]; unfold problem; dsimp only; rw [hm0, hm1]; constructor <;> omega
  have hN : P.nets = nets := rfl
  have hws : P.weights = weightsOf c.H (c.H.blockWeight c.Φ) c.b0 c.b1 r := rfl
  have hsrc : P.source = 0 ∧ P.sink = sinkOf r := ⟨rfl, rfl⟩
  have hlen : (nodesOf r).length ≤ P.weights.length := by rw [hws]; unfold nodesOf weightsOf; simp
  clear_value P
  cases hS : solve P (max P.w0 (mx c.b0)) (max P.w1 (mx c.b1)) (P.total - P.nonrem) with
  | none => exact RefineOK.nothing c r mx
  | some S =>
    dsimp only
    obtain ⟨s1, s2, s3, s4, s5, s6, s7⟩ := hs _ _ _ _ _ hS
    rw [hsrc.1] at s1
    rw [hsrc.2] at s2
    rw [hN] at s3
    rw [hws, sideWeight_region h, if_pos s1, if_neg (by rw [s2]; simp), hm0] at s4
    rw [hws, sideWeight_region h, if_neg (by rw [s1]; simp), if_pos (by rw [s2]; simp), hm1] at s5
    obtain ⟨b0, b1⟩ := blockWeight_side h hw0 hw1 S.isSource
    have w0 : S.ws = c.H.blockWeight (assignOf c r S.isSource) c.b0 := by rw [b0, s4]; omega
    have w1 : S.wt = c.H.blockWeight (assignOf c r S.isSource) c.b1 := by rw [b1, s5]; omega
    have hobj := hx S.isSource s1 s2
    by_cases hacc : P.nonrem + S.flow < P.total ∨ (P.nonrem + S.flow = P.total ∧ max S.ws S.wt < max P.w0 P.w1)
    swap
    · rw [if_neg hacc]; exact RefineOK.nothing c r mx
    rw [if_pos hacc]
    show RefineOK c r mx (movesOf c r S.isSource P.weights.length, P.total - (P.nonrem + S.flow))
    have hmove := moveAll_movesOf h S.isSource hlen
    rw [hT.1, hT.2, hW.1, hW.2] at hacc
    refine ⟨⟨movesOf_nodup h _ _, fun m hm => h.mem _ (mem_movesOf h hm).1, ?_, fun m hm => (mem_movesOf h hm).2.2.2.2⟩, fun m hm => (mem_movesOf h hm).1, ?_, ?_, ?_, ?_⟩
    · intro m hm
      obtain ⟨h1, h2, _⟩ := mem_movesOf h hm
      refine ⟨h2, ?_⟩
      rcases List.mem_append.1 h1 with hh | hh
      · rw [h.m0 _ hh] at h2; exact Or.inl (Option.some.inj h2).symm
      · rw [h.m1 _ hh] at h2; exact Or.inr (Option.some.inj h2).symm
    · dsimp only; rw [hmove, hT.1, hT.2, s3]; omega
    · dsimp only; rw [hT.1, hT.2]; omega
    · dsimp only
      rw [hmove]
      rintro b (rfl | rfl)
      · rw [← w0, ← hW.1]; exact s6
      · rw [← w1, ← hW.2]; exact s7
    · intro _
      dsimp only
      rw [hmove, ← w0, ← w1, hT.1, hT.2]
      rcases hacc with hh | hh
      · exact Or.inl (by omega)
      · exact Or.inr hh.2

end FNet
end Verif
