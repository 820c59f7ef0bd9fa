import Verif.Lemmas.DReb2
import Verif.Props.C24
/-!
# C63: deterministic rebalancing

`Round C c x x' g`: one round of the deterministic rebalancer, started in state `x`, can end in state `x'` and add `g` to the delta, for some schedule of the parallel
loops and the concurrent moves. `Rebalance C c x x' g r`: the same for a call of `refine` with `r` rounds (Model/DetRebalancer.lean). Specification: `objective`,
`blockWeight` (Spec/Hypergraph.lean), `change` (C45), and `Over`, `CanTake`, `Best`, `Movable`, `rank` (Lemmas/DReb2.lean).
-/
namespace Verif
namespace DReb
open DetLP (Mv Good Fit moveAll)
open GainComp CSt PHG

variable {c : Cfg} {m mx : Nat}

/-- A state of the partition in which no move is running: some legal history of calls that assigns all nodes, followed by concurrent moves. -/
def Reached (c : Cfg) (m mx : Nat) (s : CSt (Packed × ConnSets)) : Prop :=
  ∃ (os : List PHOp) (cache : Nat → Int) (as : List Act), PHOp.AllLegal c.H c.k (fun _ => none) os ∧
    (∀ v ∈ c.H.nodes, (denseRun c.H m c.k mx os).part v ≠ none) ∧
    CSt.exec denseCon c.H c.k c.o (CSt.begin (denseRun c.H m c.k mx os) cache) as = some s ∧ s.quiescent c.H = true

structure Input (c : Cfg) (m mx : Nat) : Prop where
  env : Env c m mx
  k : 0 < c.k
  mx0 : 0 < mx
  mx1 : mx + 1 < 2 ^ 32

theorem Reached.good (hI : Input c m mx) {s : CSt (Packed × ConnSets)} (h : Reached c m mx s) : Good (denseLawful m c.k mx) c.H s := by
  obtain ⟨os, cache, as, h1, h2, h3, h4⟩ := h
  have hS := dense_sim c.H m c.k mx hI.env.wf hI.env.fits hI.k hI.mx0 hI.mx1 os h1
  obtain ⟨i1, i2⟩ := conc_inv hI.env.wf hI.env.fits hS h2 h3
  exact ⟨i1, i2, h4⟩

/-- node `v` is moved out of block `a` between two partitions -/
def Leaves (c : Cfg) (Φ Φ' : Assign) (a v : Nat) : Prop := v ∈ c.H.nodes ∧ Φ v = some a ∧ Φ' v ≠ some a

/-- Result `Φ'` of a round for the partition `Φ` -/
structure RoundSpec (c : Cfg) (heavy heavy' : Nat → Bool) (Φ Φ' : Assign) : Prop where
  /-- only movable nodes of blocks that are too heavy are moved, each of them to a best block -/
  moves : ∀ v, Φ' v ≠ Φ v → ∃ a b, a < c.k ∧ Φ v = some a ∧ Φ' v = some b ∧ Over c Φ a ∧ Movable c heavy Φ a v ∧ Best c Φ v b
  /-- smallest priority first, ties in favour of the larger id -/
  order : ∀ a v w b b', Over c Φ a → Leaves c Φ Φ' a v → Movable c heavy Φ a w → ¬ Leaves c Φ Φ' a w → Φ' v = some b → Best c Φ w b' →
    rank c Φ v b < rank c Φ w b' ∨ (rank c Φ v b = rank c Φ w b' ∧ w < v)
  /-- enough nodes are moved -/
  enough : ∀ a < c.k, Over c Φ a → c.H.blockWeight Φ' a ≤ c.maxw a ∨ (heavy' a = true ∧ ∀ v, Movable c heavy Φ a v → Leaves c Φ Φ' a v)
  /-- not more nodes than necessary are moved -/
  minimal : ∀ a < c.k, (∃ v, Leaves c Φ Φ' a v) → ∃ v, Leaves c Φ Φ' a v ∧ c.maxw a < c.H.blockWeight Φ' a + c.H.nw v
  /-- a block that was too heavy receives no node, any other block loses none -/
  oneWay : ∀ a v, (Over c Φ a → Φ' v = some a → Φ v = some a) ∧ (¬ Over c Φ a → Φ v = some a → Φ' v = some a)
  /-- the flag tells whether the block is light enough -/
  flag : ∀ a < c.k, Over c Φ a → (heavy' a = true ↔ Over c Φ' a)

section
variable {σ : Type} {C : ConInfo σ}

theorem best_rank {Φ : Assign} {v b b' : Nat} (h : Best c Φ v b) (h' : Best c Φ v b') : rank c Φ v b = rank c Φ v b' := by
  have h1 := h.2.2 b' h'.1 h'.2.1
  have h2 := h'.2.2 b h.1 h.2.1
  unfold rank
  rw [show change c.H c.o Φ v b = change c.H c.o Φ v b' by omega]

theorem round_generic {L : C.Lawful m c.k mx} (E : Env c m mx) {x x' : St σ} {g : Int} (hG : Good L c.H x.s) (h : Round C c x x' g) :
    RoundSpec c x.heavy x'.heavy x.s.part x'.s.part := by
  obtain ⟨scr, so, hs, hS, hG', hp, hh, hg⟩ := round_spec E hG h
  set A := executed c x.s.wt so with hA
  have hF : Fit c.H c.k x.s.part A := executed_fit E hG hs hS
  -- facts on executed moves
  have hmv : ∀ q ∈ A, ∃ a < c.k, q ∈ taken c x.s.wt so a ∧ q.src = a ∧ q.node ∈ c.H.nodes ∧ x.s.part q.node = some a ∧ Over c x.s.part a ∧
      Movable c x.heavy x.s.part a q.node ∧ Best c x.s.part q.node q.dst ∧ q.gain = rank c x.s.part q.node q.dst ∧ x'.s.part q.node = some q.dst := by
    intro q hq
    obtain ⟨a, ha, hq'⟩ := mem_executed.1 hq
    obtain ⟨⟨u, hu, hqu⟩, hsrc⟩ := mem_wanted.1 (taken_wanted hS ha hq')
    obtain ⟨r1, r2, r3, r4, r5, r6, r7⟩ := want_some E hG hs hu hqu
    rw [hsrc] at r2 r4 r5
    refine ⟨a, ha, hq', hsrc, by rw [r1]; exact hu, by rw [r1]; exact r2, r4, by rw [r1]; exact r5, by rw [r1]; exact r6, by rw [r1]; exact r7, ?_⟩
    rw [hp]
    exact DetLP.moveAll_mem A hF.nodup q hq
  have hch : ∀ v, x'.s.part v ≠ x.s.part v → ∃ q ∈ A, q.node = v := by
    intro v hv
    by_contra hn
    apply hv
    rw [hp]
    exact DetLP.moveAll_other A (fun hm => hn (by obtain ⟨q, h1, h2⟩ := List.mem_map.1 hm; exact ⟨q, h1, h2⟩))
  have htk : ∀ a < c.k, ∀ q, q ∈ taken c x.s.wt so a → q ∈ A := fun a ha q hq => mem_executed.2 ⟨a, ha, hq⟩
  have hleave : ∀ a < c.k, ∀ v, Leaves c x.s.part x'.s.part a v ↔ ∃ q ∈ taken c x.s.wt so a, q.node = v := by
    intro a ha v
    constructor
    · rintro ⟨h1, h2, h3⟩
      obtain ⟨q, hq, rfl⟩ := hch v (by rw [h2]; exact h3)
      obtain ⟨a', ha', r1, _, _, r4, _⟩ := hmv q hq
      rw [h2] at r4
      have := Option.some.inj r4
      subst this
      exact ⟨q, r1, rfl⟩
    · rintro ⟨q, hq, rfl⟩
      obtain ⟨a', ha', r1, r2, r3, r4, r5, r6, r7, r8, r9⟩ := hmv q (htk a ha q hq)
      have hsrc := (mem_wanted.1 (taken_wanted hS ha hq)).2
      have : a' = a := by rw [← r2, hsrc]
      subst this
      exact ⟨r3, r4, by rw [r9]; intro he; exact r7.1 (r4.trans he.symm)⟩
  have hwanted : ∀ a < c.k, Over c x.s.part a → ∀ v, Movable c x.heavy x.s.part a v → ∃ q ∈ so a, q.node = v := by
    intro a ha ho v hm
    obtain ⟨q, hq⟩ := Option.ne_none_iff_exists'.1 (want_ne E hG hs ho hm)
    obtain ⟨r1, r2, _⟩ := want_some E hG hs hm.1 hq
    refine ⟨q, (hS a ha).1.mem_iff.2 (mem_wanted.2 ⟨⟨v, hm.1, hq⟩, ?_⟩), r1⟩
    rw [hm.2.1] at r2
    exact (Option.some.inj r2).symm
  -- weights
  have hwt : ∀ a < c.k, Over c x.s.part a → c.H.blockWeight x'.s.part a = c.H.blockWeight x.s.part a - sumW c (taken c x.s.wt so a) := by
    intro a ha ho
    have h1 := DetLP.blockWeight_moveAll (lp c) E.wf A a (Φ := x.s.part) hF
    have h2 := sum_taken (c := c) (wt := x.s.wt) (sorted := so) (a := a) (fun b hb q hq => by
      refine ⟨(mem_wanted.1 (taken_wanted hS hb hq)).2, fun hd => ?_⟩
      obtain ⟨_, _, _, _, hqn, _, _, _, hbest, _⟩ := hmv q (htk b hb q hq)
      have := hbest.2.1.2.2
      have hn := E.nw q.node hqn
      rw [hd] at this
      unfold Over at ho
      omega) (List.range c.k) List.nodup_range (fun b hb => List.mem_range.1 hb)
    rw [if_pos (List.mem_range.2 ha)] at h2
    rw [hp]
    have h3 : c.H.blockWeight (moveAll x.s.part A) a = c.H.blockWeight x.s.part a + (A.map (fun q => DetLP.delta (lp c) q a)).sum := h1
    have h4 : (A.map (fun q => DetLP.delta (lp c) q a)).sum = - sumW c (taken c x.s.wt so a) := h2
    omega
  have hspec : ∀ a, ∃ rest, so a = taken c x.s.wt so a ++ rest ∧
      (takeMoves c (excess c x.s.wt a) 0 (so a)).2 = 0 + sumW c (taken c x.s.wt so a) ∧ (excess c x.s.wt a ≤ (takeMoves c (excess c x.s.wt a) 0 (so a)).2 ∨ rest = []) ∧
      (taken c x.s.wt so a = [] ∨ ∃ q0 q, taken c x.s.wt so a = q0 ++ [q] ∧ 0 + sumW c q0 < excess c x.s.wt a) :=
    fun a => takeMoves_spec (c := c) (excess c x.s.wt a) (so a) 0
  have hex : ∀ a < c.k, excess c x.s.wt a = c.H.blockWeight x.s.part a - c.maxw a := fun a ha => by unfold excess; rw [hG.weight E.wf ha]
  have hflag : ∀ a < c.k, Over c x.s.part a → (x'.heavy a = true ↔ Over c x'.s.part a) := by
    intro a ha ho
    obtain ⟨rest, r1, r2, r3, r4⟩ := hspec a
    have hw := hwt a ha ho
    have he := hex a ha
    rw [hh]
    unfold heavyAfter
    rw [if_pos ha]
    by_cases hne : so a ≠ []
    · rw [if_pos hne]
      rw [Bool.not_eq_true', decide_eq_false_iff_not]
      unfold Over
      rw [r2, hw, he]
      omega
    · rw [if_neg hne, if_pos (by unfold Over at ho; omega)]
      have h0 : taken c x.s.wt so a = [] := by
        push Not at hne
        rw [hne] at r1
        exact (List.append_eq_nil_iff.1 r1.symm).1
      rw [h0] at hw
      unfold Over at ho ⊢
      rw [hw]
      simp [sumW, ho]
  refine ⟨?_, ?_, ?_, ?_, ?_, hflag⟩
  · intro v hv
    obtain ⟨q, hq, rfl⟩ := hch v hv
    obtain ⟨a, ha, _, _, _, r4, r5, r6, r7, _, r9⟩ := hmv q hq
    exact ⟨a, q.dst, ha, r4, r9, r5, r6, r7⟩
  · intro a v w b b' ho hl hm hnl hb hbest
    have ha := hG.inv.range w a hm.2.1
    obtain ⟨q, hq, rfl⟩ := (hleave a ha v).1 hl
    obtain ⟨q', hq', rfl⟩ := hwanted a ha ho w hm
    obtain ⟨rest, r1, _⟩ := hspec a
    have hq'r : q' ∈ rest := by
      rw [r1] at hq'
      rcases List.mem_append.1 hq' with h1 | h1
      · exact absurd ((hleave a ha q'.node).2 ⟨q', h1, rfl⟩) hnl
      · exact h1
    have hbef := (hS a ha).2
    rw [r1, List.pairwise_append] at hbef
    have hb1 := hbef.2.2 q hq q' hq'r
    obtain ⟨_, _, _, _, _, _, _, _, t7, t8, t9⟩ := hmv q (htk a ha q hq)
    obtain ⟨⟨u, hu, hqu⟩, _⟩ := mem_wanted.1 ((hS a ha).1.mem_iff.1 (show q' ∈ so a by rw [r1]; exact List.mem_append_right _ hq'r))
    obtain ⟨s1, _, _, _, _, s6, s7⟩ := want_some E hG hs hu hqu
    rw [← s1] at s6 s7
    rw [hb] at t9
    have := Option.some.inj t9
    subst this
    rw [best_rank hbest s6, ← s7, ← t8]
    unfold before at hb1
    rcases hb1 with hb1 | hb1
    · exact Or.inl hb1
    · exact Or.inr ⟨hb1.1, hb1.2⟩
  · intro a ha ho
    obtain ⟨rest, r1, r2, r3, r4⟩ := hspec a
    have hw := hwt a ha ho
    have he := hex a ha
    by_cases hle : c.H.blockWeight x'.s.part a ≤ c.maxw a
    · exact Or.inl hle
    · right
      refine ⟨(hflag a ha ho).2 (by unfold Over; omega), ?_⟩
      have hr : rest = [] := by
        rcases r3 with r3 | r3
        · rw [r2] at r3; omega
        · exact r3
      intro v hm
      obtain ⟨q, hq, rfl⟩ := hwanted a ha ho v hm
      rw [r1, hr, List.append_nil] at hq
      exact (hleave a ha q.node).2 ⟨q, hq, rfl⟩
  · intro a ha hex2
    obtain ⟨v, hv⟩ := hex2
    obtain ⟨q, hq, _⟩ := (hleave a ha v).1 hv
    obtain ⟨a', _, _, t2, _, _, t5, _⟩ := hmv q (htk a ha q hq)
    have hsrc := (mem_wanted.1 (taken_wanted hS ha hq)).2
    rw [← t2, hsrc] at t5
    obtain ⟨rest, r1, r2, r3, r4⟩ := hspec a
    have hw := hwt a ha t5
    have he := hex a ha
    rcases r4 with r4 | ⟨q0, q1, r4, r5⟩
    · rw [r4] at hq; cases hq
    · refine ⟨q1.node, (hleave a ha q1.node).2 ⟨q1, by rw [r4]; simp, rfl⟩, ?_⟩
      rw [hw, r4]
      unfold sumW at r5 ⊢
      rw [List.map_append, List.sum_append, List.map_singleton, List.sum_singleton]
      omega
  · intro a v
    constructor
    · intro ho hv
      by_contra hne
      obtain ⟨q, hq, rfl⟩ := hch v (by rw [hv]; exact fun he => hne he.symm)
      obtain ⟨_, _, _, _, t3, _, _, _, t7, _, t9⟩ := hmv q hq
      rw [hv] at t9
      have := Option.some.inj t9
      subst this
      have h1 := t7.2.1.2.2
      have h2 := E.nw q.node t3
      unfold Over at ho
      omega
    · intro ho hv
      by_contra hne
      obtain ⟨q, hq, rfl⟩ := hch v (by rw [hv]; exact hne)
      obtain ⟨_, _, _, _, _, t4, t5, _⟩ := hmv q hq
      rw [hv] at t4
      have := Option.some.inj t4
      subst this
      exact ho t5

theorem numOver_zero {L : C.Lawful m c.k mx} (hw : c.H.WF) {s : CSt σ} (hG : Good L c.H s) : numOver c s.wt = 0 ↔ ∀ a < c.k, ¬ Over c s.part a := by
  unfold numOver
  rw [List.length_eq_zero_iff, List.filter_eq_nil_iff]
  constructor
  · intro h a ha ho
    have := h a (List.mem_range.2 ha)
    rw [decide_eq_true_iff] at this
    exact this ((excess_iff hw hG ha).2 ho)
  · intro h a ha
    rw [decide_eq_true_iff]
    intro hx
    exact h a (List.mem_range.1 ha) ((excess_iff hw hG (List.mem_range.1 ha)).1 hx)

/-- Result of at most `n` rounds -/
theorem loop_generic {L : C.Lawful m c.k mx} (E : Env c m mx) : ∀ (n : Nat) {x x' : St σ} {g : Int} {r : Nat}, Good L c.H x.s → Loop C c n x x' g r →
    Good L c.H x'.s ∧ g = c.H.objective x'.s.part c.o - c.H.objective x.s.part c.o ∧ (∀ v, c.fixed v = true → x'.s.part v = x.s.part v) ∧ r ≤ n ∧
    ((∃ a < c.k, Over c x'.s.part a) → r = n) ∧ ((∀ a < c.k, ¬ Over c x.s.part a) → r = 0 ∧ x' = x) := by
  intro n
  induction n with
  | zero =>
    intro x x' g r hG h
    obtain ⟨rfl, rfl, rfl⟩ := h
    exact ⟨hG, by omega, fun _ _ => rfl, le_refl _, fun _ => rfl, fun _ => ⟨rfl, rfl⟩⟩
  | succ n ih =>
    intro x x' g r hG h
    unfold Loop at h
    by_cases h0 : numOver c x.s.wt = 0
    · rw [if_pos h0] at h
      obtain ⟨rfl, rfl, rfl⟩ := h
      have hb := (numOver_zero E.wf hG).1 h0
      exact ⟨hG, by omega, fun _ _ => rfl, by omega, fun ⟨a, ha, ho⟩ => absurd ho (hb a ha), fun _ => ⟨rfl, rfl⟩⟩
    · rw [if_neg h0] at h
      obtain ⟨y, g1, g2, r2, h1, h2, rfl, rfl⟩ := h
      obtain ⟨_, _, _, _, hGy, _, _, hg1⟩ := round_spec E hG h1
      obtain ⟨i1, i2, i3, i4, i5, _⟩ := ih hGy h2
      have hR := round_generic E hG h1
      refine ⟨i1, by omega, fun v hv => ?_, by omega, fun ho => by rw [i5 ho], fun hb => absurd ((numOver_zero E.wf hG).2 hb) h0⟩
      rw [i3 v hv]
      by_contra hne
      obtain ⟨a, _, _, _, _, _, hm, _⟩ := hR.moves v hne
      rw [hm.2.2.1] at hv; cases hv

theorem loop_exists {L : C.Lawful m c.k mx} (E : Env c m mx) : ∀ (n : Nat) {x : St σ}, Good L c.H x.s → ∃ x' g r, Loop C c n x x' g r := by
  intro n
  induction n with
  | zero => intro x _; exact ⟨x, 0, 0, rfl, rfl, rfl⟩
  | succ n ih =>
    intro x hG
    by_cases h0 : numOver c x.s.wt = 0
    · exact ⟨x, 0, 0, by unfold Loop; rw [if_pos h0]; exact ⟨rfl, rfl, rfl⟩⟩
    · obtain ⟨y, g1, h1⟩ := round_exists (C := C) E hG
      obtain ⟨_, _, _, _, hGy, _⟩ := round_spec E hG h1
      obtain ⟨x', g2, r2, h2⟩ := ih hGy
      exact ⟨x', _, _, by unfold Loop; rw [if_neg h0]; exact ⟨y, g1, g2, r2, h1, h2, rfl, rfl⟩⟩

end

theorem loop_det (E : Env c m mx) : ∀ (n : Nat) {x x' y y' : St (Packed × ConnSets)} {g g' : Int} {r r' : Nat}, Good (denseLawful m c.k mx) c.H x.s →
    Good (denseLawful m c.k mx) c.H y.s → x.s.part = y.s.part → (∀ a < c.k, x.heavy a = y.heavy a) → Loop denseCon c n x x' g r → Loop denseCon c n y y' g' r' →
    x'.s.part = y'.s.part ∧ (∀ a < c.k, x'.heavy a = y'.heavy a) ∧ g = g' ∧ r = r' := by
  intro n
  induction n with
  | zero =>
    intro x x' y y' g g' r r' _ _ hp hh h h'
    obtain ⟨rfl, rfl, rfl⟩ := h
    obtain ⟨rfl, rfl, rfl⟩ := h'
    exact ⟨hp, hh, rfl, rfl⟩
  | succ n ih =>
    intro x x' y y' g g' r r' hG hG' hp hh h h'
    unfold Loop at h h'
    have heq : numOver c x.s.wt = 0 ↔ numOver c y.s.wt = 0 := by rw [numOver_zero E.wf hG, numOver_zero E.wf hG', hp]
    by_cases h0 : numOver c x.s.wt = 0
    · rw [if_pos h0] at h
      rw [if_pos (heq.1 h0)] at h'
      obtain ⟨rfl, rfl, rfl⟩ := h
      obtain ⟨rfl, rfl, rfl⟩ := h'
      exact ⟨hp, hh, rfl, rfl⟩
    · rw [if_neg h0] at h
      rw [if_neg (fun hh => h0 (heq.2 hh))] at h'
      obtain ⟨z, g1, g2, r2, h1, h2, rfl, rfl⟩ := h
      obtain ⟨z', g1', g2', r2', h1', h2', rfl, rfl⟩ := h'
      obtain ⟨d1, d2, d3⟩ := round_det E hG hG' hp hh h1 h1'
      obtain ⟨_, _, _, _, hGz, _⟩ := round_spec E hG h1
      obtain ⟨_, _, _, _, hGz', _⟩ := round_spec E hG' h1'
      obtain ⟨e1, e2, e3, e4⟩ := ih hGz hGz' d1 d2 h2 h2'
      exact ⟨e1, e2, by omega, by omega⟩

/-! ### Theorems -/

section
variable {x x' y y' : St (Packed × ConnSets)} {g g' : Int} {r r' : Nat}

/-- **C63** (round). Whatever the schedule, one round moves, out of every block that is too heavy, the shortest sequence of movable nodes in the order of their
priorities that makes the block light enough (all movable nodes if that is impossible), each to a best block. -/
theorem C63_round (hI : Input c m mx) (hx : Reached c m mx x.s) (h : Round denseCon c x x' g) : RoundSpec c x.heavy x'.heavy x.s.part x'.s.part :=
  round_generic hI.env (hx.good hI) h

/-- **C63** (deterministic). Two calls that start with the same partition and the same flags end with the same partition, flags, number of rounds and reported change,
for all schedules. -/
theorem C63_deterministic (hI : Input c m mx) (hx : Reached c m mx x.s) (hy : Reached c m mx y.s) (hp : x.s.part = y.s.part)
    (hh : ∀ a < c.k, x.heavy a = y.heavy a) (h : Rebalance denseCon c x x' g r) (h' : Rebalance denseCon c y y' g' r') :
    x'.s.part = y'.s.part ∧ (∀ a < c.k, x'.heavy a = y'.heavy a) ∧ g = g' ∧ r = r' := loop_det hI.env _ (hx.good hI) (hy.good hI) hp hh h h'

/-- **C63** (exact). The reported quality changes by the change of the objective; block weights are exact; every node is in a block; fixed nodes are not moved. -/
theorem C63_exact (hI : Input c m mx) (hx : Reached c m mx x.s) (h : Rebalance denseCon c x x' g r) :
    g = c.H.objective x'.s.part c.o - c.H.objective x.s.part c.o ∧ (∀ b < c.k, x'.s.wt b = c.H.blockWeight x'.s.part b) ∧
    (∀ v ∈ c.H.nodes, ∃ b < c.k, x'.s.part v = some b) ∧ (∀ v, c.fixed v = true → x'.s.part v = x.s.part v) := by
  obtain ⟨h1, h2, h3, _⟩ := loop_generic hI.env _ (hx.good hI) h
  exact ⟨h2, fun b hb => h1.weight hI.env.wf hb, fun v hv => h1.inv.assigned v hv, h3⟩

/-- **C63** (end). The call ends with a balanced partition or after the maximum number of rounds (at most 30). A balanced partition is not changed. -/
theorem C63_end (hI : Input c m mx) (hx : Reached c m mx x.s) (h : Rebalance denseCon c x x' g r) :
    r ≤ 30 ∧ ((∀ a < c.k, c.H.blockWeight x'.s.part a ≤ c.maxw a) ∨ r = c.maxRounds) ∧
    ((∀ a < c.k, c.H.blockWeight x.s.part a ≤ c.maxw a) → x' = x ∧ g = 0) := by
  obtain ⟨h1, h2, h3, h4, h5, h6⟩ := loop_generic hI.env _ (hx.good hI) h
  have hm : c.maxRounds ≤ 30 := by unfold Cfg.maxRounds; split_ifs <;> omega
  refine ⟨by omega, ?_, fun hb => ?_⟩
  · by_cases ho : ∃ a < c.k, Over c x'.s.part a
    · exact Or.inr (h5 ho)
    · left
      intro a ha
      by_contra hlt
      exact ho ⟨a, ha, by unfold Over; omega⟩
  · have := h6 (fun a ha => by unfold Over; have := hb a ha; omega)
    refine ⟨this.2, ?_⟩
    rw [h2, this.2]; omega

/-- **C63** (completes). Every call ends, from every reachable state. -/
theorem C63_completes (hI : Input c m mx) (hx : Reached c m mx x.s) : ∃ x' g r, Rebalance denseCon c x x' g r := loop_exists hI.env _ (hx.good hI)

end

/-! ### A concrete case

The path 0 - 1 - 2 - 3 with the blocks {0, 2} and {1, 3} (rbHG, Props/C24.lean). Block 0 may have weight 1; node 3 is fixed. -/

def rebCfg : Cfg where
  H := rbHG
  k := 2
  o := .km1
  maxw := fun b => if b = 0 then 1 else 10
  fixed := fun v => v == 3
  light := fun _ _ _ => true
  dead := fun b => if b = 0 then 1 else 9
  prio := fun g _ => g
  detMaxRounds := 0

theorem rebInput : Input rebCfg 3 2 where
  env :=
    { wf := rbHG_wf
      fits := by intro e he; revert e; decide
      nw := by decide
      tot := by decide
      ew := by decide }
  k := by decide
  mx0 := by decide
  mx1 := by decide

def rebStart : St (Packed × ConnSets) := ⟨CSt.begin (denseRun rbHG 3 2 2 rbOs) (fun _ => 0), fun _ => false⟩

theorem rebReached : Reached rebCfg 3 2 rebStart.s := ⟨rbOs, fun _ => 0, [], rbOs_legal, by decide, rfl, by decide⟩

theorem rebPart : rebStart.s.part 0 = some 0 ∧ rebStart.s.part 1 = some 1 ∧ rebStart.s.part 2 = some 0 ∧ rebStart.s.part 3 = some 1 := by decide

theorem rebOver : Over rebCfg rebStart.s.part 0 := by unfold Over; decide

theorem rebCan (v : Nat) : CanTake rebCfg rebStart.s.part 1 v := ⟨by decide, by decide, by show (2 : Int) + 1 ≤ 10; decide⟩

theorem rebMov {v : Nat} (h : v = 0 ∨ v = 2) : Movable rebCfg (fun _ => false) rebStart.s.part 0 v := by
  rcases h with rfl | rfl
  · exact ⟨by decide, by decide, by decide, Or.inl rfl, 1, rebCan 0⟩
  · exact ⟨by decide, by decide, by decide, Or.inl rfl, 1, rebCan 2⟩

theorem rebBest {v : Nat} (h : rebStart.s.part v = some 0) : Best rebCfg rebStart.s.part v 1 := by
  refine ⟨by rw [h]; decide, rebCan v, fun b' h1 h2 => ?_⟩
  have h3 : b' < 2 := h2.1
  have : b' = 1 := by
    rcases Nat.lt_or_ge b' 1 with h4 | h4
    · have : b' = 0 := by omega
      subst this
      exact absurd h h1
    · omega
  rw [this]

/-- Node 2 is moved: moving it decreases the connectivity by 2, moving node 0 only by 1. -/
theorem rebRound {x' : St (Packed × ConnSets)} {g : Int} (h : Round denseCon rebCfg rebStart x' g) : x'.s.part 0 = some 0 ∧ x'.s.part 2 = some 1 := by
  have hR := C63_round rebInput rebReached h
  obtain ⟨p0, p1, p2, p3⟩ := rebPart
  have hno : ¬ Over rebCfg rebStart.s.part 1 := by unfold Over; decide
  have e1 := (hR.oneWay 1 1).2 hno p1
  have e3 := (hR.oneWay 1 3).2 hno p3
  have hto : ∀ v, rebStart.s.part v = some 0 → x'.s.part v = some 0 ∨ x'.s.part v = some 1 := by
    intro v hv
    by_cases he : x'.s.part v = rebStart.s.part v
    · left; rw [he, hv]
    · obtain ⟨a, b, _, _, hb, _, _, hbest⟩ := hR.moves v he
      right
      have h3 : b < 2 := hbest.2.1.1
      have : b = 1 := by
        rcases Nat.lt_or_ge b 1 with h4 | h4
        · have : b = 0 := by omega
          subst this
          exact absurd hv hbest.1
        · omega
      rw [hb, this]
  have hlv : ∀ v, v = 0 ∨ v = 2 → x'.s.part v = some 1 → Leaves rebCfg rebStart.s.part x'.s.part 0 v := by
    intro v hv h1
    refine ⟨(rebMov hv).1, (rebMov hv).2.1, by rw [h1]; decide⟩
  have hst : ∀ v, x'.s.part v = some 0 → ¬ Leaves rebCfg rebStart.s.part x'.s.part 0 v := fun v h1 h2 => h2.2.2 h1
  rcases hto 0 p0 with h0 | h0 <;> rcases hto 2 p2 with h2 | h2
  · exfalso
    rcases hR.enough 0 (by decide) rebOver with h3 | h3
    · have : rebCfg.H.blockWeight x'.s.part 0 = 2 := by
        show rbHG.blockWeight x'.s.part 0 = 2
        simp [HG.blockWeight, rbHG, h0, h2, e1, e3]
      rw [this] at h3
      exact absurd h3 (by decide)
    · exact hst 0 h0 (h3.2 0 (rebMov (Or.inl rfl)))
  · exact ⟨h0, h2⟩
  · exfalso
    have := hR.order 0 0 2 1 1 rebOver (hlv 0 (Or.inl rfl) h0) (rebMov (Or.inr rfl)) (hst 2 h2) h0 (rebBest p2)
    revert this
    unfold rank
    decide
  · exfalso
    obtain ⟨v, hv1, hv2⟩ := hR.minimal 0 (by decide) ⟨0, hlv 0 (Or.inl rfl) h0⟩
    have : rebCfg.H.blockWeight x'.s.part 0 = 0 := by
      show rbHG.blockWeight x'.s.part 0 = 0
      simp [HG.blockWeight, rbHG, h0, h2, e1, e3]
    rw [this] at hv2
    have h5 : (1 : Int) < 0 + 1 := hv2
    exact absurd h5 (by decide)

/-- Such a call exists; it takes one round and the connectivity decreases by 2. -/
theorem rebRun : ∃ x' g, Rebalance denseCon rebCfg rebStart x' g 1 ∧ x'.s.part 0 = some 0 ∧ x'.s.part 2 = some 1 := by
  obtain ⟨y, g, h⟩ := round_exists (C := denseCon) rebInput.env (rebReached.good rebInput)
  obtain ⟨h0, h2⟩ := rebRound h
  obtain ⟨_, _, _, _, hG, _⟩ := round_spec rebInput.env (rebReached.good rebInput) h
  have hR := C63_round rebInput rebReached h
  obtain ⟨p0, p1, p2, p3⟩ := rebPart
  have hno : ¬ Over rebCfg rebStart.s.part 1 := by unfold Over; decide
  have e1 := (hR.oneWay 1 1).2 hno p1
  have e3 := (hR.oneWay 1 3).2 hno p3
  have hz : numOver rebCfg y.s.wt = 0 := by
    refine (numOver_zero rebInput.env.wf hG).2 (fun a ha => ?_)
    have ha' : a < 2 := ha
    have hb0 : rbHG.blockWeight y.s.part 0 = 1 := by simp [HG.blockWeight, rbHG, h0, h2, e1, e3]
    have hb1 : rbHG.blockWeight y.s.part 1 = 3 := by simp [HG.blockWeight, rbHG, h0, h2, e1, e3]
    unfold Over
    rcases Nat.lt_or_ge a 1 with h4 | h4
    · have : a = 0 := by omega
      subst this
      show ¬ (1 : Int) < rbHG.blockWeight y.s.part 0
      rw [hb0]; decide
    · have : a = 1 := by omega
      subst this
      show ¬ (10 : Int) < rbHG.blockWeight y.s.part 1
      rw [hb1]; decide
  refine ⟨y, g, ?_, h0, h2⟩
  unfold Rebalance
  show Loop denseCon rebCfg (29 + 1) rebStart y g 1
  unfold Loop
  rw [if_neg (by decide)]
  refine ⟨y, g, 0, 0, h, ?_, by omega, by omega⟩
  show Loop denseCon rebCfg (28 + 1) y y 0 0
  unfold Loop
  rw [if_pos hz]
  exact ⟨rfl, rfl, rfl⟩

end DReb
end Verif
