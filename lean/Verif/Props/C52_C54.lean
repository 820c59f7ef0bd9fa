import Verif.Lemmas.DFlow10
import Verif.Props.C48_C49
/-!
# C52, C53, C54: deterministic flow-based refinement

* C52: in each round, every eligible pair of blocks is processed exactly once, in groups of disjoint pairs.
* C53: the reported improvements are exact, for every interleaving of the tasks that apply the moves.
* C54: the result does not depend on the schedule (partial: the flags of a packed bit vector can get lost).
-/
namespace Verif
namespace DFlow
open DetLP (Mv moveAll Good)
open Flow (Env Input Reached ReachedSparse)
open CSt Rollback PHG

variable {c : Cfg} {m mx : Nat} {limit : Nat → Int}

/-- The conditions on the computation of the moves for a pair of blocks: every node is moved at most once, from its current block to one of the two blocks. -/
abbrev ValidFlow (c : Cfg) : Prop := FlowOK c

/-! ## C52 -/

section generic
variable {σ : Type} {C : ConInfo σ} {L : C.Lawful m c.fc.k mx}

theorem round_pairs (E : Env c.fc m mx) (hF : FlowOK c) (hew : ∀ e ∈ c.fc.H.edges, 0 ≤ c.fc.H.ew e) {s : CSt σ} (hG : Good L c.fc.H s)
    {q0 : QG} {h0 : Sch} {order : List (Nat × Nat × Nat)} {n : Nat} {x y : DSt σ} {r : List Choice} (hx : RoundStart C c (start C c s q0 h0 order) n x)
    (he : roundExec C c { x with delta := 0 } r = some y) :
    (r.flatMap Choice.order).Nodup ∧
    (∀ i j, (i, j) ∈ r.flatMap Choice.order ↔ i < j ∧ j < c.fc.k ∧ (x.h.active i = true ∨ x.h.active j = true) ∧ x.q.weight i j > c.thr ∧
      (c.skip = true → n = 0 ∨ 0 < x.q.nimp i j)) ∧
    (∀ ch ∈ r, ch.order ≠ [] ∧ ch.order.Pairwise (fun p p' => p.1 ≠ p'.1 ∧ p.1 ≠ p'.2 ∧ p.2 ≠ p'.1 ∧ p.2 ≠ p'.2)) := by
  have hf := (fresh_start hG q0 h0 order).reached E hF hew hx
  have R := (hf.round E hF hew he).2
  have hp := hf.schedule E hF hew he
  have hn : x.h.round = n := by rw [(fresh_start (L := L) hG q0 h0 order).round_eq E hF hew hx, (start_active s q0 h0 order).2, Nat.zero_add]
  refine ⟨R.nodup, fun i j => ?_, fun ch hch => ⟨(R.each ch hch).1, (R.each ch hch).2.disj⟩⟩
  rw [hp.mem_iff, List.mem_filter, mem_allPairs]
  unfold eligible
  rw [hn]
  simp only [Bool.and_eq_true, Bool.or_eq_true, decide_eq_true_eq, Bool.not_eq_true', beq_iff_eq]
  constructor
  · rintro ⟨⟨h1, h2⟩, ⟨h3, h4⟩, h5⟩
    refine ⟨h1, h2, h3, h4, fun hs => ?_⟩
    rcases h5 with h5 | h5
    · rw [hs] at h5; cases h5
    · exact h5
  · rintro ⟨h1, h2, h3, h4, h5⟩
    refine ⟨⟨h1, h2⟩, ⟨h3, h4⟩, ?_⟩
    cases hs : c.skip with
    | false => exact Or.inl rfl
    | true => exact Or.inr (h5 hs)

theorem next_active (E : Env c.fc m mx) (hF : FlowOK c) (hew : ∀ e ∈ c.fc.H.edges, 0 ≤ c.fc.H.ew e) {s : CSt σ} (hG : Good L c.fc.H s)
    {q0 : QG} {h0 : Sch} {order : List (Nat × Nat × Nat)} {n : Nat} {x y : DSt σ} {r : List Choice} (hx : RoundStart C c (start C c s q0 h0 order) n x)
    (he : roundExec C c { x with delta := 0 } r = some y) (b : Nat) :
    ((resetRound c y.h y.q).active b = true → ∃ i j, (b = i ∨ b = j) ∧ x.q.nimp i j < y.q.nimp i j) ∧
    (CalmRound r → (∃ i j, (b = i ∨ b = j) ∧ x.q.nimp i j < y.q.nimp i j) → (resetRound c y.h y.q).active b = true) := by
  have hf := (fresh_start hG q0 h0 order).reached E hF hew hx
  obtain ⟨_, a2, a3⟩ := round_active (x := { x with delta := 0 }) E hF hew r hf.good hf.inv he
  have hact : (resetRound c y.h y.q).active b = y.h.next b := by
    rw [resetRound, (resetImpl_spec (c := c) _ _).2.1]
  rw [hact]
  refine ⟨fun hb => ?_, fun hc hb => (a3 hc b).2 (Or.inr hb)⟩
  rcases a2 b hb with h | h
  · simp only [] at h
    rw [hf.next] at h; cases h
  · exact h

theorem flow_result (E : Env c.fc m mx) (hF : FlowOK c) (hew : ∀ e ∈ c.fc.H.edges, 0 ≤ c.fc.H.ew e) {s : CSt σ} (hG : Good L c.fc.H s)
    {q0 : QG} {h0 : Sch} {order : List (Nat × Nat × Nat)} {y : DSt σ} {rs : List (List Choice)}
    (he : refine C c (start C c s q0 h0 order) none rs = some y) :
    c.fc.H.objective y.s.part c.fc.o = c.fc.H.objective s.part c.fc.o - y.total ∧
    (∀ b < c.fc.k, y.s.wt b = c.fc.H.blockWeight y.s.part b) ∧ (∀ v ∈ c.fc.H.nodes, ∃ b < c.fc.k, y.s.part v = some b) ∧
    (∀ e ∈ c.fc.H.edges, ∀ b < c.fc.k, C.pinCount y.s.con e b = c.fc.H.pinsIn y.s.part e b) := by
  obtain ⟨g, o⟩ := refine_obj E hF hew rs (fresh_start hG q0 h0 order) he
  refine ⟨?_, fun b hb => g.weight E.wf hb, fun v hv => g.inv.assigned v hv, fun e he b hb => ?_⟩
  · rw [o]; simp only [start]; omega
  · obtain ⟨T, r1, r2⟩ := (quiescent_sim E.wf g.inv g.wt g.quiet).con
    have : C.pinCount y.s.con e b = T e b := L.pinCount_eq r1 (E.fits e he).1 hb
    rw [this]; exact r2 e he b hb

theorem flow_bound (E : Env c.fc m mx) (hF : FlowOK c) (hM : Improving c) (hew : ∀ e ∈ c.fc.H.edges, 0 ≤ c.fc.H.ew e) (hne : ∀ e ∈ c.fc.H.edges, c.fc.H.pins e ≠ [])
    {s : CSt σ} (hG : Good L c.fc.H s) {q0 : QG} {h0 : Sch} {order : List (Nat × Nat × Nat)} {y : DSt σ} {rs : List (List Choice)}
    (he : refine C c (start C c s q0 h0 order) none rs = some y) : 0 ≤ y.total ∧ (rs.length : Int) ≤ c.fc.H.objective s.part c.fc.o + 1 := by
  have h1 := refine_rounds E hF hM hew rs (fresh_start hG q0 h0 order) he
  obtain ⟨g, o⟩ := refine_obj E hF hew rs (fresh_start hG q0 h0 order) he
  have h2 := refine_rel (L := L) E hF hew (fun s t => c.fc.H.objective t.part c.fc.o ≤ c.fc.H.objective s.part c.fc.o) (fun _ => le_refl _)
    (fun _ _ _ h1 h2 => le_trans h2 h1)
    (fun x y ms ch hG hms hR => by have := (hR.improving hM hG hms).1; rw [hR.delta] at this; rw [hR.obj]; omega) rs (fresh_start hG q0 h0 order) he
  have h3 := objective_nonneg hew hne (Φ := y.s.part) E.wf (fun v hv => by obtain ⟨b, _, hb⟩ := g.inv.assigned v hv; rw [hb]; simp) c.fc.o
  simp only [start] at h1 o h2
  constructor <;> omega

theorem flow_balance (E : Env c.fc m mx) (hF : FlowOK c) (hB : Balanced c limit) (hew : ∀ e ∈ c.fc.H.edges, 0 ≤ c.fc.H.ew e)
    {s : CSt σ} (hG : Good L c.fc.H s) {q0 : QG} {h0 : Sch} {order : List (Nat × Nat × Nat)} {y : DSt σ} {rs : List (List Choice)}
    (he : refine C c (start C c s q0 h0 order) none rs = some y) (b : Nat) :
    c.fc.H.blockWeight y.s.part b ≤ max (c.fc.H.blockWeight s.part b) (limit b) :=
  refine_rel (L := L) E hF hew (fun s t => c.fc.H.blockWeight t.part b ≤ max (c.fc.H.blockWeight s.part b) (limit b)) (fun _ => le_max_left _ _)
    (fun _ _ _ h1 h2 => le_trans h2 (max_le h1 (le_max_right _ _)))
    (fun x y ms ch hG hms hR => hR.balanced hF hB hG hms b) rs (fresh_start hG q0 h0 order) he

end generic

/-- **C52**. At any point of the refinement, consider a round: the processed pairs of blocks (of all matchings of the round) are pairwise different; they are
exactly the pairs with an active block, sufficient cut weight and, if unpromising pairs are skipped and this is not the first round (`n = 0`), an
improvement found before; every
matching is nonempty and consists of disjoint pairs. For all scheduling decisions. -/
theorem C52_round (hI : Input c.fc m mx) (hF : ValidFlow c) (hew : ∀ e ∈ c.fc.H.edges, 0 ≤ c.fc.H.ew e) {s : CSt (Packed × ConnSets)}
    (hs : Reached c.fc m mx s) {q0 : QG} {h0 : Sch} {order : List (Nat × Nat × Nat)} {n : Nat} {x y : DSt (Packed × ConnSets)} {r : List Choice}
    (hx : RoundStart denseCon c (start denseCon c s q0 h0 order) n x) (he : roundExec denseCon c { x with delta := 0 } r = some y) :
    (r.flatMap Choice.order).Nodup ∧
    (∀ i j, (i, j) ∈ r.flatMap Choice.order ↔ i < j ∧ j < c.fc.k ∧ (x.h.active i = true ∨ x.h.active j = true) ∧ x.q.weight i j > c.thr ∧
      (c.skip = true → n = 0 ∨ 0 < x.q.nimp i j)) ∧
    (∀ ch ∈ r, ch.order ≠ [] ∧ ch.order.Pairwise (fun p p' => p.1 ≠ p'.1 ∧ p.1 ≠ p'.2 ∧ p.2 ≠ p'.1 ∧ p.2 ≠ p'.2)) :=
  round_pairs hI.env hF hew (hs.good hI) hx he

/-- **C52** for the sparse partition data structure. -/
theorem C52_round_sparse (hI : Env c.fc m mx) (hF : ValidFlow c) (hew : ∀ e ∈ c.fc.H.edges, 0 ≤ c.fc.H.ew e) {s : CSt SparsePC}
    (hs : ReachedSparse c.fc s) {q0 : QG} {h0 : Sch} {order : List (Nat × Nat × Nat)} {n : Nat} {x y : DSt SparsePC} {r : List Choice}
    (hx : RoundStart sparseCon c (start sparseCon c s q0 h0 order) n x) (he : roundExec sparseCon c { x with delta := 0 } r = some y) :
    (r.flatMap Choice.order).Nodup ∧
    (∀ i j, (i, j) ∈ r.flatMap Choice.order ↔ i < j ∧ j < c.fc.k ∧ (x.h.active i = true ∨ x.h.active j = true) ∧ x.q.weight i j > c.thr ∧
      (c.skip = true → n = 0 ∨ 0 < x.q.nimp i j)) ∧
    (∀ ch ∈ r, ch.order ≠ [] ∧ ch.order.Pairwise (fun p p' => p.1 ≠ p'.1 ∧ p.1 ≠ p'.2 ∧ p.2 ≠ p'.1 ∧ p.2 ≠ p'.2)) :=
  round_pairs hI hF hew (ReachedSparse.good hI hs) hx he

/-- **C52**, first round: the processed pairs are exactly the pairs of blocks for which the hyperedges with pins in both blocks have a total weight above
the threshold. -/
theorem C52_first_round (hI : Input c.fc m mx) (hF : ValidFlow c) (hew : ∀ e ∈ c.fc.H.edges, 0 ≤ c.fc.H.ew e) {s : CSt (Packed × ConnSets)}
    (hs : Reached c.fc m mx s) {q0 : QG} {h0 : Sch} {order : List (Nat × Nat × Nat)}
    (ho : order.Perm (c.fc.H.edges.flatMap (initPushes denseCon s.con))) {y : DSt (Packed × ConnSets)} {r : List Choice}
    (he : roundExec denseCon c (start denseCon c s q0 h0 order) r = some y) (i j : Nat) :
    (i, j) ∈ r.flatMap Choice.order ↔ i < j ∧ j < c.fc.k ∧
      (c.fc.H.edges.map (fun e => if 0 < c.fc.H.pinsIn s.part e i ∧ 0 < c.fc.H.pinsIn s.part e j then c.fc.H.ew e else 0)).sum > c.thr := by
  have h := (C52_round (x := start denseCon c s q0 h0 order) hI hF hew hs .first (q0 := q0) (h0 := h0) (order := order) he).2.1 i j
  obtain ⟨a1, a2⟩ := start_active (C := denseCon) (c := c) s q0 h0 order
  rw [h, a1]
  constructor
  · rintro ⟨h1, h2, _, h4, _⟩
    rw [start_weight hI.env (hs.good hI) q0 h0 ho h1 h2] at h4
    exact ⟨h1, h2, h4⟩
  · rintro ⟨h1, h2, h4⟩
    rw [← start_weight hI.env (hs.good hI) q0 h0 ho h1 h2] at h4
    exact ⟨h1, h2, Or.inl rfl, h4, fun _ => Or.inl rfl⟩

/-- **C52**, later rounds: a block is active only if an improvement was found for a pair with this block in the previous round; and if no write to the packed
flags got lost, all these blocks are active. -/
theorem C52_next_round (hI : Input c.fc m mx) (hF : ValidFlow c) (hew : ∀ e ∈ c.fc.H.edges, 0 ≤ c.fc.H.ew e) {s : CSt (Packed × ConnSets)}
    (hs : Reached c.fc m mx s) {q0 : QG} {h0 : Sch} {order : List (Nat × Nat × Nat)} {n : Nat} {x y : DSt (Packed × ConnSets)} {r : List Choice}
    (hx : RoundStart denseCon c (start denseCon c s q0 h0 order) n x) (he : roundExec denseCon c { x with delta := 0 } r = some y) (b : Nat) :
    ((resetRound c y.h y.q).active b = true → ∃ i j, (b = i ∨ b = j) ∧ x.q.nimp i j < y.q.nimp i j) ∧
    (CalmRound r → (∃ i j, (b = i ∨ b = j) ∧ x.q.nimp i j < y.q.nimp i j) → (resetRound c y.h y.q).active b = true) :=
  next_active hI.env hF hew (hs.good hI) hx he b

/-- **C52**, nothing is missed: at the beginning of every round, every hyperedge with pins in two blocks is in the list that is passed to the search for this pair, and
every pair with an active block is processed if the hyperedges between the two blocks have a total weight above the threshold (and unpromising
pairs are not skipped, or it is the first round, or an improvement was found before). For all scheduling decisions so far. -/
theorem C52_complete (hI : Input c.fc m mx) (hF : ValidFlow c) (hew : ∀ e ∈ c.fc.H.edges, 0 ≤ c.fc.H.ew e) {s : CSt (Packed × ConnSets)}
    (hs : Reached c.fc m mx s) {q0 : QG} {h0 : Sch} {order : List (Nat × Nat × Nat)}
    (ho : order.Perm (c.fc.H.edges.flatMap (initPushes denseCon s.con))) {n : Nat} {x y : DSt (Packed × ConnSets)} {r : List Choice}
    (hx : RoundStart denseCon c (start denseCon c s q0 h0 order) n x) (he : roundExec denseCon c { x with delta := 0 } r = some y) {i j : Nat} (hij : i < j)
    (hj : j < c.fc.k) :
    (∀ e ∈ c.fc.H.edges, 0 < c.fc.H.pinsIn x.s.part e i → 0 < c.fc.H.pinsIn x.s.part e j → e ∈ x.q.cut i j) ∧
    ((c.fc.H.edges.map (fun e => if 0 < c.fc.H.pinsIn x.s.part e i ∧ 0 < c.fc.H.pinsIn x.s.part e j then c.fc.H.ew e else 0)).sum > c.thr →
      (x.h.active i = true ∨ x.h.active j = true) → (c.skip = true → n = 0 ∨ 0 < x.q.nimp i j) → (i, j) ∈ r.flatMap Choice.order) := by
  have hG := hs.good hI
  have Q := QInv.reached hI.env hF hew (fresh_start hG q0 h0 order) (QInv.start hI.env hG q0 h0 ho) hx
  refine ⟨fun e he hi hj' => Q.listed e he i j hij hj hi hj', fun hw ha hsk => ?_⟩
  exact ((C52_round hI hF hew hs hx he).2.1 i j).2 ⟨hij, hj, ha, lt_of_lt_of_le hw (Q.weight_ge hI.env hew hij hj), hsk⟩

/-- **C52**, nothing is missed, for the sparse partition data structure. -/
theorem C52_complete_sparse (hI : Env c.fc m mx) (hF : ValidFlow c) (hew : ∀ e ∈ c.fc.H.edges, 0 ≤ c.fc.H.ew e) {s : CSt SparsePC}
    (hs : ReachedSparse c.fc s) {q0 : QG} {h0 : Sch} {order : List (Nat × Nat × Nat)}
    (ho : order.Perm (c.fc.H.edges.flatMap (initPushes sparseCon s.con))) {n : Nat} {x y : DSt SparsePC} {r : List Choice}
    (hx : RoundStart sparseCon c (start sparseCon c s q0 h0 order) n x) (he : roundExec sparseCon c { x with delta := 0 } r = some y) {i j : Nat} (hij : i < j)
    (hj : j < c.fc.k) :
    (∀ e ∈ c.fc.H.edges, 0 < c.fc.H.pinsIn x.s.part e i → 0 < c.fc.H.pinsIn x.s.part e j → e ∈ x.q.cut i j) ∧
    ((c.fc.H.edges.map (fun e => if 0 < c.fc.H.pinsIn x.s.part e i ∧ 0 < c.fc.H.pinsIn x.s.part e j then c.fc.H.ew e else 0)).sum > c.thr →
      (x.h.active i = true ∨ x.h.active j = true) → (c.skip = true → n = 0 ∨ 0 < x.q.nimp i j) → (i, j) ∈ r.flatMap Choice.order) := by
  have hG := ReachedSparse.good hI hs
  have Q := QInv.reached hI hF hew (fresh_start hG q0 h0 order) (QInv.start hI hG q0 h0 ho) hx
  refine ⟨fun e he hi hj' => Q.listed e he i j hij hj hi hj', fun hw ha hsk => ?_⟩
  exact ((C52_round_sparse hI hF hew hs hx he).2.1 i j).2 ⟨hij, hj, ha, lt_of_lt_of_le hw (Q.weight_ge hI hew hij hj), hsk⟩

/-- **C52**, progress: while the moves of a matching are applied, in any state and for any task with work left, the next atomic step can be performed. -/
theorem C52_not_stuck (hI : Input c.fc m mx) (hF : ValidFlow c) {s : CSt (Packed × ConnSets)} (hs : Reached c.fc m mx s) {q : QG} {ts : List (Nat × Nat)}
    (hlt : ∀ p ∈ ts, p.1 < p.2 ∧ p.2 < c.fc.k) (hd : ts.Pairwise (fun p p' => p.1 ≠ p'.1 ∧ p.1 ≠ p'.2 ∧ p.2 ≠ p'.1 ∧ p.2 ≠ p'.2)) {as : List Nat}
    {x : TSt (Packed × ConnSets)} (he : texec denseCon c (taskStart c s q ts) as = some x) {t : Nat} (hw : x.todo t ≠ [] ∨ x.cur t ≠ none) :
    ∃ y, tstep denseCon c x t = some y := by
  have hG := hs.good hI
  have T := IsMatching.tasks hF (ts := ts) ⟨hlt, hd⟩ q (fun v hv => hG.inv.assigned v hv)
  exact ((TInv.start hG T).exec hI.env T as he).ready hI.env T hw

/-! ## C53 -/

/-- **C53**. After the refinement, for all scheduling decisions: the reported improvement is the difference of the objective, and the partition is consistent. -/
theorem C53_result (hI : Input c.fc m mx) (hF : ValidFlow c) (hew : ∀ e ∈ c.fc.H.edges, 0 ≤ c.fc.H.ew e) {s : CSt (Packed × ConnSets)}
    (hs : Reached c.fc m mx s) {q0 : QG} {h0 : Sch} {order : List (Nat × Nat × Nat)} {y : DSt (Packed × ConnSets)} {rs : List (List Choice)}
    (he : refine denseCon c (start denseCon c s q0 h0 order) none rs = some y) :
    c.fc.H.objective y.s.part c.fc.o = c.fc.H.objective s.part c.fc.o - y.total ∧
    (∀ b < c.fc.k, y.s.wt b = c.fc.H.blockWeight y.s.part b) ∧ (∀ v ∈ c.fc.H.nodes, ∃ b < c.fc.k, y.s.part v = some b) ∧
    (∀ e ∈ c.fc.H.edges, ∀ b < c.fc.k, denseCon.pinCount y.s.con e b = c.fc.H.pinsIn y.s.part e b) :=
  flow_result hI.env hF hew (hs.good hI) he

/-- **C53** for the sparse partition data structure. -/
theorem C53_result_sparse (hI : Env c.fc m mx) (hF : ValidFlow c) (hew : ∀ e ∈ c.fc.H.edges, 0 ≤ c.fc.H.ew e) {s : CSt SparsePC}
    (hs : ReachedSparse c.fc s) {q0 : QG} {h0 : Sch} {order : List (Nat × Nat × Nat)} {y : DSt SparsePC} {rs : List (List Choice)}
    (he : refine sparseCon c (start sparseCon c s q0 h0 order) none rs = some y) :
    c.fc.H.objective y.s.part c.fc.o = c.fc.H.objective s.part c.fc.o - y.total ∧
    (∀ b < c.fc.k, y.s.wt b = c.fc.H.blockWeight y.s.part b) ∧ (∀ v ∈ c.fc.H.nodes, ∃ b < c.fc.k, y.s.part v = some b) ∧
    (∀ e ∈ c.fc.H.edges, ∀ b < c.fc.k, sparseCon.pinCount y.s.con e b = c.fc.H.pinsIn y.s.part e b) :=
  flow_result hI hF hew (ReachedSparse.good hI hs) he

/-- **C53**, one matching: the improvement reported for each pair is the one its moves would have if they were the only ones, the improvements add up to the
difference of the objective, and the new partition is the one with all moves performed. -/
theorem C53_matching (hI : Input c.fc m mx) (hF : ValidFlow c) {x y : DSt (Packed × ConnSets)} (hs : Reached c.fc m mx x.s) {ms : List (Nat × Nat)}
    (hlt : ∀ p ∈ ms, p.1 < p.2 ∧ p.2 < c.fc.k) (hd : ms.Pairwise (fun p p' => p.1 ≠ p'.1 ∧ p.1 ≠ p'.2 ∧ p.2 ≠ p'.1 ∧ p.2 ≠ p'.2)) {ch : Choice}
    (he : matching denseCon c x ms ch = some y) :
    y.s.part = moveAll x.s.part (ch.order.flatMap (fun p => c.flow p.1 p.2 x.s.part ((x.q.cut p.1 p.2).insertionSort (· ≤ ·)))) ∧
    y.delta - x.delta = c.fc.H.objective x.s.part c.fc.o - c.fc.H.objective y.s.part c.fc.o ∧
    (∀ p ∈ ms, y.q.timp p.1 p.2 = x.q.timp p.1 p.2 + max 0 (c.fc.H.objective x.s.part c.fc.o -
      c.fc.H.objective (moveAll x.s.part (c.flow p.1 p.2 x.s.part ((x.q.cut p.1 p.2).insertionSort (· ≤ ·)))) c.fc.o)) := by
  have hms : IsMatching c.fc.k ms := ⟨hlt, hd⟩
  have M := matching_spec (L := denseLawful m c.fc.k mx) hI.env hF (hs.good hI) hms he
  refine ⟨M.part, by rw [M.obj, M.delta]; omega, fun p hp => ?_⟩
  obtain ⟨a1, a2, a3, a4⟩ := report_fold ch.order (gainOf c x.s.part x.q) (sortCut x.q ch.order)
  have e : y.q.timp p.1 p.2 = x.q.timp p.1 p.2 +
      ((ch.order.filter (fun p' => decide (p' = (p.1, p.2) ∧ gainOf c x.s.part x.q p' > 0))).map (gainOf c x.s.part x.q)).sum := by
    rw [M.q, (addAll_imp _ _ _).2, a4]; rfl
  have hpo : p ∈ ch.order := M.perm.mem_iff.2 hp
  have hN : ch.order.Nodup := (hms.perm M.perm).nodup
  rw [e]
  show _ = x.q.timp p.1 p.2 + max 0 (gainOf c x.s.part x.q p)
  congr 1
  by_cases hg : gainOf c x.s.part x.q p > 0
  · have : (ch.order.filter (fun p' => decide (p' = (p.1, p.2) ∧ gainOf c x.s.part x.q p' > 0))).Perm [p] := by
      rw [List.perm_ext_iff_of_nodup (hN.filter _) (List.nodup_singleton _)]
      intro p'
      rw [List.mem_filter, decide_eq_true_eq, List.mem_singleton]
      constructor
      · rintro ⟨_, h, _⟩; exact h
      · rintro rfl; exact ⟨hpo, rfl, hg⟩
    rw [(this.map _).sum_eq]
    simp; omega
  · have : ch.order.filter (fun p' => decide (p' = (p.1, p.2) ∧ gainOf c x.s.part x.q p' > 0)) = [] := by
      apply List.eq_nil_iff_forall_not_mem.2
      intro p' hp'
      obtain ⟨_, h⟩ := List.mem_filter.1 hp'
      obtain ⟨h1, h2⟩ := of_decide_eq_true h
      have : p' = p := h1
      subst this; exact hg h2
    rw [this]; simp; omega

/-- **C53**, never worse: if the moves of a pair alone never make the objective worse, the refinement does not either, and the number of rounds is at most the
objective plus one. -/
theorem C53_never_worse (hI : Input c.fc m mx) (hF : ValidFlow c) (hM : Improving c) (hew : ∀ e ∈ c.fc.H.edges, 0 ≤ c.fc.H.ew e)
    (hne : ∀ e ∈ c.fc.H.edges, c.fc.H.pins e ≠ []) {s : CSt (Packed × ConnSets)} (hs : Reached c.fc m mx s) {q0 : QG} {h0 : Sch}
    {order : List (Nat × Nat × Nat)} {y : DSt (Packed × ConnSets)} {rs : List (List Choice)}
    (he : refine denseCon c (start denseCon c s q0 h0 order) none rs = some y) :
    0 ≤ y.total ∧ (rs.length : Int) ≤ c.fc.H.objective s.part c.fc.o + 1 :=
  flow_bound hI.env hF hM hew hne (hs.good hI) he

/-- **C53**, balance: if the moves of a pair alone respect the maximum weights of its two blocks, the result of the refinement respects the maximum weights
of all blocks. -/
theorem C53_balanced (hI : Input c.fc m mx) (hF : ValidFlow c) (hB : Balanced c limit) (hew : ∀ e ∈ c.fc.H.edges, 0 ≤ c.fc.H.ew e)
    {s : CSt (Packed × ConnSets)} (hs : Reached c.fc m mx s) {q0 : QG} {h0 : Sch}
    {order : List (Nat × Nat × Nat)} {y : DSt (Packed × ConnSets)} {rs : List (List Choice)}
    (he : refine denseCon c (start denseCon c s q0 h0 order) none rs = some y) (b : Nat) :
    c.fc.H.blockWeight y.s.part b ≤ max (c.fc.H.blockWeight s.part b) (limit b) :=
  flow_balance hI.env hF hB hew (hs.good hI) he b

/-! ## C54 -/

/-- **C54** (partial). Two runs of the refinement that begin with the same partition, for all scheduling decisions of both runs, and possibly different internal
states of the connectivity sets: same partition, same block weights, same improvement and same number of rounds, **if no write to the packed flags of the
participation scheduler gets lost**. Missing: this condition holds by itself only for `k ≤ 3` (`C54_small_k`); in general it does not, and then the result
does depend on the schedule (`C54_lost_flag_witness`). -/
theorem C54_determinism_partial (hI : Input c.fc m mx) (hF : ValidFlow c) (hew : ∀ e ∈ c.fc.H.edges, 0 ≤ c.fc.H.ew e)
    {s s' : CSt (Packed × ConnSets)} (hs : Reached c.fc m mx s) (hs' : Reached c.fc m mx s') (hp : s'.part = s.part) {q0 : QG} {h0 : Sch}
    {order order' : List (Nat × Nat × Nat)} (ho : order.Perm (c.fc.H.edges.flatMap (initPushes denseCon s.con)))
    (ho' : order'.Perm (c.fc.H.edges.flatMap (initPushes denseCon s'.con))) {y y' : DSt (Packed × ConnSets)} {rs rs' : List (List Choice)}
    (he : refine denseCon c (start denseCon c s q0 h0 order) none rs = some y) (he' : refine denseCon c (start denseCon c s' q0 h0 order') none rs' = some y')
    (hc : ∀ r ∈ rs, CalmRound r) (hc' : ∀ r ∈ rs', CalmRound r) :
    y'.s.part = y.s.part ∧ y'.total = y.total ∧ rs'.length = rs.length ∧ ∀ b < c.fc.k, y'.s.wt b = y.s.wt b := by
  have hG := hs.good hI
  have hG' := hs'.good hI
  obtain ⟨s1, s2⟩ := start_same (C := denseCon) (L := denseLawful m c.fc.k mx) hI.env hG hG' hp q0 h0 ho ho'
  obtain ⟨r1, _, r3⟩ := refine_same hI.env hF hew rs s1 (by rw [s2]) (fresh_start hG q0 h0 order) (fresh_start hG' q0 h0 order') he he' hc hc'
  exact ⟨r1.part, r1.total, r3, fun b hb => by rw [r1.good.weight hI.env.wf hb, r1.good'.weight hI.env.wf hb, r1.part]⟩

/-- **C54** for the sparse partition data structure (partial, see `C54_determinism_partial`). -/
theorem C54_determinism_sparse_partial (hI : Env c.fc m mx) (hF : ValidFlow c) (hew : ∀ e ∈ c.fc.H.edges, 0 ≤ c.fc.H.ew e)
    {s s' : CSt SparsePC} (hs : ReachedSparse c.fc s) (hs' : ReachedSparse c.fc s') (hp : s'.part = s.part) {q0 : QG} {h0 : Sch}
    {order order' : List (Nat × Nat × Nat)} (ho : order.Perm (c.fc.H.edges.flatMap (initPushes sparseCon s.con)))
    (ho' : order'.Perm (c.fc.H.edges.flatMap (initPushes sparseCon s'.con))) {y y' : DSt SparsePC} {rs rs' : List (List Choice)}
    (he : refine sparseCon c (start sparseCon c s q0 h0 order) none rs = some y) (he' : refine sparseCon c (start sparseCon c s' q0 h0 order') none rs' = some y')
    (hc : ∀ r ∈ rs, CalmRound r) (hc' : ∀ r ∈ rs', CalmRound r) :
    y'.s.part = y.s.part ∧ y'.total = y.total ∧ rs'.length = rs.length ∧ ∀ b < c.fc.k, y'.s.wt b = y.s.wt b := by
  have hG := ReachedSparse.good (m := m) (mx := mx) hI hs
  have hG' := ReachedSparse.good (m := m) (mx := mx) hI hs'
  obtain ⟨s1, s2⟩ := start_same (C := sparseCon) (L := sparseLawful m c.fc.k mx) hI hG hG' hp q0 h0 ho ho'
  obtain ⟨r1, _, r3⟩ := refine_same hI hF hew rs s1 (by rw [s2]) (fresh_start hG q0 h0 order) (fresh_start hG' q0 h0 order') he he' hc hc'
  exact ⟨r1.part, r1.total, r3, fun b hb => by rw [r1.good.weight hI.wf hb, r1.good'.weight hI.wf hb, r1.part]⟩

/-- **C54**, up to three blocks: the result is independent of all scheduling decisions. -/
theorem C54_small_k (hI : Input c.fc m mx) (hk : c.fc.k ≤ 3) (hF : ValidFlow c) (hew : ∀ e ∈ c.fc.H.edges, 0 ≤ c.fc.H.ew e)
    {s s' : CSt (Packed × ConnSets)} (hs : Reached c.fc m mx s) (hs' : Reached c.fc m mx s') (hp : s'.part = s.part) {q0 : QG} {h0 : Sch}
    {order order' : List (Nat × Nat × Nat)} (ho : order.Perm (c.fc.H.edges.flatMap (initPushes denseCon s.con)))
    (ho' : order'.Perm (c.fc.H.edges.flatMap (initPushes denseCon s'.con))) {y y' : DSt (Packed × ConnSets)} {rs rs' : List (List Choice)}
    (he : refine denseCon c (start denseCon c s q0 h0 order) none rs = some y) (he' : refine denseCon c (start denseCon c s' q0 h0 order') none rs' = some y') :
    y'.s.part = y.s.part ∧ y'.total = y.total ∧ rs'.length = rs.length ∧ ∀ b < c.fc.k, y'.s.wt b = y.s.wt b :=
  C54_determinism_partial hI hF hew hs hs' hp ho ho' he he'
    (round_calm_small (L := denseLawful m c.fc.k mx) hI.env hF hew hk rs (fresh_start (hs.good hI) q0 h0 order) he)
    (round_calm_small (L := denseLawful m c.fc.k mx) hI.env hF hew hk rs' (fresh_start (hs'.good hI) q0 h0 order') he')

/-- **C54**, first round: for any number of blocks, the partition and the improvement after the first round are independent of all scheduling decisions. -/
theorem C54_first_round (hI : Input c.fc m mx) (hF : ValidFlow c) (hew : ∀ e ∈ c.fc.H.edges, 0 ≤ c.fc.H.ew e)
    {s s' : CSt (Packed × ConnSets)} (hs : Reached c.fc m mx s) (hs' : Reached c.fc m mx s') (hp : s'.part = s.part) {q0 : QG} {h0 : Sch}
    {order order' : List (Nat × Nat × Nat)} (ho : order.Perm (c.fc.H.edges.flatMap (initPushes denseCon s.con)))
    (ho' : order'.Perm (c.fc.H.edges.flatMap (initPushes denseCon s'.con))) {y y' : DSt (Packed × ConnSets)} {r r' : List Choice}
    (he : roundExec denseCon c (start denseCon c s q0 h0 order) r = some y) (he' : roundExec denseCon c (start denseCon c s' q0 h0 order') r' = some y') :
    y'.s.part = y.s.part ∧ y'.delta = y.delta ∧ r'.length = r.length := by
  have hG := hs.good hI
  have hG' := hs'.good hI
  obtain ⟨s1, s2⟩ := start_same (C := denseCon) (L := denseLawful m c.fc.k mx) hI.env hG hG' hp q0 h0 ho ho'
  obtain ⟨r1, r2, _⟩ := round_same hI.env hF hew r s1 (fresh_start (L := denseLawful m c.fc.k mx) hG q0 h0 order).inv
    (fresh_start (L := denseLawful m c.fc.k mx) hG' q0 h0 order').inv he he'
  exact ⟨r1.part, r1.delta, r2⟩

/-! ## A concrete instance

Four blocks; the pairs (0, 1) and (2, 3) form one matching. -/

def dfHG : HG where
  nodes := [0, 1, 2, 3, 4]
  edges := [0, 1, 2]
  pins := fun e => if e = 0 then [0, 1] else if e = 1 then [2, 3] else if e = 2 then [3, 4] else []
  inc := fun v => if v = 0 then [0] else if v = 1 then [0] else if v = 2 then [1] else if v = 3 then [1, 2] else if v = 4 then [2] else []
  nw := fun _ => 1
  ew := fun e => if e = 2 then 1 else 3

theorem dfHG_wf : dfHG.WF where
  nodes_nodup := by decide
  edges_nodup := by decide
  pins_mem := by decide
  pins_nodup := by decide
  inc_nodup := by decide
  inc_iff := by
    intro v hv e
    simp only [dfHG, List.mem_cons, List.not_mem_nil, or_false] at hv
    rcases hv with rfl | rfl | rfl | rfl | rfl <;> by_cases h0 : e = 0 <;> by_cases h1 : e = 1 <;>
      by_cases h2 : e = 2 <;> simp [dfHG, h0, h1, h2]

def dfOs : List PHOp :=
  [.build (fun v => if v = 0 then 0 else if v = 1 then 1 else if v = 3 then 3 else 2) [3, 1, 0, 2, 4] (fun _ => [[2, 3], [0, 1, 4]]) [1, 0, 2]]

theorem dfOs_legal : PHOp.AllLegal dfHG 4 (fun _ => none) dfOs :=
  ⟨⟨by decide, by decide, fun b _ => (by decide : [2, 3, 0, 1, 4].Perm [0, 1, 2, 3, 4]), by decide⟩, trivial⟩

def dfS : CSt (Packed × ConnSets) := CSt.begin (denseRun dfHG 3 4 2 dfOs) (fun _ => 0)

/-- a node moves next to a neighbor that is alone in its block's side of the hyperedge -/
def dfFlow (i j : Nat) (Φ : Assign) (_ : List Nat) : List Mv :=
  if i = 0 ∧ j = 1 ∧ Φ 0 = some 0 ∧ Φ 1 = some 1 then [⟨0, 0, 1, 0⟩]
  else if i = 2 ∧ j = 3 ∧ Φ 2 = some 2 ∧ Φ 3 = some 3 then [⟨2, 2, 3, 0⟩]
  else if i = 2 ∧ j = 3 ∧ Φ 4 = some 2 ∧ Φ 3 = some 3 then [⟨4, 2, 3, 0⟩]
  else []

def dfCfg : Cfg := ⟨⟨dfHG, 4, .km1, fun _ => 5⟩, 0, false, 0, dfFlow⟩

theorem dfInput : Input dfCfg.fc 3 2 where
  env := ⟨dfHG_wf, by intro e he; revert e; decide, by decide, by decide⟩
  k := by decide
  mx0 := by decide
  mx1 := by decide

theorem dfReached : Reached dfCfg.fc 3 2 dfS := ⟨dfOs, fun _ => 0, [], dfOs_legal, by decide, rfl, by decide⟩

theorem dfValid : ValidFlow dfCfg := by
  intro i j Φ es _ _ _
  show TaskOK dfHG Φ i j (dfFlow i j Φ es)
  unfold dfFlow
  split_ifs with h1 h2 h3
  · obtain ⟨rfl, rfl, h, _⟩ := h1
    exact ⟨by simp, by simp [dfHG], by simp [h], by simp⟩
  · obtain ⟨rfl, rfl, h, _⟩ := h2
    exact ⟨by simp, by simp [dfHG], by simp [h], by simp⟩
  · obtain ⟨rfl, rfl, h, _⟩ := h3
    exact ⟨by simp, by simp [dfHG], by simp [h], by simp⟩
  · exact ⟨by simp, by simp, by simp, by simp⟩

theorem dfBalanced : Balanced dfCfg (fun _ => 5) := by
  intro i j Φ es _ _ _ b _
  refine le_trans ?_ (le_max_right _ _)
  show (((dfHG.nodes.filter (fun v => moveAll Φ (dfFlow i j Φ es) v = some b)).map dfHG.nw).sum : Int) ≤ 5
  have h1 : ((dfHG.nodes.filter (fun v => moveAll Φ (dfFlow i j Φ es) v = some b)).map dfHG.nw) =
      List.replicate (dfHG.nodes.filter (fun v => moveAll Φ (dfFlow i j Φ es) v = some b)).length 1 := by
    rw [List.eq_replicate_iff]
    exact ⟨by simp, fun x hx => by obtain ⟨v, _, rfl⟩ := List.mem_map.1 hx; rfl⟩
  have h2 := List.length_filter_le (fun v => decide (moveAll Φ (dfFlow i j Φ es) v = some b)) dfHG.nodes
  have h3 : dfHG.nodes.length = 5 := rfl
  rw [h1, List.sum_replicate]
  simp; omega

theorem lam_pair {Φ : Assign} {e u v a b : Nat} (hp : dfHG.pins e = [u, v]) (hu : Φ u = some a) (hv : Φ v = some b) :
    dfHG.lam Φ e = if a = b then 1 else 2 := by
  unfold HG.lam HG.blocksOf
  rw [hp]
  simp only [List.filterMap_cons, hu, hv, List.filterMap_nil]
  split_ifs with h
  · subst h; simp
  · simp [h]

theorem dfImproving : Improving dfCfg := by
  intro i j Φ es _ _ hall
  have hk : ∀ v ∈ [0, 1, 2, 3, 4], ∃ b, Φ v = some b := fun v hv => by obtain ⟨b, _, hb⟩ := hall v hv; exact ⟨b, hb⟩
  obtain ⟨b0, h0⟩ := hk 0 (by simp)
  obtain ⟨b1, h1⟩ := hk 1 (by simp)
  obtain ⟨b2, h2⟩ := hk 2 (by simp)
  obtain ⟨b3, h3⟩ := hk 3 (by simp)
  obtain ⟨b4, h4⟩ := hk 4 (by simp)
  have obj : ∀ Ψ : Assign, dfHG.objective Ψ .km1 = ((dfHG.lam Ψ 0 : Int) - 1) * 3 + (((dfHG.lam Ψ 1 : Int) - 1) * 3 + (((dfHG.lam Ψ 2 : Int) - 1) * 1 + 0)) := by
    intro Ψ; rfl
  show dfHG.objective (moveAll Φ (dfFlow i j Φ es)) .km1 ≤ dfHG.objective Φ .km1
  have hcase : (dfFlow i j Φ es = [⟨0, 0, 1, 0⟩] ∧ b0 = 0 ∧ b1 = 1) ∨ (dfFlow i j Φ es = [⟨2, 2, 3, 0⟩] ∧ b2 = 2 ∧ b3 = 3) ∨
      (dfFlow i j Φ es = [⟨4, 2, 3, 0⟩] ∧ b4 = 2 ∧ b3 = 3) ∨ dfFlow i j Φ es = [] := by
    unfold dfFlow
    rw [h0, h1, h2, h3, h4]
    simp only [Option.some.injEq]
    split_ifs with c1 c2 c3
    · exact Or.inl ⟨rfl, c1.2.2⟩
    · exact Or.inr (Or.inl ⟨rfl, c2.2.2⟩)
    · exact Or.inr (Or.inr (Or.inl ⟨rfl, c3.2.2⟩))
    · exact Or.inr (Or.inr (Or.inr rfl))
  rw [obj, obj, lam_pair (e := 0) (u := 0) (v := 1) rfl h0 h1, lam_pair (e := 1) (u := 2) (v := 3) rfl h2 h3, lam_pair (e := 2) (u := 3) (v := 4) rfl h3 h4]
  rcases hcase with ⟨hf, rfl, rfl⟩ | ⟨hf, rfl, rfl⟩ | ⟨hf, rfl, rfl⟩ | hf
  · rw [hf, lam_pair (e := 0) (u := 0) (v := 1) (a := 1) (b := 1) rfl (by simp [moveAll, Assign.put]) (by simp [moveAll, Assign.put, h1]),
      lam_pair (e := 1) (u := 2) (v := 3) (a := b2) (b := b3) rfl (by simp [moveAll, Assign.put, h2]) (by simp [moveAll, Assign.put, h3]),
      lam_pair (e := 2) (u := 3) (v := 4) (a := b3) (b := b4) rfl (by simp [moveAll, Assign.put, h3]) (by simp [moveAll, Assign.put, h4])]
    simp
  · rw [hf, lam_pair (e := 0) (u := 0) (v := 1) (a := b0) (b := b1) rfl (by simp [moveAll, Assign.put, h0]) (by simp [moveAll, Assign.put, h1]),
      lam_pair (e := 1) (u := 2) (v := 3) (a := 3) (b := 3) rfl (by simp [moveAll, Assign.put]) (by simp [moveAll, Assign.put, h3]),
      lam_pair (e := 2) (u := 3) (v := 4) (a := 3) (b := b4) rfl (by simp [moveAll, Assign.put, h3]) (by simp [moveAll, Assign.put, h4])]
    simp
  · rw [hf, lam_pair (e := 0) (u := 0) (v := 1) (a := b0) (b := b1) rfl (by simp [moveAll, Assign.put, h0]) (by simp [moveAll, Assign.put, h1]),
      lam_pair (e := 1) (u := 2) (v := 3) (a := b2) (b := 3) rfl (by simp [moveAll, Assign.put, h2]) (by simp [moveAll, Assign.put, h3]),
      lam_pair (e := 2) (u := 3) (v := 4) (a := 3) (b := 3) rfl (by simp [moveAll, Assign.put, h3]) (by simp [moveAll, Assign.put])]
    simp
  · rw [hf, show moveAll Φ [] = Φ from rfl, lam_pair (e := 0) (u := 0) (v := 1) rfl h0 h1, lam_pair (e := 1) (u := 2) (v := 3) rfl h2 h3,
      lam_pair (e := 2) (u := 3) (v := 4) rfl h3 h4]

def dfQ : QG := ⟨fun _ _ => [], fun _ _ => 0, fun _ _ => 0, fun _ _ => 0⟩
def dfSch : Sch := ⟨fun _ => false, fun _ => false, fun _ _ => false, fun _ => 0, fun _ => [], 0⟩
def dfStart : DSt (Packed × ConnSets) := start denseCon dfCfg dfS dfQ dfSch [(2, 3, 1), (0, 1, 0), (2, 3, 2)]

/-- Three rounds; the two tasks of the first matching are interleaved, the flags are written one after the other. -/
def dfCalm : List (List Choice) :=
  [[⟨[(2, 3), (0, 1)], (List.replicate 11 [0, 1]).flatten, [], [0, 0, 1, 1, 0, 0, 1, 1]⟩],
   [⟨[(0, 1), (2, 3)], List.replicate 11 1, [], [1, 1, 1, 1]⟩],
   [⟨[(2, 3)], [], [], []⟩]]

/-- The same with other orders. -/
def dfCalm' : List (List Choice) :=
  [[⟨[(0, 1), (2, 3)], List.replicate 11 1 ++ List.replicate 11 0, [], [1, 1, 1, 1, 0, 0, 0, 0]⟩],
   [⟨[(2, 3), (0, 1)], List.replicate 11 0, [], [0, 0, 0, 0]⟩],
   [⟨[(2, 3)], [], [], []⟩]]

/-- In the first matching, task 0 reads the word with the flags, task 1 marks the blocks 2 and 3, then task 0 writes the word back. -/
def dfRace : List (List Choice) :=
  [[⟨[(0, 1), (2, 3)], List.replicate 11 1 ++ List.replicate 11 0, [], [0, 1, 1, 1, 1, 0, 0, 0]⟩],
   [⟨[(0, 1)], [], [], []⟩]]

/-- summary of the final state -/
def dfSum (y : DSt (Packed × ConnSets)) : Int × List (Option Nat) := (y.total, [0, 1, 2, 3, 4].map y.s.part)

set_option synthInstance.maxSize 1000 in
theorem dfCalm_sum : (refine denseCon dfCfg dfStart none dfCalm).map dfSum = some (7, [some 1, some 1, some 3, some 3, some 3]) := by decide +kernel

set_option synthInstance.maxSize 1000 in
theorem dfCalm'_sum : (refine denseCon dfCfg dfStart none dfCalm').map dfSum = some (7, [some 1, some 1, some 3, some 3, some 3]) := by decide +kernel

set_option synthInstance.maxSize 1000 in
theorem dfRace_sum : (refine denseCon dfCfg dfStart none dfRace).map dfSum = some (6, [some 1, some 1, some 3, some 3, some 2]) := by decide +kernel

theorem dfOrder : [(2, 3, 1), (0, 1, 0), (2, 3, 2)].Perm (dfCfg.fc.H.edges.flatMap (initPushes denseCon dfS.con)) := by
  have h : dfCfg.fc.H.edges.flatMap (initPushes denseCon dfS.con) = [(0, 1, 0), (2, 3, 1), (2, 3, 2)] := by decide +kernel
  rw [h]; decide

theorem dfCalm_calm : ∀ r ∈ dfCalm, CalmRound r := by
  intro r hr ch hch
  simp only [dfCalm, List.mem_cons, List.not_mem_nil, or_false] at hr
  rcases hr with rfl | rfl | rfl <;> simp only [List.mem_cons, List.not_mem_nil, or_false] at hch <;> subst hch
  · exact Or.inr ⟨[0, 1, 0, 1], rfl⟩
  · exact Or.inr ⟨[1, 1], rfl⟩
  · exact Or.inr ⟨[], rfl⟩

theorem dfCalm'_calm : ∀ r ∈ dfCalm', CalmRound r := by
  intro r hr ch hch
  simp only [dfCalm', List.mem_cons, List.not_mem_nil, or_false] at hr
  rcases hr with rfl | rfl | rfl <;> simp only [List.mem_cons, List.not_mem_nil, or_false] at hch <;> subst hch
  · exact Or.inr ⟨[1, 1, 0, 0], rfl⟩
  · exact Or.inr ⟨[0, 0], rfl⟩
  · exact Or.inr ⟨[], rfl⟩

theorem dfWeights : ∀ e ∈ dfCfg.fc.H.edges, 0 ≤ dfCfg.fc.H.ew e := by decide
theorem dfNonempty : ∀ e ∈ dfCfg.fc.H.edges, dfCfg.fc.H.pins e ≠ [] := by decide

/-- the hypotheses of C53 are met: the refinement improves the objective by 7 in 3 rounds -/
example : ∃ y, refine denseCon dfCfg dfStart none dfCalm = some y ∧ y.total = 7 ∧ y.s.part 4 = some 3 ∧
    dfHG.objective y.s.part .km1 = dfHG.objective dfS.part .km1 - 7 ∧ (dfCalm.length : Int) ≤ dfHG.objective dfS.part .km1 + 1 ∧
    dfHG.blockWeight y.s.part 3 ≤ max (dfHG.blockWeight dfS.part 3) 5 := by
  have h := dfCalm_sum
  cases hy : refine denseCon dfCfg dfStart none dfCalm with
  | none => rw [hy] at h; simp at h
  | some y =>
    rw [hy] at h
    simp only [Option.map_some, dfSum, Option.some.injEq, Prod.mk.injEq, List.map_cons, List.cons.injEq] at h
    have h1 := (C53_result dfInput dfValid dfWeights dfReached hy).1
    have h2 := (C53_never_worse dfInput dfValid dfImproving dfWeights dfNonempty dfReached hy).2
    have h3 := C53_balanced (limit := fun _ => 5) dfInput dfValid dfBalanced dfWeights dfReached hy 3
    rw [h.1] at h1
    exact ⟨y, rfl, h.1, h.2.2.2.2.2.1, h1, h2, h3⟩

/-- the hypotheses of C54 are met by two different schedules -/
example : ∃ y y', refine denseCon dfCfg dfStart none dfCalm = some y ∧ refine denseCon dfCfg dfStart none dfCalm' = some y' ∧ y'.s.part = y.s.part ∧
    y.s.part 4 = some 3 := by
  have h := dfCalm_sum
  have h' := dfCalm'_sum
  cases hy : refine denseCon dfCfg dfStart none dfCalm with
  | none => rw [hy] at h; simp at h
  | some y =>
    cases hy' : refine denseCon dfCfg dfStart none dfCalm' with
    | none => rw [hy'] at h'; simp at h'
    | some y' =>
      rw [hy] at h
      simp only [Option.map_some, dfSum, Option.some.injEq, Prod.mk.injEq, List.map_cons, List.cons.injEq] at h
      exact ⟨y, y', rfl, rfl, (C54_determinism_partial dfInput dfValid dfWeights dfReached dfReached rfl dfOrder dfOrder hy hy' dfCalm_calm dfCalm'_calm).1,
        h.2.2.2.2.2.1⟩

/-- the hypotheses of C52 are met: in the first round, the pairs (0, 1) and (2, 3) are processed, and no other pair -/
example : ∃ y, roundExec denseCon dfCfg dfStart (dfCalm.headD []) = some y ∧
    ∀ i j, (i, j) ∈ (dfCalm.headD []).flatMap Choice.order ↔ (i, j) = (2, 3) ∨ (i, j) = (0, 1) := by
  have h : (roundExec denseCon dfCfg dfStart (dfCalm.headD [])).isSome = true := by decide +kernel
  obtain ⟨y, hy⟩ := Option.isSome_iff_exists.1 h
  refine ⟨y, hy, fun i j => ?_⟩
  simp [dfCalm]

/-- **C54** (finding). The flags that activate blocks for the next round are written by concurrent tasks to a packed bit vector; a flag can get lost. Two runs
of the "deterministic" refinement with the same input give different partitions: here node 4 is in block 3 or in block 2 (and the objective differs). -/
theorem C54_lost_flag_witness : ∃ y y', refine denseCon dfCfg dfStart none dfCalm = some y ∧ refine denseCon dfCfg dfStart none dfRace = some y' ∧
    y.s.part 4 = some 3 ∧ y'.s.part 4 = some 2 ∧ y'.total < y.total := by
  have h := dfCalm_sum
  have h' := dfRace_sum
  cases hy : refine denseCon dfCfg dfStart none dfCalm with
  | none => rw [hy] at h; simp at h
  | some y =>
    cases hy' : refine denseCon dfCfg dfStart none dfRace with
    | none => rw [hy'] at h'; simp at h'
    | some y' =>
      rw [hy] at h
      rw [hy'] at h'
      simp only [Option.map_some, dfSum, Option.some.injEq, Prod.mk.injEq, List.map_cons, List.cons.injEq] at h h'
      exact ⟨y, y', rfl, rfl, h.2.2.2.2.2.1, h'.2.2.2.2.2.1, by rw [h.1, h'.1]; decide⟩

/-! Two blocks. -/

def dfOs2 : List PHOp := [.build (fun v => if v = 0 then 0 else 1) [3, 1, 0, 2, 4] (fun _ => [[2, 3], [0, 1, 4]]) [1, 0, 2]]

theorem dfOs2_legal : PHOp.AllLegal dfHG 2 (fun _ => none) dfOs2 :=
  ⟨⟨by decide, by decide, fun b _ => (by decide : [2, 3, 0, 1, 4].Perm [0, 1, 2, 3, 4]), by decide⟩, trivial⟩

def dfS2 : CSt (Packed × ConnSets) := CSt.begin (denseRun dfHG 3 2 2 dfOs2) (fun _ => 0)
def dfCfg2 : Cfg := ⟨⟨dfHG, 2, .km1, fun _ => 5⟩, 0, false, 0, dfFlow⟩

theorem dfInput2 : Input dfCfg2.fc 3 2 where
  env := ⟨dfHG_wf, by intro e he; revert e; decide, by decide, by decide⟩
  k := by decide
  mx0 := by decide
  mx1 := by decide

theorem dfReached2 : Reached dfCfg2.fc 3 2 dfS2 := ⟨dfOs2, fun _ => 0, [], dfOs2_legal, by decide, rfl, by decide⟩

theorem dfValid2 : ValidFlow dfCfg2 := fun i j Φ es h1 h2 h3 =>
  dfValid i j Φ es h1 (Nat.lt_of_lt_of_le h2 (by decide)) (fun v hv => by obtain ⟨b, hb, h⟩ := h3 v hv; exact ⟨b, Nat.lt_of_lt_of_le hb (by decide), h⟩)

def dfRun2 : List (List Choice) := [[⟨[(0, 1)], List.replicate 11 0, [], [0, 0, 0, 0]⟩], [⟨[(0, 1)], [], [], []⟩]]

set_option synthInstance.maxSize 1000 in
theorem dfRun2_sum : (refine denseCon dfCfg2 (start denseCon dfCfg2 dfS2 dfQ dfSch [(0, 1, 0)]) none dfRun2).map dfSum =
    some (3, [some 1, some 1, some 1, some 1, some 1]) := by decide +kernel

/-- the hypotheses of `C54_small_k` are met: every run of the refinement gives this partition -/
example {y' : DSt (Packed × ConnSets)} {rs' : List (List Choice)} (he' : refine denseCon dfCfg2 (start denseCon dfCfg2 dfS2 dfQ dfSch [(0, 1, 0)]) none rs' = some y') :
    y'.s.part 0 = some 1 ∧ y'.total = 3 := by
  have h := dfRun2_sum
  cases hy : refine denseCon dfCfg2 (start denseCon dfCfg2 dfS2 dfQ dfSch [(0, 1, 0)]) none dfRun2 with
  | none => rw [hy] at h; simp at h
  | some y =>
    rw [hy] at h
    simp only [Option.map_some, dfSum, Option.some.injEq, Prod.mk.injEq, List.map_cons, List.cons.injEq] at h
    have ho : [(0, 1, 0)].Perm (dfCfg2.fc.H.edges.flatMap (initPushes denseCon dfS2.con)) := by
      have h : dfCfg2.fc.H.edges.flatMap (initPushes denseCon dfS2.con) = [(0, 1, 0)] := by decide +kernel
      rw [h]
    obtain ⟨p1, p2, _⟩ := C54_small_k dfInput2 (by decide) dfValid2 (by decide) dfReached2 dfReached2 rfl ho ho hy he'
    rw [p1, p2]
    exact ⟨h.2.1, h.1⟩

end DFlow
end Verif
