import Verif.Model.DetFlow
import Verif.Lemmas.Flow3
/-! # Deterministic flow refinement: the moves of a matching -/
namespace Verif
namespace DFlow
open DetLP (Mv moveAll moveAll_other moveAll_mem Fit Good)
open Flow (eff eff_append Env exec_snoc startsOf_snoc step_other)
open CSt Rollback PHG

theorem set_same {α : Type} (f : Nat → α) (t : Nat) (a : α) : set f t a t = a := by simp [set]

theorem set_other {α : Type} (f : Nat → α) {t u : Nat} (a : α) (h : u ≠ t) : set f t a u = f u := by simp [set, h]

theorem set_apply {α : Type} (f : Nat → α) (t : Nat) (a : α) (u : Nat) : set f t a u = if u = t then a else f u := rfl

/-- The updates when the moves are performed one after the other, and no others. -/
def seqLog (H : HG) : Assign → List Mv → List EdgeUpdate
  | _, [] => []
  | Φ, m :: A => (if m.src = m.dst then [] else (H.inc m.node).map (fun e => H.mkUpdate Φ e m.node m.src m.dst)) ++ seqLog H (Φ.put m.node m.dst) A

theorem moveAll_append (Φ : Assign) (A B : List Mv) : moveAll Φ (A ++ B) = moveAll (moveAll Φ A) B := by unfold moveAll; rw [List.foldl_append]

theorem seqLog_snoc (H : HG) (m : Mv) (A : List Mv) : ∀ Φ : Assign, seqLog H Φ (A ++ [m]) = seqLog H Φ A ++
    (if m.src = m.dst then [] else (H.inc m.node).map (fun e => H.mkUpdate (moveAll Φ A) e m.node m.src m.dst)) := by
  induction A with
  | nil => intro Φ; simp [seqLog, moveAll]
  | cons a A ih => intro Φ; rw [List.cons_append, seqLog, ih, seqLog, List.append_assoc]; rfl

section
variable {H : HG} {k : Nat} {o : Metrics.Obj}

/-- The moves of one task: between the blocks `i` and `j`, from the current block. -/
structure TaskOK (H : HG) (Φ : Assign) (i j : Nat) (A : List Mv) : Prop where
  nodup : (A.map Mv.node).Nodup
  mem : ∀ m ∈ A, m.node ∈ H.nodes
  src : ∀ m ∈ A, Φ m.node = some m.src ∧ (m.src = i ∨ m.src = j)
  dst : ∀ m ∈ A, m.dst = i ∨ m.dst = j

theorem put_self {Φ : Assign} {u b : Nat} (h : Φ u = some b) : Φ.put u b = Φ := by
  funext v
  unfold Assign.put
  split_ifs with hv
  · rw [hv, h]
  · rfl

theorem pinsIn_pt {Φ Ψ : Assign} {e b : Nat} (h : ∀ v ∈ H.pins e, (Φ v = some b ↔ Ψ v = some b)) : H.pinsIn Φ e b = H.pinsIn Ψ e b := by
  unfold HG.pinsIn
  apply List.countP_congr
  intro v hv
  simpa using h v hv

/-- the gain of one move is the change of the objective -/
theorem attr_move (hw : H.WF) {Φ : Assign} (hall : ∀ v ∈ H.nodes, Φ v ≠ none) {u src dst : Nat} (hu : u ∈ H.nodes) (hs : Φ u = some src) (hne : src ≠ dst) :
    (((H.inc u).map (fun e => H.mkUpdate Φ e u src dst)).map (attrGain o)).sum = H.objective (Φ.put u dst) o - H.objective Φ o := by
  rw [objective_terms, objective_terms, List.map_map]
  have hsub : ∀ l : List Nat, (l.map (fun e => H.term (Φ.put u dst) e o)).sum - (l.map (fun e => H.term Φ e o)).sum =
      (l.map (fun e => H.term (Φ.put u dst) e o - H.term Φ e o)).sum := by
    intro l
    induction l with
    | nil => simp
    | cons a l ih => simp only [List.map_cons, List.sum_cons, ← ih]; omega
  rw [hsub]
  have hz : ∀ e ∈ H.edges, e ∉ H.inc u → H.term (Φ.put u dst) e o - H.term Φ e o = 0 := by
    intro e he hh
    rw [HG.term_congr (Φ := Φ.put u dst) (Ψ := Φ), sub_self]
    intro v hv
    unfold Assign.put
    rw [if_neg]
    rintro rfl
    exact hh ((hw.inc_iff v hu e).2 ⟨he, hv⟩)
  have hg : ∀ e ∈ H.inc u, H.term (Φ.put u dst) e o - H.term Φ e o = attrGain o (H.mkUpdate Φ e u src dst) := by
    intro e he
    obtain ⟨he', hp⟩ := (hw.inc_iff u hu e).1 he
    exact (attrGain_eq (hw.pins_nodup e he') hp hs hne (fun v hv => hall v (hw.pins_mem e he' v hv)) o).symm
  have hfilter : (H.edges.filter (fun e => decide (e ∈ H.inc u))).Perm (H.inc u) := by
    rw [List.perm_ext_iff_of_nodup (hw.edges_nodup.filter _) (hw.inc_nodup u hu)]
    intro e
    simp only [List.mem_filter, decide_eq_true_eq]
    exact ⟨fun h => h.2, fun h => ⟨((hw.inc_iff u hu e).1 h).1, h⟩⟩
  have h1 : ∀ l : List Nat, (∀ e ∈ l, e ∈ H.edges) → (l.map (fun e => H.term (Φ.put u dst) e o - H.term Φ e o)).sum =
      ((l.filter (fun e => decide (e ∈ H.inc u))).map (fun e => attrGain o (H.mkUpdate Φ e u src dst))).sum := by
    intro l
    induction l with
    | nil => intro _; simp
    | cons a l ih =>
      intro hl
      rw [List.map_cons, List.sum_cons, ih (fun e he => hl e (List.mem_cons_of_mem _ he))]
      by_cases ha : a ∈ H.inc u
      · rw [List.filter_cons_of_pos (by simpa using ha), List.map_cons, List.sum_cons, hg a ha]
      · rw [List.filter_cons_of_neg (by simpa using ha), hz a (hl a (by simp)) ha, zero_add]
  rw [h1 H.edges (fun _ h => h)]
  exact ((hfilter.map _).sum_eq).symm

theorem moveAll_some {Φ : Assign} (hall : ∀ v ∈ H.nodes, Φ v ≠ none) (A : List Mv) : ∀ v ∈ H.nodes, moveAll Φ A v ≠ none := by
  induction A using List.reverseRecOn with
  | nil => exact hall
  | append_singleton A a ih =>
    intro v hv
    rw [moveAll_append]
    show (moveAll Φ A).put a.node a.dst v ≠ none
    unfold Assign.put
    split_ifs
    · simp
    · exact ih v hv

/-- the gains of a sequence of moves sum up to the change of the objective -/
theorem attr_seq (hw : H.WF) (A : List Mv) : ∀ {Φ : Assign}, (∀ v ∈ H.nodes, Φ v ≠ none) → (A.map Mv.node).Nodup → (∀ m ∈ A, m.node ∈ H.nodes) →
    (∀ m ∈ A, Φ m.node = some m.src) → ((seqLog H Φ A).map (attrGain o)).sum = H.objective (moveAll Φ A) o - H.objective Φ o := by
  induction A with
  | nil => intro Φ _ _ _ _; simp [seqLog, moveAll]
  | cons a A ih =>
    intro Φ hall hn hm hs
    rw [List.map_cons, List.nodup_cons] at hn
    have hall' : ∀ v ∈ H.nodes, (Φ.put a.node a.dst) v ≠ none := moveAll_some hall [a]
    have := ih hall' hn.2 (fun m h => hm m (by simp [h])) (fun m h => by
      have : m.node ≠ a.node := fun hh => hn.1 (hh ▸ List.mem_map.2 ⟨m, h, rfl⟩)
      simp [Assign.put, this, hs m (by simp [h])])
    rw [seqLog, List.map_append, List.sum_append, this]
    show _ = H.objective (moveAll (Φ.put a.node a.dst) A) o - _
    by_cases h : a.src = a.dst
    · rw [if_pos h, put_self (by rw [hs a (by simp), h])]; simp
    · rw [if_neg h, attr_move hw hall (hm a (by simp)) (hs a (by simp)) h]; omega
end
end DFlow
end Verif
