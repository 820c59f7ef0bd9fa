import Verif.Model.FlowScheduler
import Verif.Lemmas.DetLP3
namespace Verif
namespace Flow
open DetLP (Mv moveAll Fit Good)
open CSt Rollback PHG

/-! ### Block weights -/

theorem addWt_apply (w : Nat → Int) (i : Nat) (x : Int) (b : Nat) : addWt w i x b = w b + if b = i then x else 0 := by
  unfold addWt
  split_ifs <;> simp

theorem undo_apply (d : Nat → Int) : ∀ (i : Nat) (pw : Nat → Int) (b : Nat), undo d i pw b = pw b - if b < i then d b else 0 := by
  intro i
  induction i with
  | zero => intro pw b; simp [undo]
  | succ i ih =>
    intro pw b
    rw [undo, ih, addWt_apply]
    by_cases h : b = i
    · subst h; simp; omega
    · have : b < i + 1 ↔ b < i := by omega
      simp [h, this]

theorem updateFrom_spec (mx d pw0 : Nat → Int) : ∀ (n i : Nat) (pw : Nat → Int), (∀ b, pw b = pw0 b + if b < i then d b else 0) →
    (∀ b, b < i → pw0 b + d b ≤ mx b) →
    ((updateFrom mx d n i pw).1 = true ↔ ∀ b, b < i + n → pw0 b + d b ≤ mx b) ∧
    (∀ b, (updateFrom mx d n i pw).2 b = pw0 b + if (updateFrom mx d n i pw).1 = true ∧ b < i + n then d b else 0) := by
  intro n
  induction n with
  | zero => intro i pw h1 h2; simpa [updateFrom, h1] using h2
  | succ n ih =>
    intro i pw h1 h2
    have hi : pw i = pw0 i := by rw [h1 i]; simp
    by_cases hc : pw i + d i > mx i
    · have e : updateFrom mx d (n + 1) i pw = (false, undo d i pw) := by rw [updateFrom, if_pos hc]
      rw [e]
      constructor
      · simp only [Bool.false_eq_true, false_iff]
        intro hh
        have := hh i (by omega)
        omega
      · intro b
        show undo d i pw b = _
        rw [undo_apply, h1 b]
        simp
    · have e : updateFrom mx d (n + 1) i pw = updateFrom mx d n (i + 1) (addWt pw i (d i)) := by rw [updateFrom, if_neg hc]
      rw [e]
      have := ih (i + 1) (addWt pw i (d i)) ?_ ?_
      · have e2 : i + 1 + n = i + (n + 1) := by omega
        rw [e2] at this
        exact this
      · intro b
        rw [addWt_apply, h1 b]
        by_cases hb : b = i
        · subst hb; simp
        · have : b < i + 1 ↔ b < i := by omega
          simp [hb, this]
      · intro b hb
        by_cases hbi : b = i
        · subst hbi; omega
        · exact h2 b (by omega)

theorem partWeightUpdate_spec (k : Nat) (mx d pw : Nat → Int) :
    ((partWeightUpdate k mx d pw).1 = true ↔ ∀ b, b < k → pw b + d b ≤ mx b) ∧
    (∀ b, (partWeightUpdate k mx d pw).2 b = pw b + if (partWeightUpdate k mx d pw).1 = true ∧ b < k then d b else 0) := by
  have := updateFrom_spec mx d pw k 0 pw (by simp) (by simp)
  refine ⟨by simpa [partWeightUpdate] using this.1, fun b => ?_⟩
  have h2 := this.2 b
  unfold partWeightUpdate
  rw [h2]
  simp

/-- the moves that are executed -/
def eff (A : List Mv) : List Mv := A.filter (fun m => decide (m.src ≠ m.dst))

/-- change of the weight of block `b` by a move -/
def dOf (nw : Nat → Int) (m : Mv) (b : Nat) : Int := (if m.dst = b then nw m.node else 0) - (if m.src = b then nw m.node else 0)

theorem deltas_foldl (nw : Nat → Int) (A : List Mv) (b : Nat) : ∀ d : Nat → Int,
    A.foldl (fun d m => if m.src = m.dst then d else addWt (addWt d m.src (-nw m.node)) m.dst (nw m.node)) d b =
      d b + ((eff A).map (fun m => dOf nw m b)).sum := by
  induction A with
  | nil => intro d; simp [eff]
  | cons a A ih =>
    intro d
    rw [List.foldl_cons, ih]
    unfold eff
    by_cases h : a.src = a.dst
    · simp [h]
    · rw [if_neg h, List.filter_cons_of_pos (by simp [h]), List.map_cons, List.sum_cons, addWt_apply, addWt_apply]
      unfold dOf
      have e1 : (b = a.src) = (a.src = b) := propext eq_comm
      have e2 : (b = a.dst) = (a.dst = b) := propext eq_comm
      simp only [e1, e2]
      split_ifs <;> omega

theorem deltas_eq (nw : Nat → Int) (A : List Mv) (b : Nat) : deltas nw A b = ((eff A).map (fun m => dOf nw m b)).sum := by
  unfold deltas
  rw [deltas_foldl]
  simp

variable {σ : Type} {C : ConInfo σ} {H : HG} {m k mx : Nat} {o : Metrics.Obj}

theorem blockWeight_moves (hw : H.WF) (A : List Mv) (b : Nat) : ∀ {Φ : Assign}, Fit H k Φ A →
    H.blockWeight (moveAll Φ A) b = H.blockWeight Φ b + (A.map (fun m => dOf H.nw m b)).sum := by
  induction A with
  | nil => intro Φ _; simp [moveAll]
  | cons a A ih =>
    intro Φ h
    have hn := h.nodup
    rw [List.map_cons, List.nodup_cons] at hn
    show H.blockWeight (moveAll (Φ.put a.node a.dst) A) b = _
    rw [ih ⟨hn.2, fun m hm => h.mem m (by simp [hm]), ?_, fun m hm => h.dst m (by simp [hm])⟩,
      HG.blockWeight_put hw.nodes_nodup (h.mem a (by simp)), h.src a (by simp), List.map_cons, List.sum_cons]
    · unfold dOf
      have e1 : (b = a.dst) = (a.dst = b) := propext eq_comm
      simp only [e1, Option.some.injEq]
      split_ifs <;> omega
    · intro m hm
      have hne : m.node ≠ a.node := fun hh => hn.1 (hh ▸ List.mem_map.2 ⟨m, hm, rfl⟩)
      unfold Assign.put
      simp only [hne, if_false]
      exact h.src m (by simp [hm])

/-! ### One direction of a sequence of moves -/

theorem exec_snoc {s0 s s' : CSt σ} {as : List Act} {a : Act} (h : CSt.exec C H k o s0 as = some s) (h' : CSt.step C H k o s a = some s') :
    CSt.exec C H k o s0 (as ++ [a]) = some s' := by
  rw [exec_append, h]
  simp [CSt.exec, h']

/-- the moves `A` are executed from `s0`, up to `todo` and the running call `cur` -/
structure Phase (C : ConInfo σ) (H : HG) (k : Nat) (o : Metrics.Obj) (s0 : CSt σ) (A todo : List Mv) (cur : Option Nat) (s : CSt σ) : Prop where
  run : ∃ D as, A = D ++ todo ∧ startsOf as = (eff D).map (fun m => Act.start m.node m.dst maxHNW) ∧ CSt.exec C H k o s0 as = some s
  quiet : cur = none → s.quiescent H = true
  alone : ∀ u, cur = some u → ∀ v ∈ H.nodes, v ≠ u → s.proc v = .idle

theorem Phase.begin {s0 : CSt σ} (hq : s0.quiescent H = true) (A : List Mv) : Phase C H k o s0 A A none s0 :=
  ⟨⟨[], [], rfl, rfl, rfl⟩, fun _ => hq, by simp⟩

theorem eff_append (A B : List Mv) : eff (A ++ B) = eff A ++ eff B := by unfold eff; rw [List.filter_append]

theorem Phase.skip {s0 s : CSt σ} {A rest : List Mv} {a : Mv} (h : Phase C H k o s0 A (a :: rest) none s) (ha : a.src = a.dst) :
    Phase C H k o s0 A rest none s := by
  obtain ⟨⟨D, as, h1, h2, h3⟩, h4, h5⟩ := h
  refine ⟨⟨D ++ [a], as, by simp [h1], ?_, h3⟩, h4, by simp⟩
  rw [eff_append, h2]
  simp [eff, ha]

theorem startsOf_snoc (as : List Act) (a : Act) : startsOf (as ++ [a]) = startsOf as ++ startsOf [a] := by unfold startsOf; rw [List.filter_append]

theorem step_other {s s' : CSt σ} {a : Act} {u : Nat} (ha : a = .tick u ∨ ∃ d l, a = .start u d l) (h : CSt.step C H k o s a = some s') :
    ∀ v, v ≠ u → s'.proc v = s.proc v := by
  intro v hv
  have hst := step_Step h
  rcases ha with rfl | ⟨d, l, rfl⟩ <;> cases hst <;> simp [setProc, hv]

theorem Phase.start {s0 s s' : CSt σ} {A rest : List Mv} {a : Mv} (h : Phase C H k o s0 A (a :: rest) none s) (ha : a.src ≠ a.dst)
    (hst : CSt.step C H k o s (.start a.node a.dst maxHNW) = some s') : Phase C H k o s0 A rest (some a.node) s' := by
  obtain ⟨⟨D, as, h1, h2, h3⟩, h4, h5⟩ := h
  refine ⟨⟨D ++ [a], as ++ [_], by simp [h1], ?_, exec_snoc h3 hst⟩, by simp, ?_⟩
  · rw [eff_append, startsOf_snoc, h2, List.map_append]
    simp [eff, ha, startsOf]
  · intro u hu v hv hne
    simp only [Option.some.injEq] at hu
    rw [step_other (Or.inr ⟨_, _, rfl⟩) hst v (by rw [hu]; exact hne)]
    exact (quiescent_iff s).1 (h4 rfl) v hv

theorem Phase.tick {s0 s s' : CSt σ} {A todo : List Mv} {u : Nat} (h : Phase C H k o s0 A todo (some u) s)
    (hst : CSt.step C H k o s (.tick u) = some s') : Phase C H k o s0 A todo (if s'.isIdle u then none else some u) s' := by
  obtain ⟨⟨D, as, h1, h2, h3⟩, h4, h5⟩ := h
  have ho := step_other (Or.inl rfl) hst
  refine ⟨⟨D, as ++ [_], h1, ?_, exec_snoc h3 hst⟩, ?_, ?_⟩
  · rw [startsOf_snoc, h2]
    simp [startsOf]
  · intro hc
    rw [quiescent_iff]
    intro v hv
    by_cases hvu : v = u
    · by_cases hi : s'.isIdle u = true
      · rw [hvu]; exact (isIdle_iff s' u).1 hi
      · rw [if_neg hi] at hc; simp at hc
    · rw [ho v hvu]; exact h5 u rfl v hv hvu
  · intro w hc v hv hvw
    by_cases hi : s'.isIdle u = true
    · rw [if_pos hi] at hc; simp at hc
    · rw [if_neg hi] at hc
      simp only [Option.some.injEq] at hc
      rw [ho v (by rw [hc]; exact hvw)]
      exact h5 u rfl v hv (by rw [hc]; exact hvw)

/-- the phase is finished -/
theorem Phase.done {L : C.Lawful m k mx} (hw : H.WF) (hf : H.Fits m mx) (hnw : ∀ u ∈ H.nodes, 0 ≤ H.nw u) (htot : (H.nodes.map H.nw).sum ≤ maxHNW)
    {s0 s : CSt σ} {A : List Mv} (hG : Good L H s0) (hA : (A.map Mv.node).Nodup) (h : Phase C H k o s0 A [] none s) :
    Good L H s ∧ s.part = moveAll s0.part (eff A) ∧ ((s.log.drop s0.log.length).map (attrGain o)).sum = H.objective s.part o - H.objective s0.part o := by
  obtain ⟨⟨D, as, h1, h2, h3⟩, h4, h5⟩ := h
  rw [List.append_nil] at h1
  rw [← h1] at h2
  exact DetLP.moves_spec (o := o) hw hf hnw htot hG (hA.sublist (List.filter_sublist.map _)) (by rw [h2]) h3 (h4 rfl)

theorem Phase.exec {s0 s : CSt σ} {A todo : List Mv} {cur : Option Nat} (h : Phase C H k o s0 A todo cur s) : ∃ as, CSt.exec C H k o s0 as = some s := by
  obtain ⟨⟨D, as, h1, h2, h3⟩, h4, h5⟩ := h
  exact ⟨as, h3⟩

/-- the moves of a search before they are executed -/
theorem fit_eff {Φ : Assign} {A : List Mv} (hn : (A.map Mv.node).Nodup) (hm : ∀ m ∈ A, m.node ∈ H.nodes ∧ m.dst < k ∧ Φ m.node = some m.src) :
    Fit H k Φ (eff A) := by
  have hs : (eff A).Sublist A := List.filter_sublist
  refine ⟨hn.sublist (hs.map _), fun m h => (hm m (hs.subset h)).1, fun m h => (hm m (hs.subset h)).2.2, fun m h => ⟨(hm m (hs.subset h)).2.1, ?_⟩⟩
  have := (List.mem_filter.1 h).2
  simpa using this

theorem eff_swap (A : List Mv) : eff (A.map Mv.swap) = (eff A).map Mv.swap := by
  unfold eff
  rw [List.filter_map]
  congr 1
  apply List.filter_congr
  intro m _
  simp [Mv.swap, eq_comm]

end Flow
end Verif
