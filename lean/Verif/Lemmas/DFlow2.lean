import Verif.Lemmas.DFlow1
namespace Verif
namespace DFlow
open DetLP (Mv moveAll moveAll_other moveAll_mem Fit Good)
open Flow (eff eff_append Env exec_snoc startsOf_snoc step_other)
open CSt Rollback PHG

section
variable {σ : Type} {C : ConInfo σ} {H : HG} {m k mx : Nat} {o : Metrics.Obj}

/-- the call that performs the move is running, the hyperedges `pr` are done -/
def Running (H : HG) (s : CSt σ) (mv : Mv) (pr : List Nat) : Prop :=
  (s.proc mv.node = .accepted mv.src mv.dst ∧ pr = [] ∧ s.part mv.node = some mv.src) ∨
  (s.proc mv.node = .placed mv.src mv.dst ∧ pr = [] ∧ s.part mv.node = some mv.dst) ∨
  (∃ t, s.proc mv.node = .run mv.src mv.dst t ∧ pr ++ pendEdges t = H.inc mv.node ∧ s.part mv.node = some mv.dst)

theorem Running.part {s : CSt σ} {mv : Mv} {pr : List Nat} (h : Running H s mv pr) : s.part mv.node = some mv.src ∨ s.part mv.node = some mv.dst := by
  rcases h with ⟨_, _, h⟩ | ⟨_, _, h⟩ | ⟨_, _, _, h⟩
  · exact Or.inl h
  · exact Or.inr h
  · exact Or.inr h

theorem Running.not_idle {s : CSt σ} {mv : Mv} {pr : List Nat} (h : Running H s mv pr) : s.proc mv.node ≠ .idle := by
  rcases h with ⟨h, _⟩ | ⟨h, _⟩ | ⟨_, h, _⟩ <;> rw [h] <;> simp

theorem Running.view {s : CSt σ} {mv : Mv} {pr : List Nat} (h : Running H s mv pr) (e : Nat) : s.view e mv.node = some mv.src ∨ s.view e mv.node = some mv.dst := by
  unfold CSt.view
  rcases h with ⟨h, _, h2⟩ | ⟨h, _, h2⟩ | ⟨t, h, _, h2⟩ <;> rw [h] <;> simp only [viewOf]
  · exact Or.inl trivial
  · exact Or.inl trivial
  · split_ifs
    · exact Or.inl rfl
    · exact Or.inr h2

theorem step_part_other {s s' : CSt σ} {a : Act} {u : Nat} (ha : a = .tick u ∨ ∃ d l, a = .start u d l) (h : CSt.step C H k o s a = some s') :
    ∀ v, v ≠ u → s'.part v = s.part v := by
  intro v hv
  have hst := step_Step h
  rcases ha with rfl | ⟨d, l, rfl⟩ <;> cases hst <;> simp [Assign.put, hv]

/-- one step of a running call -/
theorem running_tick {L : C.Lawful m k mx} (hw : H.WF) (hf : H.Fits m mx) {s s' : CSt σ} {mv : Mv} {pr : List Nat} (hI : Inv L H s) (h : Running H s mv pr)
    (hst : CSt.step C H k o s (.tick mv.node) = some s') :
    (s'.proc mv.node = .idle ∧ pr = H.inc mv.node ∧ s'.part mv.node = some mv.dst ∧ s'.log = s.log) ∨
    (Running H s' mv pr ∧ s'.log = s.log) ∨
    (∃ e, Running H s' mv (pr ++ [e]) ∧ s'.log = s.log ++ [H.mkUpdate (s.view e) e mv.node mv.src mv.dst] ∧ e ∈ H.edges) := by
  obtain ⟨hI', heff⟩ := hI.step hw hf (step_Step hst)
  have hS := step_Step hst
  rcases h with ⟨h, h1, h2⟩ | ⟨h, h1, h2⟩ | ⟨t, h, h1, h2⟩
  · cases hS with
    | place hq =>
      rw [h] at hq; cases hq
      right; left
      refine ⟨Or.inr (Or.inl ⟨?_, h1, ?_⟩), rfl⟩ <;> simp [setProc, Assign.put]
    | release hq => rw [h] at hq; cases hq
    | ret hq => rw [h] at hq; cases hq
    | edge hq => rw [h] at hq; cases hq
    | test hq => rw [h] at hq; cases hq
    | add hq => rw [h] at hq; cases hq
    | undo hq => rw [h] at hq; cases hq
  · cases hS with
    | place hq => rw [h] at hq; cases hq
    | release hq =>
      rw [h] at hq; cases hq
      right; left
      refine ⟨Or.inr (Or.inr ⟨_, by simp [setProc]; rfl, ?_, h2⟩), rfl⟩
      rw [h1, pendEdges_edges]; rfl
    | ret hq => rw [h] at hq; cases hq
    | edge hq => rw [h] at hq; cases hq
    | test hq => rw [h] at hq; cases hq
    | add hq => rw [h] at hq; cases hq
    | undo hq => rw [h] at hq; cases hq
  · cases hS with
    | place hq => rw [h] at hq; cases hq
    | release hq => rw [h] at hq; cases hq
    | ret hq =>
      rw [h] at hq; cases hq
      left
      refine ⟨by simp [setProc], ?_, h2, rfl⟩
      rw [← h1]; simp [pendEdges]
    | edge hq =>
      rename_i src dst e t
      have hq0 := hq
      rw [h] at hq; cases hq
      right; right
      have hnew : ∀ l : List CacheOp, pendEdges (l.map Micro.cache ++ t) = pendEdges t := fun l => pendEdges_cache_append l t
      have hold : pendEdges (Micro.edge e :: t) = e :: pendEdges t := rfl
      cases heff with
      | none _ hl => simp at hl
      | edge u' src' dst' e' hu' he' hp' hs' hne' hsk' hdk' hv1 hv2 hl hm' hpu' t' hq1 hq2 _ _ _ _ =>
        have huu : u' = mv.node := by
          by_contra hne
          have e1 := congrFun hq2 mv.node
          simp only at e1
          rw [setProc_same, setProc_other s _ (Ne.symm hne), h] at e1
          injection e1 with _ _ e1
          have := congrArg pendEdges e1
          rw [hnew, hold] at this
          have := congrArg List.length this
          simp at this
        subst huu
        rw [h] at hq1
        cases hq1
        refine ⟨e, Or.inr (Or.inr ⟨_, by simp [setProc]; rfl, ?_, h2⟩), hl, he'⟩
        rw [hnew, List.append_assoc]
        exact h1
    | test hq =>
      rename_i src dst v b i a t
      rw [h] at hq; cases hq
      right; left
      refine ⟨Or.inr (Or.inr ⟨_, by simp [setProc]; rfl, ?_, h2⟩), rfl⟩
      rw [← h1]
      split_ifs <;> rfl
    | add hq =>
      rw [h] at hq; cases hq
      right; left
      refine ⟨Or.inr (Or.inr ⟨_, by simp [setProc]; rfl, ?_, h2⟩), rfl⟩
      rw [← h1]; rfl
    | undo hq => rw [h] at hq; cases hq

/-- the start of a call -/
theorem running_start {L : C.Lawful m k mx} (hw : H.WF) (hnw : ∀ u ∈ H.nodes, 0 ≤ H.nw u) (htot : (H.nodes.map H.nw).sum ≤ maxHNW)
    {s s' : CSt σ} {mv : Mv} (hI : Inv L H s) (hW : WtInv H k s) (hN : NoReject s) (hp : s.part mv.node = some mv.src)
    (hst : CSt.step C H k o s (.start mv.node mv.dst maxHNW) = some s') : Running H s' mv [] ∧ s'.log = s.log := by
  have hN' := (noReject_step hw hnw htot (fun u d l h => by simp at h; exact h.2.2) hI hW hN hst).1
  have hS := step_Step hst
  cases hS with
  | accept hu hd hi hp' hne hle =>
    rw [hp] at hp'; cases hp'
    exact ⟨Or.inl ⟨by simp [setProc], rfl, hp⟩, rfl⟩
  | reject hu hd hi hp' hne =>
    exact absurd (by simp [setProc]) (hN' mv.node mv.dst)

end
end DFlow
end Verif
