import Verif.Lemmas.Dyn19
import Verif.Lemmas.DynW
/-!
# C41: concurrent n-level contraction

`Steps mx ⟨s0, ..⟩ s`: state `s` is reached from hypergraph `s0` by any number of threads that register
and perform contractions in any interleaving (maximum node weight `mx`), and by removals of
single-pin and parallel nets between the passes. `ContractedBy` and `netSum` (Spec/NLevel.lean) do not
refer to the bookkeeping of the contraction algorithm.
-/
namespace Verif
namespace Dyn
open SMap (wr)

variable {s0 : DH} {mx : Int} {s : St} {ref : Nat → Nat → Bool}

/-- **C41**: whenever no thread is active, the hypergraph is the original one contracted along the
contraction forest: nodes, weights, pins, incident nets and degrees. -/
theorem C41_contracted (hc : Clean s0) (h : Steps mx ⟨s0, fun _ => .idle, ref⟩ s) (hi : ∀ i, s.thr i = .idle)
    (ha : Acyclic s.h.n s.h.par) : ContractedBy s0 s.h s.h.par := by
  obtain ⟨G, hI⟩ := Inv.reach hc h
  exact hI.contracted hc (fun v hv => hI.all_fin hi ha hv)

/-- **C41**: every objective function that is a sum over the nets, in which nets with all pins in one
block do not count, has the same value on the contracted and on the original hypergraph, for all
partitions `ρ` that are constant on the clusters. This includes the effect of removed nets. -/
theorem C41_objective (hc : Clean s0) (h : Steps mx ⟨s0, fun _ => .idle, ref⟩ s) (ρ : Nat → Nat) (hρ : ∀ v, ρ (s.h.par v) = ρ v)
    (f : Finset Nat → Int) (hf : ∀ S : Finset Nat, S.card ≤ 1 → f S = 0) : netSum s.h ρ f = netSum s0 ρ f :=
  netSum_steps hc h ρ (fun v _ _ => hρ v) f hf

/-- **C41**: no thread gets stuck and no operation of a thread fails (the searches in the pin lists and in
the linked incident net lists always succeed). -/
theorem C41_no_failure (hc : Clean s0) (h : Steps mx ⟨s0, fun _ => .idle, ref⟩ s) :
    (∀ i, s.thr i ≠ .idle → ∃ s', TStep mx i s s') ∧
    (∀ i u v st j sh failed l e, s.thr i = .iter u v st j sh failed → s.h.ina.incidentEdges v = some l → l[j]? = some e →
      ∃ l' k b, contractHE u v (s.h.pins e) (s.h.size e) = some (l', k, b)) ∧
    (∀ R ord, (∀ i, s.thr i = .idle) → Acyclic s.h.n s.h.par → RemovalOK s.h R → ord.Perm ((List.range s.h.n).filter s.h.en) →
      ∃ h', s.h.removeNetsStep R ord = some h') := by
  obtain ⟨G, hI⟩ := Inv.reach hc h
  refine ⟨fun i hi => hI.progress hc i hi, ?_, ?_⟩
  · intro i u v st j sh failed l e h1 h2 h3
    obtain ⟨_, _, l', k, b, h4, _⟩ := hI.edge_ok hc h1 h2 h3
    exact ⟨l', k, b, h4⟩
  · intro R ord h1 h2 h3 h4
    obtain ⟨h', h5, _⟩ := hI.remove hc h1 h2 h3 h4
    exact ⟨h', h5⟩

/-- **C41**: at any time, a node that contains other nodes does not exceed the weight limit. -/
theorem C41_weight_limit (h : Steps mx ⟨s0, fun _ => .idle, ref⟩ s) (u : Nat) : s.h.wt u ≤ mx ∨ s.h.wt u = s0.wt u := by
  generalize hs1 : (⟨s0, fun _ => .idle, ref⟩ : St) = s1 at h
  induction h with
  | refl => subst hs1; exact Or.inr rfl
  | tail s2 s3 h h' ih =>
    cases h' with
    | thread i _ _ h' =>
      cases h' with
      | start a b hi ev hp hw hf =>
        show wr s2.h.wt a (s2.h.wt a + s2.h.wt b) u ≤ mx ∨ wr s2.h.wt a (s2.h.wt a + s2.h.wt b) u = s0.wt u
        rcases wr_cases s2.h.wt a (s2.h.wt a + s2.h.wt b) u with ⟨_, e⟩ | ⟨_, e⟩
        · rw [e]; exact Or.inl hw
        · rw [e]; exact ih
      | _ => exact ih
    | remove _ R ord h' hi ha hR ho hs =>
      unfold DH.removeNetsStep at hs
      split at hs
      · cases hs
      injection hs with hs
      subst hs
      exact ih

/-- The hypotheses are met by a run in which a node is contracted, one net becomes a single-pin net and
two nets become parallel; all threads are idle at the end. -/
example : Clean wH ∧ Steps 10 ⟨wH, fun _ => .idle, fun _ _ => false⟩ w14 ∧ (∀ i, w14.thr i = .idle) ∧ Acyclic w14.h.n w14.h.par ∧
    w14.h.en 1 = false ∧ w14.h.wt 0 = 2 ∧ w14.h.een 2 = false ∧ w14.h.ew 1 = 5 ∧ w14.h.ina.incidentEdges 0 = some [1] :=
  ⟨wH_clean, w_run', w13_idle, w14_acyclic, w_result.2.2.2.2.2.2.1, w_result.2.2.2.2.2.1, w_result.2.2.2.2.1, w_result.2.2.1, w_result.2.2.2.2.2.2.2.1⟩

/-- the pins of net 1 in that state, by the theorem -/
example : 0 ∈ wEnd.edgePins 1 ∧ 1 ∉ wEnd.edgePins 1 := by
  have h := C41_contracted wH_clean w_run' w13_idle w14_acyclic
  have hp := h.pins 1 (by decide) w_result.2.1
  refine ⟨(hp 0).2 ⟨1, by decide +kernel, by decide +kernel, 1, by decide +kernel⟩, ?_⟩
  intro h1
  obtain ⟨_, _, h2, _⟩ := (hp 1).1 h1
  exact absurd h2 (by decide +kernel)

end Dyn
end Verif
