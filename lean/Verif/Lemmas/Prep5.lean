import Verif.Lemmas.Prep4
import Verif.Lemmas.Hypergraph
/-!
# Lemmas for C46: the whole restoration
-/
namespace Verif
namespace Prep
open PHG

variable {σ : Type} {C : ConInfo σ} {k : Nat}

theorem wt_restoreLarge (order : Nat → List Nat) (chunks : Nat → List (List Nat)) : ∀ (l : List Nat) (x : SHG × PHG σ),
    (l.foldl (restoreLarge C k order chunks) x).2.wt = x.2.wt := by
  intro l
  induction l with
  | nil => intro x; rfl
  | cons e l ih => intro x; rw [List.foldl_cons, ih]; rfl

theorem wt_restoreSingle : ∀ (l : List Nat) (x : SHG × PHG σ), (l.foldl (restoreSingle C) x).2.wt = x.2.wt := by
  intro l
  induction l with
  | nil => intro x; rfl
  | cons e l ih =>
    intro x
    rw [List.foldl_cons, ih]
    unfold restoreSingle
    dsimp only
    split <;> rfl

theorem wt_restoreEdges (order : Nat → List Nat) (chunks : Nat → List (List Nat)) (large single : List Nat) (x : SHG × PHG σ) :
    (restoreEdges C k order chunks large single x).2.wt = x.2.wt := by
  unfold restoreEdges
  rw [wt_restoreSingle, wt_restoreLarge]

theorem iso_of {limit thr : Nat} {s : SHG} {r : Reduced} (h : Sanitized limit thr s r) : Iso s r.s := by
  intro u hu hoff
  have : u ∈ r.hns := by
    by_contra hc
    rw [(h.node u hu).2 hc] at hoff
    simp at hoff
  exact (h.hns u this).2.1

/-- partition of the reduced hypergraph, seen over the padded hypergraph -/
theorem core_sim {m mx : Nat} (L : C.Lawful m k mx) {limit thr : Nat} {s : SHG} (hF : s.Full) (hm : s.m ≤ m)
    (hl : ∀ e, e < s.m → (s.pins e).length ≤ mx) {r : Reduced} (h : Sanitized limit thr s r) {c : σ} (hR : L.R c (fun _ _ => 0))
    {os : List PHOp} (hos : PHOp.AllLegal r.s.toHG k (fun _ => none) os) :
    Sim L (padded r.s) (PHG.execAll C r.s.toHG k (PHG.init c) os).2 (PHG.execAll C r.s.toHG k (PHG.init c) os).2.part ∧
    ∀ v, v ∉ r.s.toHG.nodes → (PHG.execAll C r.s.toHG k (PHG.init c) os).2.part v = none := by
  obtain ⟨e1, e2⟩ := execAll_pad (C := C) os (P := PHG.init c) hos
  have hfit : (padded r.s).Fits m mx := fun e he => by
    have := padded_fits h.rel hl e he
    exact ⟨by omega, this.2⟩
  obtain ⟨_, hS⟩ := PHG.sim_execAll (padded_wf hF h.rel (iso_of h)) hfit (os.map (padOp r.s))
    (PHG.sim_init (H := padded r.s) hR) e2
  rw [← e1] at hS
  have hp := hS.part
  have hfit' : r.s.toHG.Fits m mx := by
    intro e he
    have he' : e < s.m := by
      rw [← h.rel.static.m]
      exact List.mem_range.1 (List.mem_filter.1 he).1
    refine ⟨by omega, ?_⟩
    show (r.s.pins e).length ≤ mx
    rw [h.rel.static.pins]; exact hl e he'
  obtain ⟨_, hS'⟩ := PHG.sim_execAll (toHG_wf hF h.rel (iso_of h)) hfit' os (PHG.sim_init (H := r.s.toHG) hR) hos
  refine ⟨by rw [hp]; exact hS, ?_⟩
  intro v hv
  rw [hS'.part]
  exact unassigned os hos (fun _ _ => rfl) v hv

/-- everything that holds while the degree-zero nodes are placed -/
structure Placed {m mx : Nat} (L : C.Lawful m k mx) (s : SHG) (maxw : Nat → Int) (hns : List Nat) (Φ0 : Assign) (pre rest : List Nat)
    (x : Pack σ) (Φ : Assign) : Prop where
  inv : PackInv L s maxw rest x Φ
  old : ∀ v, v ∉ pre → Φ v = Φ0 v
  new : ∀ v ∈ pre, ∃ b < k, Φ v = some b
  node : ∀ v, v < s.n → (x.s.nodeOn v = true ↔ (v ∉ hns ∨ v ∈ pre))

theorem Placed.weight {m mx : Nat} {L : C.Lawful m k mx} {s : SHG} (hF : s.Full) {maxw : Nat → Int} {hns : List Nat} {Φ0 : Assign} {pre rest : List Nat}
    {x : Pack σ} {Φ : Assign} (h : Placed L s maxw hns Φ0 pre rest x Φ) (h0 : ∀ v ∈ hns, Φ0 v = none) {b : Nat} (hb : b < k) :
    x.P.wt b = s.toHG.blockWeight Φ b := by
  rw [h.inv.sim.wt b hb]
  unfold HG.blockWeight
  show (List.map x.s.nw (((List.range x.s.n).filter x.s.nodeOn).filter _)).sum = (List.map s.nw (((List.range s.n).filter s.nodeOn).filter _)).sum
  rw [h.inv.rel.static.nw, h.inv.rel.static.n]
  congr 2
  rw [List.filter_filter, List.filter_filter]
  apply List.filter_congr
  intro v hv
  have hv' := List.mem_range.1 hv
  rw [hF.nodes v hv']
  by_cases hp : x.s.nodeOn v = true
  · rw [hp]
  · have hno := (h.node v hv').not.1 hp
    rw [not_or, not_not] at hno
    have : Φ v = none := by rw [h.old v hno.2]; exact h0 v hno.1
    simp [this]

/-- the packing loop after the nodes `pre` -/
theorem placed {m mx : Nat} (L : C.Lawful m k mx) {limit thr : Nat} {s : SHG} (hF : s.Full) (hm : s.m ≤ m) (hk : 0 < k)
    (hl : ∀ e, e < s.m → (s.pins e).length ≤ mx) {r : Reduced} (h : Sanitized limit thr s r) {c : σ} (hR : L.R c (fun _ _ => 0))
    {os : List PHOp} (hos : PHOp.AllLegal r.s.toHG k (fun _ => none) os) {maxw : Nat → Int} {order : Nat → List Nat} {chunks : Nat → List (List Nat)}
    (ho : ∀ e, e < s.m → (order e).Perm (s.pins e)) (hc : ∀ e, e < s.m → (chunks e).flatten.Perm (s.pins e))
    {hns blocks : List Nat} (hh : hns.Perm r.hns) {P : PHG σ} (hP : P = (PHG.execAll C r.s.toHG k (PHG.init c) os).2)
    (hb : blocks.Perm (List.range k)) (hbs : blocks.Pairwise (fun a b => P.wt a - maxw a ≤ P.wt b - maxw b))
    (hall : ∀ v ∈ r.s.toHG.nodes, P.part v ≠ none) {pre rest : List Nat} (hpr : hns = pre ++ rest) :
    ∃ Φ, Placed L s maxw hns P.part pre rest
      (restoreNodes C maxw pre blocks (restoreEdges C k order chunks r.large r.single (r.s, P))) Φ := by
  obtain ⟨s1, s2⟩ := core_sim L hF hm hl h hR hos
  rw [← hP] at s1 s2
  have hnode : ∀ v, v < s.n → (v ∈ r.s.toHG.nodes ↔ v ∉ hns) := by
    intro v hv
    rw [hh.mem_iff, ← h.node v hv]
    exact (mem_nodes h.rel).trans ⟨fun x => x.2, fun x => ⟨hv, x⟩⟩
  have hasg : ∀ e, e < s.m → ∀ v ∈ s.pins e, P.part v ≠ none := by
    intro e he v hv
    exact hall v (node_of_pin hF h.rel (iso_of h) he hv)
  obtain ⟨r1, r2, r3, r4⟩ := restoreEdges_spec hF hm hl ho hc h.ndL h.ndS h.rel s1
    (fun e he => by
      obtain ⟨a, b, c⟩ := (h.large e).1 he
      refine ⟨a, ?_, fun hs => b ((h.single e).1 hs).2⟩
      have := (h.edge e a).not.2 (fun hst => by have := hst.2; omega)
      simpa using this)
    (fun e he => by
      obtain ⟨a, b⟩ := (h.single e).1 he
      have := (h.edge e a).not.2 (fun hst => hst.1 b)
      exact ⟨a, by simpa using this, b, hasg e a⟩)
  have hnd : (pre ++ rest).Nodup := by rw [← hpr]; exact hh.nodup_iff.2 h.ndN
  have hun : ∀ u ∈ pre ++ rest, P.part u = none := by
    intro u hu
    rw [← hpr] at hu
    exact s2 u (fun hc' => ((hnode u (h.hns u (hh.mem_iff.1 hu)).1).1 hc') hu)
  have hmem : ∀ u ∈ pre, u < s.n ∧ s.nets u = [] := by
    intro u hu
    have := h.hns u (hh.mem_iff.1 (by rw [hpr]; simp [hu]))
    exact ⟨this.1, this.2.1⟩
  have hwt := wt_restoreEdges (C := C) (k := k) order chunks r.large r.single (r.s, P)
  have hinv : PackInv L s maxw (pre ++ rest)
      ⟨(restoreEdges C k order chunks r.large r.single (r.s, P)).1, (restoreEdges C k order chunks r.large r.single (r.s, P)).2, blocks⟩ P.part := by
    refine ⟨r1, ?_, r2, ?_, hun, hb, ?_⟩
    · intro u hu hoff
      dsimp only at hoff
      rw [r4] at hoff
      exact iso_of h u hu hoff
    · intro e he
      dsimp only
      rw [r3, h.edge e he, h.large, h.single]
      unfold Stays
      by_cases h1 : (s.pins e).length = 1
      · exact Or.inr (Or.inr ⟨he, h1⟩)
      · by_cases h2 : (s.pins e).length ≤ thr
        · exact Or.inl ⟨h1, h2⟩
        · exact Or.inr (Or.inl ⟨he, h1, by omega⟩)
    · dsimp only
      rw [hwt]; exact hbs
  obtain ⟨Φ, q1, q2, q3, q4⟩ := pack_run hF hm hl hk pre rest hnd hmem hinv
  refine ⟨Φ, q1, q2, q3, ?_⟩
  intro v hv
  unfold restoreNodes
  rw [q4 v hv]
  dsimp only
  rw [r4, h.node v hv, hh.mem_iff]

end Prep
end Verif
