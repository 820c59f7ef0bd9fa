import Verif.Lemmas.FNet9
import Verif.Props.C52_C54
/-!
# C55-C58: flow problems

* C55: the flow network is exact: for every assignment of the nodes of the region to the two blocks, the capacity of the cut nets determines the objective.
* C56: the region around the cut.
* C57: all ways to build the network give the same network; the deterministic parallel one for every schedule. For graphs, the code uses a parallel construction
  whose result depends on the schedule.
* C58: the moves computed by the flow refiner never worsen the objective, respect the balance, and the reported improvement is exact.
-/
namespace Verif
namespace FNet
open DetLP (Mv moveAll)
open DFlow (TaskOK)

/-! ## Specification -/

/-- the input of the construction of the network for a region -/
def netCfg (g : Grow) (o : Metrics.Obj) (hash : Nat → Nat) (nb : Nat) : NCfg := ⟨g.H, g.Φ, g.b0, g.b1, o, hash, nb⟩

/-- `Ψ` is the partition described by the sides `S` of the nodes of the network: region node number `u` is in block `b0` if it is on the source side, in `b1` otherwise;
all other nodes keep their blocks. -/
structure Sides (g : Grow) (r : Region) (S : Nat → Bool) (Ψ : Assign) : Prop where
  inside : ∀ u v, (nodesOf r)[u]? = some (some v) → Ψ v = some (if S u then g.b0 else g.b1)
  outside : ∀ v, v ∉ r.n0 ++ r.n1 → Ψ v = g.Φ v
  source : S 0 = true
  sink : S (sinkOf r) = false

/-- A legal schedule of the deterministic parallel construction for the entries `ents`: the valid hyperedges are inserted into the map in any order, the buckets are
processed in any order. -/
structure Schedule (ents : List Entry) (nm : Nat) (ins bks : List Nat) : Prop where
  pos : 0 < nm
  ins : ins.Perm ((List.range ents.length).filter (fun i => ((ents[i]?).bind Entry.net).isSome))
  bks : bks.Perm (List.range nm)

variable {g : Grow} {r : Region} {o : Metrics.Obj} {hash : Nat → Nat} {nb : Nat}

theorem nok_of (hw : g.H.WF) (hne : g.b0 ≠ g.b1) (hall : ∀ v ∈ g.H.nodes, g.Φ v ≠ none) (hr : RegionOK g r) : NOK (netCfg g o hash nb) r where
  wf := hw
  ne := hne
  all := hall
  nodup := hr.nodup
  mem := fun v hv => (hr.mem v hv).1
  m0 := hr.b0
  m1 := hr.b1
  hes := hr.hes
  inc := hr.inc

theorem sides_eq (hr : RegionOK g r) {S : Nat → Bool} {Ψ : Assign} (h : Sides g r S Ψ) : Ψ = assignOf (netCfg g o hash nb) r S := by
  funext v
  unfold assignOf
  cases hc : nodeMap r v with
  | none => exact h.outside v ((nodeMap_none hr.nodup v).1 hc)
  | some u => exact h.inside u v ((nodeMap_iff hr.nodup v u).1 hc)

theorem region_of (hw : g.H.WF) (hne : g.b0 ≠ g.b1) {cut : List Nat} (hcut : ∀ e ∈ cut, e ∈ g.H.edges) (h : construct g cut = some r) : RegionOK g r := by
  obtain ⟨r', h', hr⟩ := construct_spec hw hne hcut
  rw [h] at h'
  cases h'
  exact hr

/-! ## C55 -/

/-- **C55**, sequential construction: for every partition that differs from the current one only by the blocks of the region nodes, the change of the objective is the
capacity of the cut nets plus `non_removable_cut` minus `total_cut`. -/
theorem C55_exact (hw : g.H.WF) (hne : g.b0 ≠ g.b1) (hall : ∀ v ∈ g.H.nodes, g.Φ v ≠ none) {cut : List Nat} (hcut : ∀ e ∈ cut, e ∈ g.H.edges)
    (hr : construct g cut = some r) {S : Nat → Bool} {Ψ : Assign} (hS : Sides g r S Ψ) :
    g.H.objective Ψ o - g.H.objective g.Φ o = netCut S (constructDefault (netCfg g o hash nb) r).hg.finish.edges +
      (constructDefault (netCfg g o hash nb) r).nonrem - (constructDefault (netCfg g o hash nb) r).total := by
  have hR := region_of hw hne hcut hr
  have hN := nok_of (o := o) (hash := hash) (nb := nb) hw hne hall hR
  obtain ⟨a, b, d⟩ := constructDefault_eq (netCfg g o hash nb) r
  rw [a, b, d, mergeAll_netCut, sides_eq (o := o) (hash := hash) (nb := nb) hR hS]
  exact entries_exact hN hS.source hS.sink

/-- **C55**, parallel construction, for every schedule: whichever identical nets the threads find or miss, the network is exact. -/
theorem C55_exact_parallel (hw : g.H.WF) (hne : g.b0 ≠ g.b1) (hall : ∀ v ∈ g.H.nodes, g.Φ v ≠ none) {cut : List Nat} (hcut : ∀ e ∈ cut, e ∈ g.H.edges)
    (hr : construct g cut = some r) {S : Nat → Bool} {Ψ : Assign} (hS : Sides g r S Ψ) {l : List (Entry × Option Nat)}
    (hl : (l.map Prod.fst).Perm (r.hes.map (entryDefault (netCfg g o hash nb) r))) {nets : Nets} (he : parExec [] l = some nets) :
    g.H.objective Ψ o - g.H.objective g.Φ o = netCut S nets + (l.map (fun a => a.1.nonrem)).sum - (l.map (fun a => a.1.total)).sum := by
  have hR := region_of hw hne hcut hr
  have hN := nok_of (o := o) (hash := hash) (nb := nb) hw hne hall hR
  have h1 := parExec_netCut S l he
  have h2 := entries_exact hN hS.source hS.sink
  rw [sides_eq (o := o) (hash := hash) (nb := nb) hR hS]
  have e : ∀ f : Entry → Int, (l.map (fun a => f a.1)).sum = ((entries (netCfg g o hash nb) r).map f).sum := by
    intro f
    have := (hl.map f).sum_eq
    rw [List.map_map] at this
    exact this
  rw [h1, e (fun x => netVal S x.net), e Entry.nonrem, e Entry.total]
  have hz : netCut S [] = 0 := rfl
  have h3 : g.H.objective (assignOf (netCfg g o hash nb) r S) o - g.H.objective g.Φ o = _ := h2
  rw [h3, hz]; omega

/-! ## C56 -/

/-- **C56**. The construction of the region always succeeds, and: its nodes are distinct nodes of the two blocks, none is fixed; its hyperedges are exactly those incident to
these nodes, each once; weights and number of pins are right; the weight limit of a block is exceeded by at most the last node that was added, and the limit for
the pins by at most one node. -/
theorem C56_region (hw : g.H.WF) (hne : g.b0 ≠ g.b1) {cut : List Nat} (hcut : ∀ e ∈ cut, e ∈ g.H.edges) :
    ∃ r, construct g cut = some r ∧ (r.n0 ++ r.n1).Nodup ∧
      (∀ v ∈ r.n0, v ∈ g.H.nodes ∧ g.Φ v = some g.b0 ∧ g.fixed v = false) ∧ (∀ v ∈ r.n1, v ∈ g.H.nodes ∧ g.Φ v = some g.b1 ∧ g.fixed v = false) ∧
      r.hes.Nodup ∧ (∀ e, e ∈ r.hes ↔ ∃ v ∈ r.n0 ++ r.n1, e ∈ g.H.inc v) ∧
      r.w0 = (r.n0.map g.H.nw).sum ∧ r.w1 = (r.n1.map g.H.nw).sum ∧ r.numPins = ((r.n0 ++ r.n1).map (fun v => (g.H.inc v).length)).sum ∧
      ((r.n0.dropLast.map g.H.nw).sum < g.mw0 ∨ r.n0 = []) ∧ ((r.n1.dropLast.map g.H.nw).sum < g.mw1 ∨ r.n1 = []) ∧
      (r.numPins = 0 ∨ ∃ v ∈ r.n0 ++ r.n1, r.numPins < g.maxPins + (g.H.inc v).length) := by
  obtain ⟨r, h, R⟩ := construct_spec hw hne hcut
  have hlast : ∀ (l : List Nat) (b : Int), (∀ p v t, l = p ++ v :: t → (p.map g.H.nw).sum < b) → ((l.dropLast.map g.H.nw).sum < b ∨ l = []) := by
    intro l b hl
    by_cases hn : l = []
    · exact Or.inr hn
    · exact Or.inl (hl l.dropLast (l.getLast hn) [] (by rw [List.dropLast_append_getLast hn]))
  exact ⟨r, h, R.nodup, fun v hv => ⟨(R.mem v (List.mem_append_left _ hv)).1, R.b0 v hv, (R.mem v (List.mem_append_left _ hv)).2⟩,
    fun v hv => ⟨(R.mem v (List.mem_append_right _ hv)).1, R.b1 v hv, (R.mem v (List.mem_append_right _ hv)).2⟩,
    R.hes, R.inc, R.w0, R.w1, R.pins, hlast _ _ R.lim0, hlast _ _ R.lim1, R.limP⟩

/-! ## C57 -/

/-- **C57**, sequential constructions: iterating over the pins of all hyperedges, and collecting the pins of the region nodes, give the same network and the same cut values. -/
theorem C57_large (hw : g.H.WF) (hne : g.b0 ≠ g.b1) (hall : ∀ v ∈ g.H.nodes, g.Φ v ≠ none) (hew : ∀ e, 0 ≤ g.H.ew e) {cut : List Nat}
    (hcut : ∀ e ∈ cut, e ∈ g.H.edges) (hr : construct g cut = some r) :
    (constructLarge (netCfg g o hash nb) r).hg.finish.edges = (constructDefault (netCfg g o hash nb) r).hg.finish.edges ∧
    (constructLarge (netCfg g o hash nb) r).total = (constructDefault (netCfg g o hash nb) r).total ∧
    (constructLarge (netCfg g o hash nb) r).nonrem = (constructDefault (netCfg g o hash nb) r).nonrem := by
  have hN := nok_of (o := o) (hash := hash) (nb := nb) hw hne hall (region_of hw hne hcut hr)
  obtain ⟨a, b, d⟩ := constructDefault_eq (netCfg g o hash nb) r
  obtain ⟨a', b', d'⟩ := constructLarge_eq hN hew
  exact ⟨a'.trans a.symm, b'.trans b.symm, d'.trans d.symm⟩

/-- **C57**, deterministic parallel construction: for every number of buckets and every schedule, the network is the one of the sequential construction. -/
theorem C57_deterministic (hw : g.H.WF) (hne : g.b0 ≠ g.b1) {cut : List Nat} (hcut : ∀ e ∈ cut, e ∈ g.H.edges) (_ : construct g cut = some r)
    {nm : Nat} {ins bks : List Nat} (hs : Schedule (r.hes.map (entryDefault (netCfg g o hash nb) r)) nm ins bks) :
    constructDet (netCfg g o hash nb) (r.hes.map (entryDefault (netCfg g o hash nb) r)) nm ins bks = (constructDefault (netCfg g o hash nb) r).hg.finish.edges ∧
    ((r.hes.map (entryDefault (netCfg g o hash nb) r)).map Entry.total).sum = (constructDefault (netCfg g o hash nb) r).total ∧
    ((r.hes.map (entryDefault (netCfg g o hash nb) r)).map Entry.nonrem).sum = (constructDefault (netCfg g o hash nb) r).nonrem := by
  obtain ⟨a, b, d⟩ := constructDefault_eq (netCfg g o hash nb) r
  rw [a, b, d]
  exact ⟨constructDet_eq _ _ hs.pos hs.ins hs.bks, rfl, rfl⟩

/-- **C57**, deterministic parallel construction from collected pins: for every order in which the pins are collected and every schedule, the network is the one of the
sequential construction. -/
theorem C57_deterministic_large (hw : g.H.WF) (hne : g.b0 ≠ g.b1) (hall : ∀ v ∈ g.H.nodes, g.Φ v ≠ none) {cut : List Nat}
    (hcut : ∀ e ∈ cut, e ∈ g.H.edges) (hr : construct g cut = some r) {pins : List TmpPin} (hp : pins.Perm (largePins (netCfg g o hash nb) r))
    {nm : Nat} {ins bks : List Nat} (hs : Schedule ((List.range r.hes.length).map (entryLarge (netCfg g o hash nb) r pins)) nm ins bks) :
    constructDet (netCfg g o hash nb) ((List.range r.hes.length).map (entryLarge (netCfg g o hash nb) r pins)) nm ins bks =
      (constructDefault (netCfg g o hash nb) r).hg.finish.edges ∧
    (((List.range r.hes.length).map (entryLarge (netCfg g o hash nb) r pins)).map Entry.total).sum = (constructDefault (netCfg g o hash nb) r).total ∧
    (((List.range r.hes.length).map (entryLarge (netCfg g o hash nb) r pins)).map Entry.nonrem).sum = (constructDefault (netCfg g o hash nb) r).nonrem := by
  have hN := nok_of (o := o) (hash := hash) (nb := nb) hw hne hall (region_of hw hne hcut hr)
  rw [entriesLarge_eq hN hp] at hs ⊢
  exact C57_deterministic hw hne hcut hr hs

/-! ## C58 -/

/-- **C58**: if the flow algorithm returns a cut between source and sink, its value and the weights of its sides, and respects the given maximum weights (`Sound`), then the
moves of the flow refiner (sequential construction) are moves of region nodes between the two blocks, the reported improvement is the difference of the objective and
is not negative, the weights of the blocks do not exceed the maximum of their old weight and the maximum weight, and if there are moves at all, then the
objective improves or the heavier block becomes lighter. -/
theorem C58_refine (hw : g.H.WF) (hne : g.b0 ≠ g.b1) (hall : ∀ v ∈ g.H.nodes, g.Φ v ≠ none) {cut : List Nat} (hcut : ∀ e ∈ cut, e ∈ g.H.edges)
    (hr : construct g cut = some r) {solve : Solver} (hs : Sound solve) {mx : Nat → Int} {A : List Mv} {imp : Int}
    (he : flowRefine g.Φ g.b0 g.b1 mx solve r (problem g.H (g.H.blockWeight g.Φ) g.b0 g.b1 r (constructDefault (netCfg g o hash nb) r).hg.finish.edges
      (constructDefault (netCfg g o hash nb) r).total (constructDefault (netCfg g o hash nb) r).nonrem) = (A, imp)) :
    imp = g.H.objective g.Φ o - g.H.objective (moveAll g.Φ A) o ∧ 0 ≤ imp ∧ (A.map Mv.node).Nodup ∧
    (∀ m ∈ A, m.node ∈ r.n0 ++ r.n1 ∧ g.fixed m.node = false ∧ g.Φ m.node = some m.src ∧ (m.src = g.b0 ∨ m.src = g.b1) ∧ (m.dst = g.b0 ∨ m.dst = g.b1)) ∧
    g.H.blockWeight (moveAll g.Φ A) g.b0 ≤ max (g.H.blockWeight g.Φ g.b0) (mx g.b0) ∧
    g.H.blockWeight (moveAll g.Φ A) g.b1 ≤ max (g.H.blockWeight g.Φ g.b1) (mx g.b1) ∧
    (A ≠ [] → 0 < imp ∨ max (g.H.blockWeight (moveAll g.Φ A) g.b0) (g.H.blockWeight (moveAll g.Φ A) g.b1) <
      max (g.H.blockWeight g.Φ g.b0) (g.H.blockWeight g.Φ g.b1)) := by
  have hR := region_of hw hne hcut hr
  have hN := nok_of (o := o) (hash := hash) (nb := nb) hw hne hall hR
  obtain ⟨a, b, d⟩ := constructDefault_eq (netCfg g o hash nb) r
  have hx : Exact (netCfg g o hash nb) r (constructDefault (netCfg g o hash nb) r).hg.finish.edges
      (constructDefault (netCfg g o hash nb) r).total (constructDefault (netCfg g o hash nb) r).nonrem := by
    intro S h0 h1
    rw [a, b, d, mergeAll_netCut]
    exact entries_exact hN h0 h1
  have R := flowRefine_spec (mx := mx) hN hR.w0 hR.w1 hs hx
  have he' : flowRefine (netCfg g o hash nb).Φ (netCfg g o hash nb).b0 (netCfg g o hash nb).b1 mx solve r
    (problem (netCfg g o hash nb).H ((netCfg g o hash nb).H.blockWeight (netCfg g o hash nb).Φ) (netCfg g o hash nb).b0 (netCfg g o hash nb).b1 r
      (constructDefault (netCfg g o hash nb) r).hg.finish.edges (constructDefault (netCfg g o hash nb) r).total (constructDefault (netCfg g o hash nb) r).nonrem) = (A, imp) := he
  rw [he'] at R
  exact ⟨R.improvement, R.nonneg, R.task.nodup, fun m hm => ⟨R.region m hm, (hR.mem _ (R.region m hm)).2, (R.task.src m hm).1, (R.task.src m hm).2, R.task.dst m hm⟩,
    R.balance _ (Or.inl rfl), R.balance _ (Or.inr rfl), R.strict⟩

section composition
variable {R : RCfg} {sched : List Entry → Nat × List Nat × List Nat}

theorem detFlow_ok (hw : R.H.WF) (hs : Sound R.solve) (hsch : ∀ ents, Schedule ents (sched ents).1 (sched ents).2.1 (sched ents).2.2) {i j : Nat} {Φ : Assign}
    {es : List Nat} (hij : i ≠ j) (hall : ∀ v ∈ R.H.nodes, Φ v ≠ none) :
    ∃ r p, RegionOK (R.grow i j Φ) r ∧ RefineOK (netCfg (R.grow i j Φ) R.o R.hash 1) r R.mx p ∧ detFlow R sched i j Φ es = p.1 := by
  have hnone : ∃ r p, RegionOK (R.grow i j Φ) r ∧ RefineOK (netCfg (R.grow i j Φ) R.o R.hash 1) r R.mx p ∧ ([] : List Mv) = p.1 := by
    obtain ⟨r, _, hr⟩ := construct_spec (g := R.grow i j Φ) hw hij (cut := []) (by simp)
    exact ⟨r, ([], 0), hr, RefineOK.nothing _ _ _, rfl⟩
  unfold detFlow
  by_cases he : es.all (fun e => decide (e ∈ R.H.edges)) = true
  swap
  · rw [if_neg he]; exact hnone
  rw [if_pos he]
  have hcut : ∀ e ∈ es, e ∈ (R.grow i j Φ).H.edges := fun e h => of_decide_eq_true (List.all_eq_true.1 he e h)
  obtain ⟨r, hc, hr⟩ := construct_spec (g := R.grow i j Φ) hw hij hcut
  rw [hc]
  dsimp only
  have hN := nok_of (o := R.o) (hash := R.hash) (nb := 1) (g := R.grow i j Φ) hw hij hall hr
  refine ⟨r, _, hr, flowRefine_spec (c := netCfg (R.grow i j Φ) R.o R.hash 1) hN hr.w0 hr.w1 hs ?_, rfl⟩
  intro S h0 h1
  have := hsch (entries (netCfg (R.grow i j Φ) R.o R.hash 1) r)
  have hD : constructDet (netCfg (R.grow i j Φ) R.o R.hash 1) (entries (netCfg (R.grow i j Φ) R.o R.hash 1) r) _ _ _ = mergeAll _ :=
    constructDet_eq _ _ this.pos this.ins this.bks
  have hX := entries_exact hN h0 h1
  rw [← mergeAll_netCut, ← hD] at hX
  exact hX

/-- **C58**, deterministic mode: the moves do not depend on the schedule of the parallel construction. -/
theorem C58_deterministic (sched' : List Entry → Nat × List Nat × List Nat)
    (hsch : ∀ ents, Schedule ents (sched ents).1 (sched ents).2.1 (sched ents).2.2) (hsch' : ∀ ents, Schedule ents (sched' ents).1 (sched' ents).2.1 (sched' ents).2.2) :
    detFlow R sched = detFlow R sched' := by
  funext i j Φ es
  unfold detFlow
  by_cases he : es.all (fun e => decide (e ∈ R.H.edges)) = true
  swap
  · rw [if_neg he, if_neg he]
  rw [if_pos he, if_pos he]
  cases construct (R.grow i j Φ) es with
  | none => rfl
  | some r =>
    dsimp only
    rw [constructDet_eq _ _ (hsch _).pos (hsch _).ins (hsch _).bks, constructDet_eq _ _ (hsch' _).pos (hsch' _).ins (hsch' _).bks]

variable {m mx : Nat} {c : DFlow.Cfg}

theorem detFlow_valid (hw : R.H.WF) (hs : Sound R.solve) (hsch : ∀ ents, Schedule ents (sched ents).1 (sched ents).2.1 (sched ents).2.2)
    (hH : c.fc.H = R.H) (ho : c.fc.o = R.o) (hf : c.flow = detFlow R sched) : DFlow.ValidFlow c ∧ DFlow.Improving c ∧ DFlow.Balanced c R.mx := by
  have key : ∀ i j Φ (es : List Nat), i < j → (∀ v ∈ c.fc.H.nodes, ∃ b, b < c.fc.k ∧ Φ v = some b) →
      ∃ r p, RegionOK (R.grow i j Φ) r ∧ RefineOK (netCfg (R.grow i j Φ) R.o R.hash 1) r R.mx p ∧ c.flow i j Φ es = p.1 := by
    intro i j Φ es hij hΦ
    rw [hf]
    exact detFlow_ok hw hs hsch (Nat.ne_of_lt hij) (fun v hv => by obtain ⟨b, _, hb⟩ := hΦ v (hH ▸ hv); rw [hb]; simp)
  refine ⟨?_, ?_, ?_⟩
  · intro i j Φ es hij _ hΦ
    obtain ⟨r, p, hr, hp, e⟩ := key i j Φ es hij hΦ
    rw [e, hH]; exact hp.task
  · intro i j Φ es hij _ hΦ
    obtain ⟨r, p, hr, hp, e⟩ := key i j Φ es hij hΦ
    rw [e, hH, ho]
    have h1 := hp.improvement
    have h2 := hp.nonneg
    have h3 : p.2 = R.H.objective Φ R.o - R.H.objective (moveAll Φ p.1) R.o := h1
    omega
  · intro i j Φ es hij _ hΦ b hb
    obtain ⟨r, p, hr, hp, e⟩ := key i j Φ es hij hΦ
    rw [e, hH]
    exact hp.balance b hb

open CSt Rollback PHG Flow DFlow in
/-- **C58**, the whole deterministic flow refinement with this computation of the moves: for every schedule of all parallel parts and every sound flow
algorithm, the result has the reported improvement, which is not negative, no block gets heavier than the maximum of its old weight and its maximum weight, and the number of
rounds is bounded by the objective. -/
theorem C58_flow_refinement (hI : Input c.fc m mx) (hs : Sound R.solve) (hsch : ∀ ents, Schedule ents (sched ents).1 (sched ents).2.1 (sched ents).2.2)
    (hH : c.fc.H = R.H) (ho : c.fc.o = R.o) (hf : c.flow = detFlow R sched) (hew : ∀ e ∈ c.fc.H.edges, 0 ≤ c.fc.H.ew e)
    (hne : ∀ e ∈ c.fc.H.edges, c.fc.H.pins e ≠ []) {s : CSt (Packed × ConnSets)} (hR : Reached c.fc m mx s) {q0 : QG} {h0 : Sch}
    {order : List (Nat × Nat × Nat)} {y : DSt (Packed × ConnSets)} {rs : List (List Choice)}
    (he : refine denseCon c (start denseCon c s q0 h0 order) none rs = some y) :
    c.fc.H.objective y.s.part c.fc.o = c.fc.H.objective s.part c.fc.o - y.total ∧ 0 ≤ y.total ∧
    (∀ b, c.fc.H.blockWeight y.s.part b ≤ max (c.fc.H.blockWeight s.part b) (R.mx b)) ∧ (rs.length : Int) ≤ c.fc.H.objective s.part c.fc.o + 1 := by
  obtain ⟨h1, h2, h3⟩ := detFlow_valid (hH ▸ hI.env.wf) hs hsch hH ho hf
  have a := C53_result hI h1 hew hR he
  have b := C53_never_worse hI h1 h2 hew hne hR he
  exact ⟨a.1, b.1, fun x => C53_balanced hI h1 h3 hew hR he x, b.2⟩

end composition

/-! ## Concrete instances -/

/-- seven nodes of weight 1, three blocks `{0, 1, 2}`, `{3, 4, 5}`, `{6}` -/
def exHG : HG where
  nodes := [0, 1, 2, 3, 4, 5, 6]
  edges := [0, 1, 2, 3, 4, 5, 6]
  pins := fun e => [[0, 2], [1, 2], [2, 3], [3, 4], [3, 5], [2, 3, 6], [0, 2, 5]].getD e []
  inc := fun v => [[0, 6], [1], [0, 1, 2, 5, 6], [2, 3, 4, 5], [3], [4, 6], [5]].getD v []
  nw := fun _ => 1
  ew := fun e => [2, 3, 5, 1, 1, 4, 7].getD e 0

theorem exHG_wf : exHG.WF where
  nodes_nodup := by decide
  edges_nodup := by decide
  pins_mem := by decide
  pins_nodup := by decide
  inc_nodup := by decide
  inc_iff := by
    intro v hv e
    have hfin : ∀ v ∈ exHG.nodes, ∀ e ∈ exHG.edges, (e ∈ exHG.inc v ↔ v ∈ exHG.pins e) := by decide
    have hsub : ∀ v ∈ exHG.nodes, ∀ e ∈ exHG.inc v, e ∈ exHG.edges := by decide
    constructor
    · intro h; exact ⟨hsub v hv e h, (hfin v hv e (hsub v hv e h)).1 h⟩
    · rintro ⟨h1, h2⟩; exact (hfin v hv e h1).2 h2

def exΦ : Assign := fun v => [some 0, some 0, some 0, some 1, some 1, some 1, some 2].getD v none

/-- node 4 is fixed, the region may grow until both sides have weight 1 -/
def exG : Grow := ⟨exHG, fun v => decide (v = 4), exΦ, 0, 1, 1, 1, 2, 100⟩

def exR : Region := ⟨[2], [3], 1, 1, [0, 1, 2, 5, 6, 3, 4], 9⟩

theorem exRegion : construct exG [2, 5, 6] = some exR := by
  have : (construct exG [2, 5, 6]).map (fun r => (r.n0, r.n1, r.w0, r.w1, r.hes, r.numPins)) = some (exR.n0, exR.n1, exR.w0, exR.w1, exR.hes, exR.numPins) := by
    decide +kernel
  obtain ⟨r, h, e⟩ := Option.map_eq_some_iff.1 this
  rw [h]
  cases r
  simp only [Prod.mk.injEq] at e
  obtain ⟨rfl, rfl, rfl, rfl, rfl, rfl⟩ := e
  rfl

/-- the network: hyperedges 0 and 1, 2 and 5, 3 and 4 are merged, hyperedge 6 is not removable -/
theorem exNets : (constructDefault (netCfg exG .km1 id 4) exR).hg.finish.edges = [(5, [0, 1]), (9, [1, 3]), (2, [2, 3])] ∧
    (constructDefault (netCfg exG .km1 id 4) exR).total = 16 ∧ (constructDefault (netCfg exG .km1 id 4) exR).nonrem = 7 := by decide +kernel

/-- node 3 moves to the other block -/
theorem exSides : Sides exG exR (fun u => decide (u ≠ 2)) (fun v => if v = 3 then some 0 else exΦ v) where
  inside := by
    intro u v h
    have hu : u < 4 := (List.getElem?_eq_some_iff.1 h).1
    have : u = 0 ∨ u = 1 ∨ u = 2 ∨ u = 3 := by omega
    rcases this with rfl | rfl | rfl | rfl <;> simp [nodesOf, exR] at h <;> subst h <;> rfl
  outside := by
    intro v hv
    have : v ≠ 3 := by rintro rfl; exact hv (by decide)
    simp [this]; rfl
  source := rfl
  sink := rfl

/-- C55 for this case: the objective decreases by 7 -/
example : exHG.objective (fun v => if v = 3 then some 0 else exΦ v) .km1 - exHG.objective exΦ .km1 = 2 + 7 - 16 := by
  have h := C55_exact (o := .km1) (hash := id) (nb := 4) (g := exG) exHG_wf (by decide) (by decide) (by decide) exRegion exSides
  rw [exNets.1, exNets.2.1, exNets.2.2] at h
  exact h

/-- a schedule: four buckets in descending order, insertion in descending order -/
theorem exSchedule : Schedule (exR.hes.map (entryDefault (netCfg exG .km1 id 4) exR)) 4 [6, 5, 3, 2, 1, 0] [3, 1, 2, 0] where
  pos := by decide
  ins := by decide +kernel
  bks := by decide

example : constructDet (netCfg exG .km1 id 4) (exR.hes.map (entryDefault (netCfg exG .km1 id 4) exR)) 4 [6, 5, 3, 2, 1, 0] [3, 1, 2, 0] =
    [(5, [0, 1]), (9, [1, 3]), (2, [2, 3])] :=
  (C57_deterministic (g := exG) exHG_wf (by decide) (by decide) exRegion exSchedule).1.trans exNets.1

example : (constructLarge (netCfg exG .km1 id 4) exR).hg.finish.edges = [(5, [0, 1]), (9, [1, 3]), (2, [2, 3])] :=
  (C57_large (g := exG) exHG_wf (by decide) (by decide) (by
    intro e
    by_cases h : e < 7
    · have : ∀ e < 7, 0 ≤ exHG.ew e := by decide
      exact this e h
    · show (0 : Int) ≤ [2, 3, 5, 1, 1, 4, 7].getD e 0
      rw [List.getD_eq_getElem?_getD, List.getElem?_eq_none (by simp; omega)]; decide) (by decide) exRegion).1.trans exNets.1

/-- A sound flow algorithm (not a good one): all nodes except the sink are on the source side, if the weights allow it. -/
def exSolve : Solver := fun P m0 m1 _ =>
  let S := fun u => decide (u ≠ P.sink)
  if P.source ≠ P.sink ∧ sideWeight P.weights S ≤ m0 ∧ sideWeight P.weights (fun u => !S u) ≤ m1 then
    some ⟨S, netCut S P.nets, sideWeight P.weights S, sideWeight P.weights (fun u => !S u)⟩
  else none

theorem exSolve_sound : Sound exSolve := by
  intro P m0 m1 fb S h
  unfold exSolve at h
  dsimp only at h
  by_cases hc : P.source ≠ P.sink ∧ sideWeight P.weights (fun u => decide (u ≠ P.sink)) ≤ m0 ∧ sideWeight P.weights (fun u => !decide (u ≠ P.sink)) ≤ m1
  · rw [if_pos hc] at h
    cases h
    exact ⟨by simp [hc.1], by simp, rfl, rfl, rfl, hc.2.1, hc.2.2⟩
  · rw [if_neg hc] at h; cases h

/-- C58 for this case: node 3 moves to block 0, improvement 7 -/
theorem exRefine : (flowRefine exG.Φ exG.b0 exG.b1 (fun _ => 4) exSolve exR (problem exG.H (exG.H.blockWeight exG.Φ) exG.b0 exG.b1 exR
    (constructDefault (netCfg exG .km1 id 4) exR).hg.finish.edges (constructDefault (netCfg exG .km1 id 4) exR).total
    (constructDefault (netCfg exG .km1 id 4) exR).nonrem)) = ([⟨3, 1, 0, 0⟩], 7) := by decide +kernel

example : (7 : Int) = exHG.objective exΦ .km1 - exHG.objective (moveAll exΦ [⟨3, 1, 0, 0⟩]) .km1 ∧ exHG.blockWeight (moveAll exΦ [⟨3, 1, 0, 0⟩]) 0 ≤ 4 := by
  have h := C58_refine (o := .km1) (hash := id) (nb := 4) (g := exG) exHG_wf (by decide) (by decide) (by decide) exRegion exSolve_sound exRefine
  exact ⟨h.1, h.2.2.2.2.1⟩

/-- a legal schedule for all entries -/
def exSched (ents : List Entry) : Nat × List Nat × List Nat := (1, (List.range ents.length).filter (fun i => ((ents[i]?).bind Entry.net).isSome), [0])

theorem exSched_ok (ents : List Entry) : Schedule ents (exSched ents).1 (exSched ents).2.1 (exSched ents).2.2 :=
  ⟨Nat.one_pos, List.Perm.refl _, List.Perm.refl _⟩

/-- parameters for the hypergraph of C52-C54, and its configuration with the computed moves -/
def exRC : RCfg := ⟨DFlow.dfHG, fun _ => false, .km1, fun _ _ _ => 1, fun _ _ _ => 1, 2, 100, id, fun _ => 5, exSolve⟩
def exCfg : DFlow.Cfg := { DFlow.dfCfg with flow := detFlow exRC exSched }

/-- the hypotheses of `C58_flow_refinement` are met -/
example : DFlow.ValidFlow exCfg ∧ DFlow.Improving exCfg ∧ DFlow.Balanced exCfg (fun _ => 5) ∧ Flow.Reached exCfg.fc 3 2 DFlow.dfS :=
  ⟨(detFlow_valid (c := exCfg) DFlow.dfHG_wf exSolve_sound exSched_ok rfl rfl rfl).1, (detFlow_valid (c := exCfg) DFlow.dfHG_wf exSolve_sound exSched_ok rfl rfl rfl).2.1,
    (detFlow_valid (c := exCfg) DFlow.dfHG_wf exSolve_sound exSched_ok rfl rfl rfl).2.2, DFlow.dfReached⟩

/-! ### Graphs: the construction used in deterministic mode depends on the schedule -/

/-- the graph `0 - 2 - 1`, `2 - 3 - 4` -/
def grHG : HG where
  nodes := [0, 1, 2, 3, 4]
  edges := [0, 1, 2, 3]
  pins := fun e => [[0, 2], [1, 2], [2, 3], [3, 4]].getD e []
  inc := fun v => [[0], [1], [0, 1, 2], [2, 3], [3]].getD v []
  nw := fun _ => 1
  ew := fun e => [2, 3, 5, 1].getD e 0

def grG : Grow := ⟨grHG, fun _ => false, fun v => [some 0, some 0, some 0, some 1, some 1].getD v none, 0, 1, 1, 1, 2, 100⟩
def grR : Region := ⟨[2], [3], 1, 1, [0, 1, 2, 3], 5⟩

theorem grRegion : construct grG [2] = some grR := by
  have : (construct grG [2]).map (fun r => (r.n0, r.n1, r.w0, r.w1, r.hes, r.numPins)) = some (grR.n0, grR.n1, grR.w0, grR.w1, grR.hes, grR.numPins) := by
    decide +kernel
  obtain ⟨r, h, e⟩ := Option.map_eq_some_iff.1 this
  rw [h]
  cases r
  simp only [Prod.mk.injEq] at e
  obtain ⟨rfl, rfl, rfl, rfl, rfl, rfl⟩ := e
  rfl

/-- **C57**, the exception: for a graph the code uses the parallel construction without deduplication by sorting also in deterministic mode
(parallel_construction.cpp:119-122, "non-determinism only arises from the deduplication of hyperedges"). But the edges of a graph become identical when the nodes outside the
region are replaced by source and sink: here the edges 0-2 and 1-2. One schedule merges them, another one (both threads search before one of them inserts) does not. -/
theorem C57_graph_schedule_witness : (∀ e ∈ grHG.edges, (grHG.pins e).length = 2) ∧ construct grG [2] = some grR ∧
    ∃ l l' : List (Entry × Option Nat), l.map Prod.fst = grR.hes.map (entryDefault (netCfg grG .cut id 4) grR) ∧ l'.map Prod.fst = l.map Prod.fst ∧
    parExec [] l = some [(5, [0, 1]), (5, [1, 3]), (1, [2, 3])] ∧ parExec [] l' = some [(2, [0, 1]), (3, [0, 1]), (5, [1, 3]), (1, [2, 3])] :=
  ⟨by decide, grRegion, (grR.hes.map (entryDefault (netCfg grG .cut id 4) grR)).zip [none, some 0, none, none],
    (grR.hes.map (entryDefault (netCfg grG .cut id 4) grR)).zip [none, none, none, none], by rw [List.map_fst_zip (by simp [grR])],
    by rw [List.map_fst_zip (by simp [grR]), List.map_fst_zip (by simp [grR])], by decide +kernel, by decide +kernel⟩

end FNet
end Verif
