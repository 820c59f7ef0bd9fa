import Verif.Lemmas.NLP13
/-!
# C42: partition and gain cache stay exact during the n-level uncoarsening

`PUncSteps C k o (L, PHN.start ..) x` are the states `x` reached from the partition of the coarsest hypergraph by
uncontracting batches (`PUncontract`: the threads change the nets, the pin counts and, at any later time, the gain
cache), restoring removed nets, initialising and resetting the gain cache and moving nodes concurrently
(Model/NLevelPartition.lean). What is compared with: `HG.pinsIn`, `HG.lam`, `HG.blockWeight`, `HG.objective`
(Spec/Hypergraph.lean) of the current hypergraph `DH.hg`, and of the input hypergraph.
-/
namespace Verif
namespace Dyn
open PHG CSt

/-- the two data structures for pin counts and connectivity sets, newly allocated for `m` nets with at most `mx` pins -/
inductive ConKind (m k mx : Nat) : (σ : Type) → ConInfo σ → σ → Prop
  | dense : ConKind m k mx _ denseCon (denseInit m k mx)
  | sparse : ConKind m k mx _ sparseCon (SparsePC.init k)

/-- Uncoarsening starts: `Ready` (see C27) for the input `s0`, the coarsest hypergraph `h0` and the batches `L`; all
nets have at least one and at most `mx` pins; `Φ` assigns the nodes of `h0` to `k` blocks; `norder`, `order` and
`eorder` are the orders in which the threads visit nodes and nets. -/
structure Begin (s0 : DH) (mxw : Int) (ref : Nat → Nat → Bool) (s1 : St) (mxb : Nat) (L : List (List (List (Nat × Nat)))) (h0 : DH) (k mx : Nat)
    (σ : Type) (C : ConInfo σ) (con : σ) (Φ : Nat → Nat) (norder : List Nat) (order : Nat → List (List Nat)) (eorder : List Nat) : Prop where
  ready : Ready s0 mxw ref s1 mxb L h0
  kind : ConKind s0.m k mx σ C con
  kPos : 0 < k
  mxPos : 0 < mx
  mxMax : mx + 1 < 2 ^ 32
  size : ∀ e < s0.m, s0.een e = true → 0 < s0.size e ∧ s0.size e ≤ mx
  blocks : ∀ v ∈ h0.hg.nodes, Φ v < k
  nodes : norder.Perm h0.hg.nodes
  chunks : ∀ b, b < k → (order b).flatten.Perm h0.hg.nodes
  nets : eorder.Perm h0.hg.edges

/-- `Ψ` is the partition of the input that `part` stands for: every node is in the block of the node it is contained
in, according to the mementos that are not undone yet -/
def Represents (s0 : DH) (Lr : List (List (List (Nat × Nat)))) (part Ψ : Assign) : Prop :=
  ∀ v < s0.n, s0.en v = true → ∀ u, InCluster (mementoPar Lr) v u → Ψ v = part u

variable {s0 : DH} {mxw : Int} {ref : Nat → Nat → Bool} {s1 : St} {mxb : Nat} {L Lr : List (List (List (Nat × Nat)))} {h0 : DH} {k mx : Nat}
  {σ : Type} {C : ConInfo σ} {con : σ} {Φ : Nat → Nat} {norder : List Nat} {order : Nat → List (List Nat)} {eorder : List Nat} {o : Metrics.Obj} {s : PHN σ}

theorem ConKind.lawful {m : Nat} (h : ConKind m k mx σ C con) (hk : 0 < k) (h0 : 0 < mx) (h1 : mx + 1 < 2 ^ 32) : ∃ W : C.Lawful m k mx, W.R con (fun _ _ => 0) := by
  cases h with
  | dense => exact ⟨denseLawful m k mx, denseInit_R hk h0 h1⟩
  | sparse => exact ⟨sparseLawful m k mx, sparseInit_R m k mx⟩

theorem Begin.inv (hB : Begin s0 mxw ref s1 mxb L h0 k mx σ C con Φ norder order eorder) {x : List (List (List (Nat × Nat))) × PHN σ}
    (h : PUncSteps C k o (L, PHN.start C k con h0 Φ norder order eorder) x) : ∃ W : C.Lawful s0.m k mx, NLInv W o s1.h.par L h0 x := by
  obtain ⟨W, hW⟩ := hB.kind.lawful hB.kPos hB.mxPos hB.mxMax
  have := (hB.ready.startN (W := W) (o := o) (fun e he => (hB.size e he.1 he.2).2) hW hB.blocks hB.nodes hB.chunks hB.nets).1
  exact ⟨W, this.steps hB.ready (fun e he => (hB.size e he.1 he.2).1) h⟩

theorem represents_iff (hR : Ready s0 mxw ref s1 mxb L h0) {h : DH} (h' : UncSteps (L, h0) (Lr, h)) {part Ψ : Assign} :
    Represents s0 Lr part Ψ ↔ ∀ v, s0.live v → Ψ v = part (rootOf (mementoPar Lr) v) := by
  constructor
  · intro hr v hv
    exact hr v hv.1 hv.2 _ (((hR.cluster h' hv).2 _).2 rfl)
  · intro hr v h1 h2 u hu
    rw [((hR.cluster h' ⟨h1, h2⟩).2 u).1 hu]
    exact hr v ⟨h1, h2⟩

/-- **C42**: at any time between two operations the hypergraph is one that the uncontraction without a partition
reaches (so that C27 applies), every enabled node has a block, and pin counts, connectivity, connectivity sets and
block weights are those of the current hypergraph under the current blocks. -/
theorem C42_partition_exact (hB : Begin s0 mxw ref s1 mxb L h0 k mx σ C con Φ norder order eorder)
    (h : PUncSteps C k o (L, PHN.start C k con h0 Φ norder order eorder) (Lr, s)) :
    UncSteps (L, h0) (Lr, s.h) ∧ s.h.hg.WF ∧
    (∀ v ∈ s.h.hg.nodes, ∃ b, b < k ∧ s.P.part v = some b) ∧
    (∀ e ∈ s.h.hg.edges, (∀ b, b < k → C.pinCount s.P.con e b = s.h.hg.pinsIn s.P.part e b) ∧ C.connectivity s.P.con e = s.h.hg.lam s.P.part e ∧
      (C.connSet s.P.con e).Nodup ∧ ∀ b, b ∈ C.connSet s.P.con e ↔ b ∈ s.h.hg.blocksOf s.P.part e) ∧
    ∀ b, b < k → s.P.wt b = s.h.hg.blockWeight s.P.part b := by
  obtain ⟨W, hI⟩ := hB.inv h
  have hG := hB.ready.good hI.unc hI.fix
  have hS := NInv.simReal hG hI.inv
  have hf := hg_fits hG
  refine ⟨hI.unc, hg_wf hG, fun v hv => ?_, fun e he => ⟨fun b hb => ?_, hS.connSet_lam hf he⟩, hS.wt⟩
  · obtain ⟨b, hb⟩ := hI.inv.full v (hg_mem.1 hv)
    exact ⟨b, hI.inv.rng v b hb, hb⟩
  · obtain ⟨T, hR, hT⟩ := hS.con
    rw [W.pinCount_eq hR (hf e he).1 hb]; exact hT e he b hb

/-- **C42**: whenever the gain cache is initialised, the gain it returns for a node and a block is the decrease of
the objective function caused by moving the node to that block, on the current hypergraph. -/
theorem C42_gain_exact (hB : Begin s0 mxw ref s1 mxb L h0 k mx σ C con Φ norder order eorder)
    (h : PUncSteps C k o (L, PHN.start C k con h0 Φ norder order eorder) (Lr, s)) (hi : s.ini = true) {v src dst : Nat}
    (hv : v ∈ s.h.hg.nodes) (hp : s.P.part v = some src) (hne : src ≠ dst) (hd : dst < k) :
    cacheGain k s.cache v dst = s.h.hg.objective s.P.part o - s.h.hg.objective (s.P.part.put v dst) o := by
  obtain ⟨W, hI⟩ := hB.inv h
  exact NInv.gain (hB.ready.good hI.unc hI.fix) hI.inv hi (hg_mem.1 hv) hp hne hd

/-- **C42**: at any time the partition of the current hypergraph has the same objective value (for all objective
functions) and the same block weights as the partition of the input it stands for. -/
theorem C42_objective (hB : Begin s0 mxw ref s1 mxb L h0 k mx σ C con Φ norder order eorder)
    (h : PUncSteps C k o (L, PHN.start C k con h0 Φ norder order eorder) (Lr, s)) :
    (∃ Ψ, Represents s0 Lr s.P.part Ψ) ∧ ∀ Ψ, Represents s0 Lr s.P.part Ψ →
      (∀ v < s0.n, s0.en v = true → ∃ b, b < k ∧ Ψ v = some b) ∧
      (∀ o', s.h.hg.objective s.P.part o' = s0.hg.objective Ψ o') ∧ ∀ b, b < k → s.P.wt b = s0.hg.blockWeight Ψ b := by
  obtain ⟨W, hI⟩ := hB.inv h
  have hG := hB.ready.good hI.unc hI.fix
  refine ⟨⟨fun v => s.P.part (rootOf (mementoPar Lr) v), (represents_iff hB.ready hI.unc).2 (fun v hv => rfl)⟩, fun Ψ hΨ => ?_⟩
  have hr := (represents_iff hB.ready hI.unc).1 hΨ
  refine ⟨fun v h1 h2 => ?_, fun o' => ?_, fun b hb => ?_⟩
  · obtain ⟨b, hb⟩ := hI.inv.full _ (hB.ready.cluster hI.unc ⟨h1, h2⟩).1
    exact ⟨b, hI.inv.rng _ b hb, by rw [hr v ⟨h1, h2⟩]; exact hb⟩
  · exact hB.ready.objective hI.unc (fun e he => (hB.size e he.1 he.2).1) o' hI.inv.full hr hG.pinHas hG.mEq
  · rw [(NInv.simReal hG hI.inv).wt b hb]
    refine hB.ready.blockWeight hI.unc hr ?_ b
    obtain ⟨G, hS, hT, L1, B, U, _, hU⟩ := hB.ready.unc hI.unc
    exact hU.inv.core.nEq

/-- **C42**: uncontracting a batch puts every contracted node into the block of its representative and changes no
other block, and it does not change the partition of the input that is represented, nor the block weights. -/
theorem C42_batch (hB : Begin s0 mxw ref s1 mxb L h0 k mx σ C con Φ norder order eorder) {L1 : List (List (List (Nat × Nat)))} {B : List (List (Nat × Nat))} {b : List (Nat × Nat)}
    (h : PUncSteps C k o (L, PHN.start C k con h0 Φ norder order eorder) (L1 ++ [B ++ [b]], s)) {s' : PHN σ} (hu : PUncontract C k o b s s') :
    (∀ u v, (u, v) ∈ b → s'.P.part v = s.P.part u) ∧ (∀ x, (∀ u, (u, x) ∉ b) → s'.P.part x = s.P.part x) ∧
    (∀ Ψ, Represents s0 (L1 ++ [B ++ [b]]) s.P.part Ψ ↔ Represents s0 (L1 ++ [B]) s'.P.part Ψ) ∧
    (∀ o', s'.h.hg.objective s'.P.part o' = s.h.hg.objective s.P.part o') ∧ ∀ b, b < k → s'.P.wt b = s.P.wt b := by
  have h' : PUncSteps C k o (L, PHN.start C k con h0 Φ norder order eorder) (L1 ++ [B], s') := .tail _ _ _ h (.batch _ _ _ _ _ hu)
  obtain ⟨W, hI⟩ := hB.inv h
  obtain ⟨W', hI'⟩ := hB.inv h'
  obtain ⟨a1, a2, a3⟩ := hI.batchBlocks hB.ready hu
  have hrep : ∀ Ψ, Represents s0 (L1 ++ [B ++ [b]]) s.P.part Ψ ↔ Represents s0 (L1 ++ [B]) s'.P.part Ψ := by
    intro Ψ
    rw [represents_iff hB.ready hI.unc, represents_iff hB.ready hI'.unc]
    exact ⟨fun hh v hv => by rw [a3 v hv]; exact hh v hv, fun hh v hv => by rw [← a3 v hv]; exact hh v hv⟩
  obtain ⟨⟨Ψ, hΨ⟩, q⟩ := C42_objective hB h
  have q1 := q Ψ hΨ
  have q2 := (C42_objective hB h').2 Ψ ((hrep Ψ).1 hΨ)
  refine ⟨a1, fun x hx => a2 x (fun hm => ?_), hrep, fun o' => (q2.2.1 o').trans (q1.2.1 o').symm, fun b hb => (q2.2.2 b hb).trans (q1.2.2 b hb).symm⟩
  obtain ⟨⟨u, x'⟩, hq, hq'⟩ := List.mem_map.1 hm
  have : x' = x := hq'
  exact hx u (this ▸ hq)

/-- **C42**: restoring removed nets changes neither blocks and block weights nor the partition of the input that is
represented, nor the value of an objective function. -/
theorem C42_nets (hB : Begin s0 mxw ref s1 mxb L h0 k mx σ C con Φ norder order eorder) {L1 : List (List (List (Nat × Nat)))} {B : List (List (Nat × Nat))}
    (h : PUncSteps C k o (L, PHN.start C k con h0 Φ norder order eorder) (L1 ++ [B] ++ [[]], s)) {s' : PHN σ}
    (hu : PUncStep C k o (L1 ++ [B] ++ [[]], s) (L1 ++ [B], s')) :
    s'.P.part = s.P.part ∧ s'.P.wt = s.P.wt ∧ (∀ Ψ, Represents s0 (L1 ++ [B] ++ [[]]) s.P.part Ψ ↔ Represents s0 (L1 ++ [B]) s'.P.part Ψ) ∧
    ∀ o', s'.h.hg.objective s'.P.part o' = s.h.hg.objective s.P.part o' := by
  have h' : PUncSteps C k o (L, PHN.start C k con h0 Φ norder order eorder) (L1 ++ [B], s') := .tail _ _ _ h hu
  have hp : s'.P.part = s.P.part ∧ s'.P.wt = s.P.wt := by
    have hlen : ∀ {L' : List (List (List (Nat × Nat)))} {A A' : List (List (Nat × Nat))}, L1 ++ [B] ++ [[]] = L' ++ [A] → L1 ++ [B] = L' ++ [A'] → False := by
      intro L' A A' e1 e2
      have h1 := congrArg List.length e1
      have h2 := congrArg List.length e2
      simp at h1 h2; omega
    generalize hx : (L1 ++ [B] ++ [[]], s) = x at hu
    generalize hy : (L1 ++ [B], s') = y at hu
    cases hu with
    | batch L' B' b s2 s2' hb =>
      injection hx with e1 e2
      injection hy with e3 e4
      exact (hlen e1 e3).elim
    | nets L' B' s2 h1 R rest ord rord con' cache hr ho hs hro hc =>
      injection hx with e1 e2
      injection hy with e3 e4
      subst e2; subst e4
      exact ⟨rfl, rfl⟩
    | moves L' s2 as R c1 c2 h1 hq h2 hR =>
      injection hx with e1 e2
      injection hy with e3 e4
      have := congrArg List.length (e1.trans e3.symm)
      simp at this
    | init L' s2 threads tasks hn ht hc =>
      injection hx with e1 e2
      injection hy with e3 e4
      have := congrArg List.length (e1.trans e3.symm)
      simp at this
    | reset L' s2 =>
      injection hx with e1 e2
      injection hy with e3 e4
      have := congrArg List.length (e1.trans e3.symm)
      simp at this
  have hrep : ∀ Ψ, Represents s0 (L1 ++ [B] ++ [[]]) s.P.part Ψ ↔ Represents s0 (L1 ++ [B]) s'.P.part Ψ := by
    intro Ψ
    unfold Represents
    rw [memento_nets, hp.1]
  obtain ⟨⟨Ψ, hΨ⟩, q⟩ := C42_objective hB h
  exact ⟨hp.1, hp.2, hrep, fun o' => (((C42_objective hB h').2 Ψ ((hrep Ψ).1 hΨ)).2.1 o').trans ((q Ψ hΨ).2.1 o').symm⟩

/-- **C42**: the uncontraction of a batch never fails: in whatever order the blocks are set, every representative has
a block; whatever the threads did so far, the batch can be completed; and there is no infinite execution. -/
theorem C42_batch_no_failure (hB : Begin s0 mxw ref s1 mxb L h0 k mx σ C con Φ norder order eorder) {L1 : List (List (List (Nat × Nat)))} {B : List (List (Nat × Nat))} {b : List (Nat × Nat)}
    (h : PUncSteps C k o (L, PHN.start C k con h0 Φ norder order eorder) (L1 ++ [B ++ [b]], s)) {ord : List (Nat × Nat)} (ho : ord.Perm b) :
    ∃ part, assignBatch ord s.P.part = some part ∧ ∀ t, PUSteps C k o s.ini b (s.begin part) t →
      (∃ t', PUSteps C k o s.ini b t t' ∧ (∀ j < b.length, t'.x.tk j = .done) ∧ ∀ j, t'.todo j = []) ∧
      ∀ f : Nat → PUSt σ, f 0 = t → ¬ ∀ i, PUStep C k o s.ini b (f i) (f (i + 1)) := by
  obtain ⟨W, hI⟩ := hB.inv h
  exact hI.batchRuns hB.ready ho

/-- **C42**: restoring removed nets never fails, in whatever order nodes and nets are processed. -/
theorem C42_nets_no_failure (hB : Begin s0 mxw ref s1 mxb L h0 k mx σ C con Φ norder order eorder) {L1 : List (List (List (Nat × Nat)))} {B : List (List (Nat × Nat))}
    (h : PUncSteps C k o (L, PHN.start C k con h0 Φ norder order eorder) (L1 ++ [B] ++ [[]], s)) {ord : List Nat} (ho : ord.Perm ((List.range s.h.n).filter s.h.en)) :
    ∃ R rest h1, s.h.removed = R :: rest ∧ { s.h with removed := rest }.restoreNetsStep R ord = some h1 ∧
      ∀ rord, rord.Perm R → ∃ con cache, restoreNetsAll C k o s.ini h1 s.P.part rord (s.P.con, s.cache) = some (con, cache) := by
  obtain ⟨W, hI⟩ := hB.inv h
  exact hI.netsRun hB.ready (fun e he => (hB.size e he.1 he.2).1) ho

/-- **C42**: from every reached state the uncoarsening can be completed by uncontracting the remaining batches and
restoring the remaining nets only. -/
theorem C42_completes (hB : Begin s0 mxw ref s1 mxb L h0 k mx σ C con Φ norder order eorder)
    (h : PUncSteps C k o (L, PHN.start C k con h0 Φ norder order eorder) (Lr, s)) :
    ∃ s', PUncSteps C k o (Lr, s) ([[]], s') ∧ s'.ini = s.ini ∧ ∀ Ψ, Represents s0 Lr s.P.part Ψ → Represents s0 [[]] s'.P.part Ψ := by
  have trans : ∀ {x y z : List (List (List (Nat × Nat))) × PHN σ}, PUncStep C k o x y → PUncSteps C k o y z → PUncSteps C k o x z := by
    intro x y z h1 h2
    induction h2 with
    | refl => exact .tail _ _ _ (.refl _) h1
    | tail s1 s2 _ h' ih => exact .tail _ _ _ ih h'
  have key : ∀ (d : Nat) (Lr : List (List (List (Nat × Nat)))) (s : PHN σ), Lr.flatten.length + Lr.length = d →
      PUncSteps C k o (L, PHN.start C k con h0 Φ norder order eorder) (Lr, s) →
      ∃ s', PUncSteps C k o (Lr, s) ([[]], s') ∧ s'.ini = s.ini ∧ ∀ Ψ, Represents s0 Lr s.P.part Ψ → Represents s0 [[]] s'.P.part Ψ := by
    intro d
    induction d using Nat.strong_induction_on with
    | _ d ih =>
      intro Lr s hd hs
      obtain ⟨W, hI⟩ := hB.inv hs
      obtain ⟨G, hS, hT, L1, B, U, he, hU⟩ := hB.ready.unc hI.unc
      have he' : Lr = L1 ++ [B] := he
      subst he'
      rcases List.eq_nil_or_concat B with rfl | ⟨B', b, rfl⟩
      · rcases List.eq_nil_or_concat L1 with rfl | ⟨L2, B2, rfl⟩
        · exact ⟨s, .refl _, rfl, fun _ h => h⟩
        · rw [List.concat_eq_append] at hs hd hI ⊢
          obtain ⟨R, rest, h1, g1, g2, g3⟩ := C42_nets_no_failure hB hs (List.Perm.refl _)
          obtain ⟨con', cache', g4⟩ := g3 R (List.Perm.refl _)
          have hst : PUncStep C k o (L2 ++ [B2] ++ [[]], s) (L2 ++ [B2], ⟨h1, { s.P with con := con' }, cache', s.ini⟩) :=
            .nets L2 B2 s h1 R rest _ R con' cache' g1 (List.Perm.refl _) g2 (List.Perm.refl _) g4
          obtain ⟨s', e1, e2, e3⟩ := ih _ (by rw [← hd]; simp) (L2 ++ [B2]) _ rfl (.tail _ _ _ hs hst)
          refine ⟨s', trans hst e1, e2, fun Ψ hΨ => e3 Ψ ?_⟩
          exact ((C42_nets hB hs hst).2.2.1 Ψ).1 hΨ
      · rw [List.concat_eq_append] at hs hd ⊢
        obtain ⟨part, g1, g2⟩ := C42_batch_no_failure hB hs (List.Perm.refl b)
        obtain ⟨⟨t, g3, g4, g5⟩, _⟩ := g2 _ (.refl _)
        have hu : PUncontract C k o b s ⟨t.x.h, t.P, t.cache, s.ini⟩ := ⟨b, part, t, List.Perm.refl _, g1, g3, g4, g5, rfl⟩
        have hst : PUncStep C k o (L1 ++ [B' ++ [b]], s) (L1 ++ [B'], ⟨t.x.h, t.P, t.cache, s.ini⟩) := .batch _ _ _ _ _ hu
        obtain ⟨s', e1, e2, e3⟩ := ih _ (by rw [← hd]; simp) (L1 ++ [B']) _ rfl (.tail _ _ _ hs hst)
        exact ⟨s', trans hst e1, e2, fun Ψ hΨ => e3 Ψ (((C42_batch hB hs hu).2.2.1 Ψ).1 hΨ)⟩
  exact key _ Lr s rfl h

/-- **C42**: at the end the hypergraph is the input, and the partition is a partition of the input: its objective
value and its block weights, computed on the input, are those of the data structures. -/
theorem C42_end (hB : Begin s0 mxw ref s1 mxb L h0 k mx σ C con Φ norder order eorder)
    (h : PUncSteps C k o (L, PHN.start C k con h0 Φ norder order eorder) ([[]], s)) :
    SameHypergraph s0 s.h ∧ (∀ v < s0.n, s0.en v = true → ∃ b, b < k ∧ s.P.part v = some b) ∧
    (∀ o', s.h.hg.objective s.P.part o' = s0.hg.objective s.P.part o') ∧ (∀ b, b < k → s.P.wt b = s0.hg.blockWeight s.P.part b) ∧
    ∀ Ψ, Represents s0 [[]] s.P.part Ψ ↔ ∀ v < s0.n, s0.en v = true → Ψ v = s.P.part v := by
  have hrep : ∀ Ψ, Represents s0 [[]] s.P.part Ψ ↔ ∀ v < s0.n, s0.en v = true → Ψ v = s.P.part v := by
    intro Ψ
    have hm : mementoPar [[]] = fun v => v := by funext v; rfl
    unfold Represents
    rw [hm]
    constructor
    · intro hh v h1 h2; exact hh v h1 h2 v ⟨rfl, 0, rfl⟩
    · rintro hh v h1 h2 u hu
      rw [inCluster_id] at hu
      subst hu; exact hh v h1 h2
  obtain ⟨q1, q2, q3⟩ := (C42_objective hB h).2 s.P.part ((hrep _).2 (fun _ _ _ => rfl))
  exact ⟨C27_inverse hB.ready (C42_partition_exact hB h).1, q1, q2, q3, hrep⟩

/-! ### A concrete case -/

/-- node 0 (which contains node 1) is in block 0, node 2 in block 1 -/
def wPhi : Nat → Nat := fun v => if v = 2 then 1 else 0

theorem wPrep_nodes : wPrep.hg.nodes = [0, 2] := by decide +kernel
theorem wPrep_edges : wPrep.hg.edges = [1] ∨ wPrep.hg.edges = [2] := by decide +kernel

theorem w_begin : Begin wH 10 (fun _ _ => false) w14 5 wL wPrep 2 3 _ denseCon (denseInit 3 2 3) wPhi [2, 0] (fun _ => [[0], [2]]) wPrep.hg.edges := by
  refine ⟨w_ready, ConKind.dense, by decide, by decide, by decide, ?_, ?_, ?_, ?_, List.Perm.refl _⟩
  · intro e he _
    rcases lt3 he with rfl | rfl | rfl <;> decide
  · rw [wPrep_nodes]; decide
  · rw [wPrep_nodes]; decide
  · intro b _; rw [wPrep_nodes]; decide

theorem w_begin_sparse : Begin wH 10 (fun _ _ => false) w14 5 wL wPrep 2 3 _ sparseCon (SparsePC.init 2) wPhi [2, 0] (fun _ => [[0], [2]]) wPrep.hg.edges :=
  ⟨w_ready, ConKind.sparse, w_begin.kPos, w_begin.mxPos, w_begin.mxMax, w_begin.size, w_begin.blocks, w_begin.nodes, w_begin.chunks, w_begin.nets⟩

/-- The gain cache for km1 is initialised on the coarsest hypergraph, then two nets are restored and node 1 is
uncontracted: node 1 is in block 0, km1 is 5 on the input, and the gain of moving node 1 is exact. -/
example : ∃ s, PUncSteps denseCon 2 .km1 (wL, PHN.start denseCon 2 (denseInit 3 2 3) wPrep wPhi [2, 0] (fun _ => [[0], [2]]) wPrep.hg.edges) ([[]], s) ∧
    s.ini = true ∧ s.P.part 1 = some 0 ∧ wH.hg.objective s.P.part .km1 = 5 ∧ s.h.hg.objective s.P.part .km1 = 5 ∧
    cacheGain 2 s.cache 1 1 = s.h.hg.objective s.P.part .km1 - s.h.hg.objective (s.P.part.put 1 1) .km1 := by
  have h1 : PUncSteps denseCon 2 .km1 (wL, PHN.start denseCon 2 (denseInit 3 2 3) wPrep wPhi [2, 0] (fun _ => [[0], [2]]) wPrep.hg.edges) _ :=
    .tail _ _ _ (.refl _) (.init wL _ [0, 1] [.low 1 2, .low 0 0] (by decide) (by
      intro t ht
      rcases List.mem_cons.1 ht with rfl | ht
      · show 2 ∈ wPrep.hg.nodes; rw [wPrep_nodes]; decide
      · rw [List.mem_singleton] at ht
        subst ht
        show 0 ∈ wPrep.hg.nodes; rw [wPrep_nodes]; decide) (by
      show ∀ u ∈ wPrep.hg.nodes, _
      rw [wPrep_nodes]
      intro u hu
      rcases List.mem_cons.1 hu with rfl | hu
      · exact ⟨.low 0 0, by simp, rfl⟩
      · rw [List.mem_singleton] at hu
        subst hu
        exact ⟨.low 1 2, by simp, rfl⟩))
  obtain ⟨s', h2, h3, h4⟩ := C42_completes w_begin h1
  have trans : ∀ {x y z : List (List (List (Nat × Nat))) × PHN (Packed × ConnSets)}, PUncSteps denseCon 2 .km1 x y → PUncSteps denseCon 2 .km1 y z → PUncSteps denseCon 2 .km1 x z := by
    intro x y z h1 h2
    induction h2 with
    | refl => exact h1
    | tail s1 s2 _ h' ih => exact .tail _ _ _ ih h'
  have h5 := trans h1 h2
  obtain ⟨q1, q2, q3, q4, q5⟩ := C42_end w_begin h5
  have hpart : (PHN.start denseCon 2 (denseInit 3 2 3) wPrep wPhi [2, 0] (fun _ => [[0], [2]]) wPrep.hg.edges).P.part = assignAll wPrep.hg.nodes wPhi := by
    obtain ⟨W, hW⟩ := w_begin.kind.lawful w_begin.kPos w_begin.mxPos w_begin.mxMax
    exact (w_ready.startN (W := W) (o := .km1) (fun e he => (w_begin.size e he.1 he.2).2) hW w_begin.blocks w_begin.nodes w_begin.chunks w_begin.nets).2
  have hΨ := (q5 (fun v => if v = 2 then some 1 else some 0)).1 (h4 _ (by
    have hp : mementoPar wL = fun v => if v = 1 then 0 else v := by
      funext v
      unfold mementoPar wL
      by_cases hv : v = 1
      · subst hv; rfl
      · rw [if_neg hv]
        have hv' : ((1 : Nat) == v) = false := by simp; omega
        simp [List.find?, hv']
    intro v h1 _ u hu
    have hroot : u = if v = 1 then 0 else v := by
      obtain ⟨e1, i, e2⟩ := hu
      rw [hp] at e1 e2
      have : ∀ i v, (fun v : Nat => if v = 1 then 0 else v)^[i] v = v ∨ (fun v : Nat => if v = 1 then 0 else v)^[i] v = if v = 1 then 0 else v := by
        intro i
        induction i with
        | zero => intro v; exact Or.inl rfl
        | succ i ih =>
          intro v
          rw [Function.iterate_succ_apply]
          by_cases hv : v = 1
          · subst hv
            right
            rcases ih 0 with h | h <;> simpa using h
          · simp only [hv, if_false]
            rcases ih v with h | h
            · exact Or.inl h
            · rw [if_neg hv] at h; exact Or.inl h
      simp only at e1
      by_cases hv : v = 1
      · subst hv
        rcases this i 1 with h | h
        · rw [h] at e2; subst e2; simp at e1
        · rw [h] at e2; exact e2.symm
      · rw [if_neg hv]
        rcases this i v with h | h
        · rw [h] at e2; exact e2.symm
        · rw [h, if_neg hv] at e2; exact e2.symm
    show _ = (PHN.start denseCon 2 (denseInit 3 2 3) wPrep wPhi [2, 0] (fun _ => [[0], [2]]) wPrep.hg.edges).P.part u
    rw [hpart, hroot]
    unfold assignAll
    rw [wPrep_nodes]
    rcases lt3 h1 with rfl | rfl | rfl <;> rfl))
  have hnode : 1 ∈ s'.h.hg.nodes := by
    rw [hg_mem]
    have hn : s'.h.n = 3 := by
      obtain ⟨G, hS, hT, L1, B, U, _, hU⟩ := w_ready.unc (C42_partition_exact w_begin h5).1
      exact hU.inv.core.nEq
    exact ⟨by rw [hn]; decide, by rw [q1.nodes 1 (by decide)]; rfl⟩
  have hp1 : s'.P.part 1 = some 0 := (hΨ 1 (by decide) rfl).symm
  have hobj : wH.hg.objective s'.P.part .km1 = 5 := by
    have hc : wH.hg.objective s'.P.part .km1 = wH.hg.objective (fun v => if v = 2 then some 1 else some 0) .km1 := by
      show (wH.hg.edges.map (fun e => wH.hg.term s'.P.part e .km1)).sum = (wH.hg.edges.map (fun e => wH.hg.term (fun v => if v = 2 then some 1 else some 0) e .km1)).sum
      refine congrArg List.sum (List.map_congr_left (fun e he => HG.term_congr (fun v hv => ?_) _))
      have hlt : v < 3 := by
        have he3 : e < 3 := by
          have : e ∈ (List.range wH.m).filter wH.een := he
          exact List.mem_range.1 (List.mem_filter.1 this).1
        rcases lt3 he3 with rfl | rfl | rfl <;> revert hv <;> revert v <;> decide
      exact (hΨ v hlt (by rcases lt3 hlt with rfl | rfl | rfl <;> rfl)).symm
    rw [hc]
    decide +kernel
  exact ⟨s', h5, h3, hp1, hobj, by rw [q3]; exact hobj, C42_gain_exact w_begin h5 h3 hnode hp1 (by decide) (by decide)⟩

end Dyn
end Verif
