import Verif.Lemmas.DeltaPartition
import Verif.Props.C01_C04
/-!
# C26  The thread-local search state is an exact overlay of the shared partition

A search owns a delta partition over a shared partition.  It moves nodes locally and clears its local changes; at the same
time other threads may move, on the shared partition, nodes the search has not moved.
-/
namespace Verif
open PHG

/-- * `move`: local move with weight limit `maxTo`;
* `clear`: drop all local moves;
* `shared`: another thread moves `u` on the shared partition. -/
inductive DOp where
  | move (u src dst : Nat) (maxTo : Int)
  | clear
  | shared (u src dst : Nat) (maxTo : Int)

/-- Specification state: the shared assignment, the assignment seen by the search, the nodes moved locally since the last
`clear`, and whether the shared partition is unchanged since then. -/
structure DSpec where
  sh : Assign
  loc : Assign
  moved : Nat → Bool
  clean : Bool

/-- the update reported for hyperedge `e` when `u` moves from `src` to `dst`, where `Φ` is the assignment afterwards -/
def HG.edgeReport (H : HG) (Φ : Assign) (src dst e : Nat) : EdgeUpdate :=
  { he := e, src := src, dst := dst, weight := H.ew e, size := (H.pins e).length,
    srcAfter := H.pinsIn Φ e src, dstAfter := H.pinsIn Φ e dst }

/-- effect and result (accepted?, reported hyperedge updates) of an operation -/
def DOp.spec (H : HG) (S : DSpec) : DOp → (Bool × List EdgeUpdate) × DSpec
  | .move u src dst maxTo =>
    if H.blockWeight S.loc dst + H.nw u ≤ maxTo then
      ((true, (H.inc u).map (H.edgeReport (S.loc.put u dst) src dst)),
        { S with loc := S.loc.put u dst, moved := fun v => S.moved v || v == u })
    else ((false, []), S)
  | .clear => ((true, []), { sh := S.sh, loc := S.sh, moved := fun _ => false, clean := true })
  | .shared u src dst maxTo =>
    if H.blockWeight S.sh dst + H.nw u ≤ maxTo then
      ((true, (H.inc u).map (H.edgeReport (S.sh.put u dst) src dst)),
        { S with sh := S.sh.put u dst, loc := S.loc.put u dst, clean := false })
    else ((false, []), S)

def DOp.Legal (H : HG) (k : Nat) (S : DSpec) : DOp → Prop
  | .move u src dst _ => u ∈ H.nodes ∧ S.loc u = some src ∧ src ≠ dst ∧ dst < k
  | .clear => True
  | .shared u src dst _ => u ∈ H.nodes ∧ S.sh u = some src ∧ src ≠ dst ∧ dst < k ∧ S.moved u = false

def DOp.AllLegal (H : HG) (k : Nat) : DSpec → List DOp → Prop
  | _, [] => True
  | S, o :: os => o.Legal H k S ∧ AllLegal H k (o.spec H S).2 os

def DOp.specRun (H : HG) (S : DSpec) (os : List DOp) : DSpec := os.foldl (fun S o => (o.spec H S).2) S

def DOp.specResults (H : HG) : DSpec → List DOp → List (Bool × List EdgeUpdate)
  | _, [] => []
  | S, o :: os => (o.spec H S).1 :: specResults H (o.spec H S).2 os

/-- dispatch to the model; `none` would be a non-terminating hash table search -/
def DOp.exec {σ : Type} (C : ConInfo σ) (H : HG) (k : Nat) (ob : Metrics.Obj) (mc : Bool) (P : PHG σ) (D : DPHG) :
    DOp → Option ((Bool × List EdgeUpdate) × PHG σ × DPHG)
  | .move u src dst maxTo =>
    (D.changeNodePart C H k ob P mc u src dst maxTo).map fun r => ((r.1, r.2.1), P, r.2.2)
  | .clear => some ((true, []), P, D.clear)
  | .shared u src dst maxTo => let r := changeNodePart C H P u src dst maxTo; some ((r.1, r.2.1), r.2.2, D)

def DOp.execAll {σ : Type} (C : ConInfo σ) (H : HG) (k : Nat) (ob : Metrics.Obj) (mc : Bool) :
    PHG σ → DPHG → List DOp → Option (List (Bool × List EdgeUpdate) × PHG σ × DPHG)
  | P, D, [] => some ([], P, D)
  | P, D, o :: os => match DOp.exec C H k ob mc P D o with
    | none => none
    | some (r, P1, D1) => (execAll C H k ob mc P1 D1 os).map fun x => (r :: x.1, x.2)

section
variable {σ : Type} {C : ConInfo σ} {W : ConWords σ} {H : HG} {m k mx : Nat} {ob : Metrics.Obj} {mc : Bool}

/-- simulation -/
structure DOp.Rel (L : C.Lawful m k mx) (W : ConWords σ) (H : HG) (ob : Metrics.Obj) (mc : Bool) (S : DSpec) (P : PHG σ)
    (D : DPHG) : Prop where
  sim : Sim L H P S.sh
  same : ∀ v, S.moved v = false → S.loc v = S.sh v
  dsim : ∃ W' cache', DPHG.DSim C W' H k ob P cache' mc S.loc (fun v => S.moved v = true) D ∧
    (S.clean = true → W' = W ∧ ∀ v ∈ H.nodes, EntryExact H k ob cache' S.sh v)

theorem DOp.exec_spec {L : C.Lawful m k mx} (hW : W.Lawful L) (hw : H.WF) (hf : H.Fits m mx) (hmk : m * k ≤ 2 ^ 32)
    {S : DSpec} {P : PHG σ} {D : DPHG} (hR : DOp.Rel L W H ob mc S P D) {op : DOp} (hl : op.Legal H k S) :
    ∃ P' D', DOp.exec C H k ob mc P D op = some ((op.spec H S).1, P', D') ∧ DOp.Rel L W H ob mc (op.spec H S).2 P' D' := by
  obtain ⟨hS, hsame, W', cache', hD, hcl⟩ := hR
  cases op with
  | move u src dst maxTo =>
    obtain ⟨l1, l2, l3, l4⟩ := hl
    obtain ⟨ha, hr⟩ := DPHG.changeNodePart_spec (maxTo := maxTo) hw hmk hf hD l1 l2 l3 l4
    by_cases hle : H.blockWeight S.loc dst + H.nw u ≤ maxTo
    · obtain ⟨D', e1, e2⟩ := ha hle
      refine ⟨P, D', ?_, ?_⟩
      · simp only [DOp.exec, e1, DOp.spec, if_pos hle]; rfl
      · simp only [DOp.spec, if_pos hle]
        refine ⟨hS, fun v hv => ?_, W', cache', ?_, hcl⟩
        · simp only [Bool.or_eq_false_iff, beq_eq_false_iff_ne] at hv
          show S.loc.put u dst v = S.sh v
          rw [Assign.put_other _ hv.2]; exact hsame v hv.1
        · simpa using e2
    · refine ⟨P, D, ?_, ?_⟩
      · simp only [DOp.exec, hr hle, DOp.spec, if_neg hle]; rfl
      · simp only [DOp.spec, if_neg hle]; exact ⟨hS, hsame, W', cache', hD, hcl⟩
  | clear =>
    refine ⟨P, D.clear, rfl, hS, fun _ _ => rfl, W, DPHG.exactCache H k ob S.sh, ?_, fun _ => ⟨rfl, fun v _ => DPHG.exactCache_exact _ v⟩⟩
    obtain ⟨_, a, _⟩ := hD.ids
    obtain ⟨_, b, _⟩ := hD.pc
    obtain ⟨_, c⟩ := hD.tch
    obtain ⟨_, d, _⟩ := hD.gain
    have := DPHG.DSim.fresh (o := ob) (mc := mc) hW hf hS (fun v _ => DPHG.exactCache_exact _ v) (D := D.clear)
      a.clear b.clear c.clear rfl d.clear (fun _ => rfl)
    simpa [DOp.spec] using this
  | shared u src dst maxTo =>
    obtain ⟨l1, l2, l3, l4, l5⟩ := hl
    obtain ⟨ha, hr⟩ := changeNodePart_spec (maxTo := maxTo) hw hf hS l1 l2 l3 l4
    by_cases hle : H.blockWeight S.sh dst + H.nw u ≤ maxTo
    · obtain ⟨e1, e2, e3⟩ := ha hle
      refine ⟨(changeNodePart C H P u src dst maxTo).2.2, D, ?_, ?_⟩
      · simp only [DOp.exec, e1, e2, DOp.spec, if_pos hle]; rfl
      · simp only [DOp.spec, if_pos hle]
        obtain ⟨W'', cache'', h⟩ := DPHG.DSim.sharedMove hw hf hS hD l1 l2 (by rw [hsame u l5, l2]) (by simp [l5]) l4 e3
        refine ⟨e3, fun v hv => ?_, W'', cache'', h, fun h => by cases h⟩
        show S.loc.put u dst v = S.sh.put u dst v
        by_cases hvu : v = u
        · subst hvu; rw [Assign.put_same, Assign.put_same]
        · rw [Assign.put_other _ hvu, Assign.put_other _ hvu]; exact hsame v hv
    · refine ⟨P, D, ?_, ?_⟩
      · simp only [DOp.exec, hr hle, DOp.spec, if_neg hle]
      · simp only [DOp.spec, if_neg hle]; exact ⟨hS, hsame, W', cache', hD, hcl⟩

theorem DOp.execAll_spec {L : C.Lawful m k mx} (hW : W.Lawful L) (hw : H.WF) (hf : H.Fits m mx) (hmk : m * k ≤ 2 ^ 32)
    (os : List DOp) : ∀ {S : DSpec} {P : PHG σ} {D : DPHG}, DOp.Rel L W H ob mc S P D → DOp.AllLegal H k S os →
    ∃ P' D', DOp.execAll C H k ob mc P D os = some (DOp.specResults H S os, P', D') ∧
      DOp.Rel L W H ob mc (DOp.specRun H S os) P' D' := by
  induction os with
  | nil => intro S P D h _; exact ⟨P, D, rfl, h⟩
  | cons o os ih =>
    intro S P D h hl
    obtain ⟨P1, D1, a1, a2⟩ := DOp.exec_spec hW hw hf hmk h hl.1
    obtain ⟨P2, D2, b1, b2⟩ := ih a2 hl.2
    refine ⟨P2, D2, ?_, b2⟩
    simp only [DOp.execAll, a1, b1]; rfl

theorem DPHG.DSim.connSet_lam {P : PHG σ} {cache : Nat → Int} {Φ : Assign} {M : Nat → Prop} {D : DPHG}
    (hD : DPHG.DSim C W H k ob P cache true Φ M D) {e : Nat} (he : e ∈ H.edges) :
    ∃ l, D.connSet W k P e = some l ∧ l.Nodup ∧ (∀ b, b ∈ l ↔ b ∈ H.blocksOf Φ e) ∧
      D.connectivity W k P e = some (H.lam Φ e) := by
  have hm : ∀ b, b ∈ (List.range k).filter (fun b => decide (0 < H.pinsIn Φ e b)) ↔ 0 < H.pinsIn Φ e b := by
    intro b
    simp only [List.mem_filter, List.mem_range, decide_eq_true_eq]
    refine ⟨fun h => h.2, fun h => ⟨?_, h⟩⟩
    rw [← HG.mem_blocksOf, HG.blocksOf, List.mem_toFinset, List.mem_filterMap] at h
    obtain ⟨v, _, hv⟩ := h
    exact hD.range v b hv
  have hnd : ((List.range k).filter (fun b => decide (0 < H.pinsIn Φ e b))).Nodup := List.nodup_range.filter _
  refine ⟨_, hD.connSet he, hnd, fun b => by rw [hm, HG.mem_blocksOf], ?_⟩
  rw [hD.connectivity he, HG.lam_eq_length hnd hm]

/-- all observations of the search -/
theorem C26_generic {L : C.Lawful m k mx} (hW : W.Lawful L) (hw : H.WF) (hf : H.Fits m mx) (hmk : m * k ≤ 2 ^ 32)
    {P : PHG σ} (hS : Sim L H P P.part) (c : Nat) (os : List DOp)
    (hl : DOp.AllLegal H k ⟨P.part, P.part, fun _ => false, true⟩ os) :
    let S := DOp.specRun H ⟨P.part, P.part, fun _ => false, true⟩ os
    ∃ P' D', DOp.execAll C H k ob mc P (DPHG.create c) os =
        some (DOp.specResults H ⟨P.part, P.part, fun _ => false, true⟩ os, P', D') ∧
      P'.part = S.sh ∧
      (∀ u, D'.partID P' u = some (S.loc u)) ∧
      (∀ b, b < k → D'.partWeight P' b = H.blockWeight S.loc b) ∧
      (∀ e ∈ H.edges, ∀ b, b < k → D'.pinCount C k P' e b = some (H.pinsIn S.loc e b)) ∧
      (mc = true → S.clean = true → ∀ e ∈ H.edges, ∃ l, D'.connSet W k P' e = some l ∧ l.Nodup ∧
        (∀ b, b ∈ l ↔ b ∈ H.blocksOf S.loc e) ∧ D'.connectivity W k P' e = some (H.lam S.loc e)) ∧
      (S.clean = true → (∀ v ∈ H.nodes, S.sh v ≠ none) → ∀ cache, (∀ v ∈ H.nodes, EntryExact H k ob cache S.sh v) →
        ∀ v ∈ H.nodes, S.moved v = false → ∀ src dst, S.loc v = some src → src ≠ dst → dst < k →
        (∀ x ∈ H.nodes, S.loc x ≠ none) →
        D'.localGain k cache v dst = some (H.objective S.loc ob - H.objective (S.loc.put v dst) ob)) := by
  intro S
  have h0 : DOp.Rel L W H ob mc ⟨P.part, P.part, fun _ => false, true⟩ P (DPHG.create c) := by
    refine ⟨hS, fun _ _ => rfl, W, DPHG.exactCache H k ob P.part, ?_, fun _ => ⟨rfl, fun v _ => DPHG.exactCache_exact _ v⟩⟩
    have := DPHG.DSim.fresh (o := ob) (mc := mc) hW hf hS (fun v _ => DPHG.exactCache_exact _ v) (D := DPHG.create c)
      (FlatMap.Good.create _ _) (FlatMap.Good.create _ _) (FlatMap.Good.create _ _) rfl (FlatMap.Good.create _ _) (fun _ => rfl)
    simpa using this
  obtain ⟨P', D', a1, ⟨b1, b2, W', cache', b3, b4⟩⟩ := DOp.execAll_spec hW hw hf hmk os h0 hl
  refine ⟨P', D', a1, b1.part, fun u => DPHG.partID_eq b3.ids u, fun b hb => b3.partWeight hb,
    fun e he b hb => b3.pinCount he hb, fun hmc hcl e he => ?_, fun hcl hall cache hc v hv hm src dst hp hne hd hloc => ?_⟩
  · subst hmc
    obtain ⟨rfl, _⟩ := b4 hcl
    exact b3.connSet_lam he
  · obtain ⟨_, hc'⟩ := b4 hcl
    have hD : DPHG.DSim C W' H k ob P' cache mc (DOp.specRun H ⟨P.part, P.part, fun _ => false, true⟩ os).loc
        (fun v => (DOp.specRun H ⟨P.part, P.part, fun _ => false, true⟩ os).moved v = true) D' :=
      { b3 with gain := b3.gain.change hc' hc hall }
    exact hD.localGain hw hv (by simp [S] at hm; simp [hm]) hp hne hd hloc

end

/-- Start of a search: no local moves. -/
def DSpec.start (Φ : Assign) : DSpec := ⟨Φ, Φ, fun _ => false, true⟩

/-- **C26.** Default partition type.  The shared partition was reached by any legal history `hist`; the search then performs
any sequence of local moves and clears, while other threads move other nodes on the shared partition.  No operation hangs,
all results and reported hyperedge updates are those of the specification, and at the end the block ids, block weights and
pin counts seen by the search are those of the shared assignment overlaid with the local moves.  If the shared partition did
not change since the last clear, so are the connectivity sets (searches that maintain them), and the local gain cache over an
exact shared cache predicts the exact change of the objective for every node not moved locally.
`m * k ≤ 2^32` (number of hyperedges times number of blocks) is needed: see `C26_pin_count_index_overflow`. -/
theorem C26_overlay_exact (H : HG) (m k mx : Nat) (hw : H.WF) (hf : H.Fits m mx)
    (hk : 0 < k) (h0 : 0 < mx) (h1 : mx + 1 < 2 ^ 32) (hmk : m * k ≤ 2 ^ 32) (hist : List PHOp)
    (hl : PHOp.AllLegal H k (fun _ => none) hist) (ob : Metrics.Obj) (mc : Bool) (c : Nat) (os : List DOp)
    (hlo : DOp.AllLegal H k (DSpec.start (PHOp.specRun H hist)) os) :
    let S := DOp.specRun H (DSpec.start (PHOp.specRun H hist)) os
    ∃ P D, DOp.execAll denseCon H k ob mc (denseRun H m k mx hist) (DPHG.create c) os =
        some (DOp.specResults H (DSpec.start (PHOp.specRun H hist)) os, P, D) ∧
      P.part = S.sh ∧
      (∀ u, D.partID P u = some (S.loc u)) ∧
      (∀ b, b < k → D.partWeight P b = H.blockWeight S.loc b) ∧
      (∀ e ∈ H.edges, ∀ b, b < k → D.pinCount denseCon k P e b = some (H.pinsIn S.loc e b)) ∧
      (mc = true → S.clean = true → ∀ e ∈ H.edges, ∃ l, D.connSet denseWords k P e = some l ∧ l.Nodup ∧
        (∀ b, b ∈ l ↔ b ∈ H.blocksOf S.loc e) ∧ D.connectivity denseWords k P e = some (H.lam S.loc e)) ∧
      (S.clean = true → (∀ v ∈ H.nodes, S.sh v ≠ none) → ∀ cache, (∀ v ∈ H.nodes, EntryExact H k ob cache S.sh v) →
        ∀ v ∈ H.nodes, S.moved v = false → ∀ src dst, S.loc v = some src → src ≠ dst → dst < k →
        (∀ x ∈ H.nodes, S.loc x ≠ none) →
        D.localGain k cache v dst = some (H.objective S.loc ob - H.objective (S.loc.put v dst) ob)) := by
  obtain ⟨_, hS⟩ := PHG.sim_execAll hw hf hist (PHG.sim_init (H := H) (denseInit_R hk h0 h1)) hl
  have hp : (denseRun H m k mx hist).part = PHOp.specRun H hist := hS.part
  have := C26_generic (ob := ob) (mc := mc) (denseWords_lawful m k mx) hw hf hmk (P := denseRun H m k mx hist)
    (by rw [hp]; exact hS) c os (by rw [hp]; exact hlo)
  rw [hp] at this
  exact this

/-- **C26**, LARGE_K partition type. -/
theorem C26_overlay_exact_sparse (H : HG) (m k mx : Nat) (hw : H.WF) (hf : H.Fits m mx) (hmk : m * k ≤ 2 ^ 32)
    (hist : List PHOp) (hl : PHOp.AllLegal H k (fun _ => none) hist) (ob : Metrics.Obj) (mc : Bool) (c : Nat) (os : List DOp)
    (hlo : DOp.AllLegal H k (DSpec.start (PHOp.specRun H hist)) os) :
    let S := DOp.specRun H (DSpec.start (PHOp.specRun H hist)) os
    ∃ P D, DOp.execAll sparseCon H k ob mc (sparseRun H k hist) (DPHG.create c) os =
        some (DOp.specResults H (DSpec.start (PHOp.specRun H hist)) os, P, D) ∧
      P.part = S.sh ∧
      (∀ u, D.partID P u = some (S.loc u)) ∧
      (∀ b, b < k → D.partWeight P b = H.blockWeight S.loc b) ∧
      (∀ e ∈ H.edges, ∀ b, b < k → D.pinCount sparseCon k P e b = some (H.pinsIn S.loc e b)) ∧
      (mc = true → S.clean = true → ∀ e ∈ H.edges, ∃ l, D.connSet sparseWords k P e = some l ∧ l.Nodup ∧
        (∀ b, b ∈ l ↔ b ∈ H.blocksOf S.loc e) ∧ D.connectivity sparseWords k P e = some (H.lam S.loc e)) ∧
      (S.clean = true → (∀ v ∈ H.nodes, S.sh v ≠ none) → ∀ cache, (∀ v ∈ H.nodes, EntryExact H k ob cache S.sh v) →
        ∀ v ∈ H.nodes, S.moved v = false → ∀ src dst, S.loc v = some src → src ≠ dst → dst < k →
        (∀ x ∈ H.nodes, S.loc x ≠ none) →
        D.localGain k cache v dst = some (H.objective S.loc ob - H.objective (S.loc.put v dst) ob)) := by
  obtain ⟨_, hS⟩ := PHG.sim_execAll hw hf hist (PHG.sim_init (H := H) (sparseInit_R m k mx)) hl
  have hp : (sparseRun H k hist).part = PHOp.specRun H hist := hS.part
  have := C26_generic (ob := ob) (mc := mc) (sparseWords_lawful m k mx) hw hf hmk (P := sparseRun H k hist)
    (by rw [hp]; exact hS) c os (by rw [hp]; exact hlo)
  rw [hp] at this
  exact this

/-- Without local moves the local view is the shared one: `clear` resets it. -/
theorem C26_clear (H : HG) (S : DSpec) (os : List DOp) :
    (DOp.specRun H S (os ++ [.clear])).loc = (DOp.specRun H S (os ++ [.clear])).sh := by
  simp [DOp.specRun, DOp.spec]

/-- The index `e * k + p` is computed in 32 bits: with more than `2^32` pairs two different hyperedges share an entry of the
pin count map, so a local move of a pin of one changes the pin count of the other. -/
theorem C26_pin_count_index_overflow (k : Nat) (hk2 : 2 ≤ k) (hk32 : k < 2 ^ 32) :
    ∃ e e' p p', e ≠ e' ∧ p < k ∧ p' < k ∧ e < 2 ^ 32 ∧ e' < 2 ^ 32 ∧ pcIdx k e p = pcIdx k e' p' := by
  have hk : 0 < k := by omega
  have hdm := Nat.div_add_mod (2 ^ 32) k
  have hmod := Nat.mod_lt (2 ^ 32) hk
  have hq : 0 < 2 ^ 32 / k := Nat.div_pos (Nat.le_of_lt hk32) hk
  have hq2 : 2 ^ 32 / k ≤ 2 ^ 31 := by
    apply Nat.div_le_of_le_mul
    have : 2 * 2 ^ 31 ≤ k * 2 ^ 31 := Nat.mul_le_mul_right _ hk2
    omega
  refine ⟨0, 2 ^ 32 / k, 0, 2 ^ 32 % k, by omega, hk, hmod, by decide, by omega, ?_⟩
  unfold pcIdx
  rw [Nat.mul_comm] at hdm
  rw [hdm]; simp

/-- two hyperedges with ids `0` and `2^31` and one pin each -/
def bigHG : HG where
  nodes := [0, 1]
  edges := [0, 2 ^ 31]
  pins := fun e => if e = 0 then [0] else [1]
  inc := fun v => if v = 0 then [0] else [2 ^ 31]
  nw := fun _ => 1
  ew := fun _ => 1

/-- moving node 1 locally changes the reported pin count of hyperedge 0, which does not contain it -/
theorem C26_pin_count_wrong :
    let P := sparseRun bigHG 2 [.build (fun _ => 0) [0, 1] (fun _ => [[0, 1]]) [0, 2 ^ 31]]
    ((DOp.execAll sparseCon bigHG 2 .km1 false P (DPHG.create 4) [.move 1 0 1 10]).bind
      fun r => r.2.2.pinCount sparseCon 2 P 0 0) = some 0 ∧
    bigHG.pinsIn (Assign.put (fun _ => some 0) 1 1) 0 0 = 1 := by
  decide +kernel

/-! ### Non-vacuity -/

/-- a legal search on the example partition: an accepted local move, a rejected one, a shared move of another node, a
local move back, a clear and a local move again -/
def exDOps : List DOp :=
  [.move 2 1 0 10, .move 3 1 0 2, .shared 0 0 1 10, .move 2 0 1 10, .clear, .move 0 1 0 10]

example : DOp.AllLegal exHG 2 (DSpec.start fun v => if v < 2 then some 0 else if v < 4 then some 1 else none) exDOps := by
  refine ⟨⟨by decide, by decide, by decide, by decide⟩, ⟨by decide, by decide, by decide, by decide⟩,
    ⟨by decide, by decide, by decide, by decide, by decide⟩, ⟨by decide, by decide, by decide, by decide⟩, trivial,
    ⟨by decide, by decide, by decide, by decide⟩, trivial⟩

example : (DOp.specResults exHG (DSpec.start fun v => if v < 2 then some 0 else if v < 4 then some 1 else none) exDOps).map
    Prod.fst = [true, false, true, true, true, true] := by decide

end Verif
