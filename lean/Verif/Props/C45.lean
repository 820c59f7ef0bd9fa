import Verif.Lemmas.GainComp3
import Verif.Props.C05_C06_C11_C14
import Verif.Props.C44
/-!
# C45  The move proposed for a node is exact and optimal

Label propagation asks for the best move of a node (`computeMaxGainMove`).
-/
namespace Verif
namespace GainComp
open PHG

/-! ### Specification -/

/-- how the objective changes when node `u` is put into block `b` -/
def change (H : HG) (o : Metrics.Obj) (Φ : Assign) (u b : Nat) : Int := H.objective (Φ.put u b) o - H.objective Φ o

/-- the same for the Steiner tree metric with distance function `dist` -/
def changeSt (H : HG) (dist : Finset Nat → Int) (Φ : Assign) (u b : Nat) : Int := H.steiner dist (Φ.put u b) - H.steiner dist Φ

/-- the move of `u` to block `b` is allowed: another existing block, and balanced unless imbalance is allowed -/
def Allowed (H : HG) (a : Args) (Φ : Assign) (u b : Nat) : Prop :=
  b < a.k ∧ Φ u ≠ some b ∧ (a.allow = true ∨ H.blockWeight Φ b + H.nw u ≤ a.maxw b)

/-- a thread-local scratch memory between two calls: the rating map is empty, its arrays contain arbitrary values -/
def Clean (s : Scratch) : Prop := s.tmp.size = 0 ∧ s.iso = 0

/-- random numbers are in the requested range -/
def Rand.Ok (ρ : Rand) : Prop := ∀ n, 0 < n → ρ.pick n < n

/-- `r` is the best allowed move among the candidate blocks: its gain is the exact change of the objective `Δ`, no
candidate is better, and staying in the block is preferred to a worse (`rebalance`: to no) objective value -/
structure BestMove (H : HG) (a : Args) (Φ : Assign) (u src : Nat) (Δ : Nat → Int) (cand : Nat → Prop) (r : Nat × Int) : Prop where
  exact' : r.1 ≠ src → Allowed H a Φ u r.1 ∧ r.2 = Δ r.1
  stay : r.1 = src → r.2 = if a.rebalance then 2147483647 else 0
  optimal : ∀ b, Allowed H a Φ u b → cand b → r.2 ≤ Δ b
  noWorse : r.2 ≤ if a.rebalance then 2147483647 else 0
  strict : a.noRandom = true → r.1 ≠ src → r.2 < if a.rebalance then 2147483647 else 0

section
variable {σ : Type} {C : ConInfo σ} {H : HG} {m k mx : Nat}

theorem adm_allowed {L : C.Lawful m k mx} {P : PHG σ} {Φ : Assign} (hS : Sim L H P Φ) {a : Args} (hk : a.k = k) {u src b : Nat}
    (hp : Φ u = some src) (hb : b < k) (hne : b ≠ src) :
    Adm a (fun b => decide (P.wt b + H.nw u ≤ a.maxw b)) b ↔ Allowed H a Φ u b := by
  unfold Adm Allowed
  rw [hk, hp, ← hS.wt b hb]
  simp [hb, Ne.symm hne]

theorem exact_generic (o : Metrics.Obj) {L : C.Lawful m k mx} (hw : H.WF) (hf : H.Fits m mx) {P : PHG σ} {Φ : Assign}
    (hS : Sim L H P Φ) {u src : Nat} (hu : u ∈ H.nodes) (hp : Φ u = some src) (hall : ∀ v ∈ H.nodes, Φ v ≠ none)
    {s : Scratch} (hs : Clean s) {b : Nat} (hb : b < k) (hne : b ≠ src) :
    (precompute o C H P.con src u s).iso - (precompute o C H P.con src u s).tmp.getOrDefault 0 b = change H o Φ u b := by
  obtain ⟨mp, i1, _, _, i4⟩ := precompute_spec o hw hf hS hu hp hall hs.1 hs.2
  rw [change, ← (i4 b hb hne).1]
  congr 1
  unfold SMap.getOrDefault
  rw [i1.contains_iff]
  cases hm : mp b with
  | none => simp
  | some v => simp [(i1.idx hm).2.2]

theorem best_generic (o : Metrics.Obj) {L : C.Lawful m k mx} (hw : H.WF) (hf : H.Fits m mx) (hew : ∀ e ∈ H.edges, 0 ≤ H.ew e)
    {P : PHG σ} {Φ : Assign} (hS : Sim L H P Φ) {u src : Nat} (hu : u ∈ H.nodes) (hp : Φ u = some src) (hall : ∀ v ∈ H.nodes, Φ v ≠ none)
    {a : Args} (hk : a.k = k) {ρ : Rand} (hρ : ρ.Ok) {s : Scratch} (hs : Clean s) :
    BestMove H a Φ u src (change H o Φ u) (fun _ => a.rebalance = true → a.nonAdj = true) (computeMaxGainMove o C H a ρ P s src u).1 ∧
    Clean (computeMaxGainMove o C H a ρ P s src u).2 := by
  obtain ⟨mp, i1, i2, i3, i4⟩ := precompute_spec o hw hf hS hu hp hall hs.1 hs.2
  refine ⟨?_, rfl, rfl⟩
  have key := maxMove_spec (a := a) (ρ := ρ) (feas := fun b => decide (P.wt b + H.nw u ≤ a.maxw b)) (gain := fun x iso => iso - x)
    i1 (src := src) (Γ := change H o Φ u)
    (fun b x hb hne => by have := (i4 b (i2.lt b x hb) hne).1; rw [hb] at this; exact this)
    (fun b x hb => hk ▸ i2.lt b x hb)
    (fun _ b hb hne hm => by have := (i4 b (hk ▸ hb) hne).1; rw [hm, Option.getD_none, Int.sub_zero] at this; exact this) hρ
  have hadm : ∀ b, b < k → b ≠ src → (Adm a (fun b => decide (P.wt b + H.nw u ≤ a.maxw b)) b ↔ Allowed H a Φ u b) :=
    fun b hb hne => adm_allowed hS hk hp hb hne
  have hsrc : ∀ b, Allowed H a Φ u b → b < k ∧ b ≠ src := by
    intro b hb
    refine ⟨hk ▸ hb.1, ?_⟩
    rintro rfl; exact hb.2.1 hp
  unfold startGain at key
  have hΓ : ∀ b, b < k → b ≠ src → mp b = none → change H o Φ u b = (precompute o C H P.con src u s).iso := by
    intro b hb hne hm
    have := (i4 b hb hne).1
    rw [hm, Option.getD_none, Int.sub_zero] at this
    exact this.symm
  rcases key with ⟨r1, r2, r3⟩ | ⟨r1, r2, r3, r4, r5, r6, r7, r8⟩
  · refine ⟨fun h => absurd r1 h, fun _ => r2, ?_, le_of_eq r2, fun _ h => absurd r1 h⟩
    intro b hb hc
    obtain ⟨hbk, hne⟩ := hsrc b hb
    show (maxMove _ _ _ _ _ _).2 ≤ _
    rw [r2]
    by_cases hm : mp b = none
    · by_cases hna : a.nonAdj = true
      · exact r3 b hne ((hadm b hbk hne).2 hb) (Or.inr ⟨hna, hk ▸ hbk⟩)
      · have hrb : a.rebalance = false := by
          cases h : a.rebalance with
          | false => rfl
          | true => exact absurd (hc h) hna
        rw [hrb, hΓ b hbk hne hm]
        exact i3 hew
    · exact r3 b hne ((hadm b hbk hne).2 hb) (Or.inl hm)
  · have hlt : (maxMove a ρ (fun b => decide (P.wt b + H.nw u ≤ a.maxw b)) (fun x iso => iso - x) (precompute o C H P.con src u s) src).1 < k := hk ▸ r2
    refine ⟨fun _ => ⟨(hadm _ hlt r1).1 r3, r4⟩, fun h => absurd h r1, ?_, r5, fun h _ => r6 h⟩
    intro b hb _
    obtain ⟨hbk, hne⟩ := hsrc b hb
    by_cases hm : mp b = none
    · rw [hΓ b hbk hne hm]
      cases hr : mp (maxMove a ρ (fun b => decide (P.wt b + H.nw u ≤ a.maxw b)) (fun x iso => iso - x) (precompute o C H P.con src u s) src).1 with
      | none => exact le_of_eq (r8 hr).2
      | some x =>
        have h1 := (i4 _ hlt r1).1
        have h2 := (i4 _ hlt r1).2 hew
        have h3 : (computeMaxGainMove o C H a ρ P s src u).1.2 = change H o Φ u (computeMaxGainMove o C H a ρ P s src u).1.1 := r4
        rw [h3]
        unfold change computeMaxGainMove
        dsimp only
        omega
    · exact r7 b hne ((hadm b hbk hne).2 hb) hm

theorem bestSt_generic (dist : Finset Nat → Int) {L : C.Lawful m k mx} (hw : H.WF) (hf : H.Fits m mx)
    {P : PHG σ} {Φ : Assign} (hS : Sim L H P Φ) {u src : Nat} (hu : u ∈ H.nodes) (hp : Φ u = some src)
    {a : Args} (hk : a.k = k) {ρ : Rand} (hρ : ρ.Ok) {s : Scratch} (hs : Clean s) :
    BestMove H a Φ u src (changeSt H dist Φ u) (fun b => a.nonAdj = true ∨ ∃ e ∈ H.edges, u ∈ H.pins e ∧ b ∈ H.blocksOf Φ e)
      (computeMaxGainMoveSt dist C H a ρ P s src u).1 ∧
    Clean (computeMaxGainMoveSt dist C H a ρ P s src u).2 := by
  obtain ⟨mp, i1, i2, i3, i4, i5, i6⟩ := precomputeSt_spec dist hw hf hS hu hp a.nonAdj hs.1 hs.2
  refine ⟨?_, rfl, rfl⟩
  have key := maxMove_spec (a := a) (ρ := ρ) (feas := fun b => decide (P.wt b + H.nw u ≤ a.maxw b)) (gain := fun x _ => x)
    i1 (src := src) (Γ := changeSt H dist Φ u) (fun b x hb hne => i4 b x hb hne) (fun b x hb => hk ▸ i3 b x hb)
    (fun hna b hb hne hm => by
      rcases i5 b (hk ▸ hb) hm with h | ⟨h, _⟩
      · unfold changeSt; rw [i6 h b, i2]; omega
      · rw [hna] at h; cases h) hρ
  have hadm : ∀ b, b < k → b ≠ src → (Adm a (fun b => decide (P.wt b + H.nw u ≤ a.maxw b)) b ↔ Allowed H a Φ u b) :=
    fun b hb hne => adm_allowed hS hk hp hb hne
  have hsrc : ∀ b, Allowed H a Φ u b → b < k ∧ b ≠ src := by
    intro b hb
    refine ⟨hk ▸ hb.1, ?_⟩
    rintro rfl; exact hb.2.1 hp
  have hcand : ∀ b, b < k → (a.nonAdj = true ∨ ∃ e ∈ H.edges, u ∈ H.pins e ∧ b ∈ H.blocksOf Φ e) → mp b = none →
      a.nonAdj = true ∧ H.inc u = [] := by
    intro b hb hc hm
    rcases i5 b hb hm with h | ⟨h1, h2⟩
    · rcases hc with hc | ⟨e, he, hpin, _⟩
      · exact ⟨hc, h⟩
      · have := (hw.inc_iff u hu e).2 ⟨he, hpin⟩
        rw [h] at this; simp at this
    · rcases hc with hc | ⟨e, he, hpin, hbl⟩
      · rw [hc] at h1; cases h1
      · exact absurd hbl (h2 e he hpin)
  unfold startGain at key
  rw [hk] at key
  rcases key with ⟨r1, r2, r3⟩ | ⟨r1, r2, r3, r4, r5, r6, r7, r8⟩
  · rw [← hk] at r1 r2
    refine ⟨fun h => absurd r1 h, fun _ => r2, ?_, le_of_eq r2, fun _ h => absurd r1 h⟩
    intro b hb hc
    obtain ⟨hbk, hne⟩ := hsrc b hb
    show (maxMove _ _ _ _ (precomputeSt dist C H a.k P.con src u a.nonAdj s) _).2 ≤ _
    rw [r2]
    by_cases hm : mp b = none
    · exact r3 b hne ((hadm b hbk hne).2 hb) (Or.inr ⟨(hcand b hbk hc hm).1, hbk⟩)
    · exact r3 b hne ((hadm b hbk hne).2 hb) (Or.inl hm)
  · rw [← hk] at r1 r4 r5 r6 r7 r8 r3 r2
    refine ⟨fun _ => ⟨(hadm _ (hk ▸ r2) r1).1 r3, r4⟩, fun h => absurd h r1, ?_, r5, fun h _ => r6 h⟩
    intro b hb hc
    obtain ⟨hbk, hne⟩ := hsrc b hb
    by_cases hm : mp b = none
    · have hinc := (hcand b hbk hc hm).2
      show (maxMove _ _ _ _ (precomputeSt dist C H a.k P.con src u a.nonAdj s) _).2 ≤ _
      rw [r4]
      unfold changeSt
      rw [i6 hinc, i6 hinc]
    · exact r7 b hne ((hadm b hbk hne).2 hb) hm

end

/-! ### Property theorems -/

/-- **C45** (exact). For every history of the partition, node and target block, the gain is the change of the objective the
move causes; whatever values the thread-local memory contains. Default partition type. -/
theorem C45_gain_exact (o : Metrics.Obj) (H : HG) (m k mx : Nat) (hw : H.WF) (hf : H.Fits m mx)
    (hk : 0 < k) (h0 : 0 < mx) (h1 : mx + 1 < 2 ^ 32) (os : List PHOp) (hl : PHOp.AllLegal H k (fun _ => none) os)
    (hall : ∀ v ∈ H.nodes, (denseRun H m k mx os).part v ≠ none) {u src : Nat} (hu : u ∈ H.nodes)
    (hp : (denseRun H m k mx os).part u = some src) {s : Scratch} (hs : Clean s) {b : Nat} (hb : b < k) (hne : b ≠ src) :
    (precompute o denseCon H (denseRun H m k mx os).con src u s).iso -
      (precompute o denseCon H (denseRun H m k mx os).con src u s).tmp.getOrDefault 0 b = change H o (denseRun H m k mx os).part u b :=
  exact_generic o hw hf (dense_sim H m k mx hw hf hk h0 h1 os hl) hu hp hall hs hb hne

/-- **C45** (optimal). For every history of the partition and every outcome of the random tie breaking, the returned move
is the best allowed move: among all blocks; for rebalancing if also non-adjacent blocks are requested. The thread-local
memory is clean again afterwards. Default partition type. -/
theorem C45_best_move (o : Metrics.Obj) (H : HG) (m k mx : Nat) (hw : H.WF) (hf : H.Fits m mx) (hew : ∀ e ∈ H.edges, 0 ≤ H.ew e)
    (hk : 0 < k) (h0 : 0 < mx) (h1 : mx + 1 < 2 ^ 32) (os : List PHOp) (hl : PHOp.AllLegal H k (fun _ => none) os)
    (hall : ∀ v ∈ H.nodes, (denseRun H m k mx os).part v ≠ none) {u src : Nat} (hu : u ∈ H.nodes)
    (hp : (denseRun H m k mx os).part u = some src) {a : Args} (ha : a.k = k) {ρ : Rand} (hρ : ρ.Ok) {s : Scratch} (hs : Clean s) :
    BestMove H a (denseRun H m k mx os).part u src (change H o (denseRun H m k mx os).part u) (fun _ => a.rebalance = true → a.nonAdj = true)
      (computeMaxGainMove o denseCon H a ρ (denseRun H m k mx os) s src u).1 ∧
    Clean (computeMaxGainMove o denseCon H a ρ (denseRun H m k mx os) s src u).2 :=
  best_generic o hw hf hew (dense_sim H m k mx hw hf hk h0 h1 os hl) hu hp hall ha hρ hs

/-- **C45**, partition type of the LARGE_K preset. -/
theorem C45_best_move_large_k (o : Metrics.Obj) (H : HG) (m k mx : Nat) (hw : H.WF) (hf : H.Fits m mx) (hew : ∀ e ∈ H.edges, 0 ≤ H.ew e)
    (os : List PHOp) (hl : PHOp.AllLegal H k (fun _ => none) os)
    (hall : ∀ v ∈ H.nodes, (sparseRun H k os).part v ≠ none) {u src : Nat} (hu : u ∈ H.nodes)
    (hp : (sparseRun H k os).part u = some src) {a : Args} (ha : a.k = k) {ρ : Rand} (hρ : ρ.Ok) {s : Scratch} (hs : Clean s) :
    BestMove H a (sparseRun H k os).part u src (change H o (sparseRun H k os).part u) (fun _ => a.rebalance = true → a.nonAdj = true)
      (computeMaxGainMove o sparseCon H a ρ (sparseRun H k os) s src u).1 ∧
    Clean (computeMaxGainMove o sparseCon H a ρ (sparseRun H k os) s src u).2 :=
  best_generic o hw hf hew (sparse_sim H m k mx hw hf os hl) hu hp hall ha hρ hs

/-- **C45**, Steiner tree metric, for any distance function of the target graph: best among the blocks of the incident
hyperedges, or among all blocks if non-adjacent blocks are requested. -/
theorem C45_best_move_steiner (dist : Finset Nat → Int) (H : HG) (m k mx : Nat) (hw : H.WF) (hf : H.Fits m mx)
    (hk : 0 < k) (h0 : 0 < mx) (h1 : mx + 1 < 2 ^ 32) (os : List PHOp) (hl : PHOp.AllLegal H k (fun _ => none) os)
    {u src : Nat} (hu : u ∈ H.nodes)
    (hp : (denseRun H m k mx os).part u = some src) {a : Args} (ha : a.k = k) {ρ : Rand} (hρ : ρ.Ok) {s : Scratch} (hs : Clean s) :
    BestMove H a (denseRun H m k mx os).part u src (changeSt H dist (denseRun H m k mx os).part u)
      (fun b => a.nonAdj = true ∨ ∃ e ∈ H.edges, u ∈ H.pins e ∧ b ∈ H.blocksOf (denseRun H m k mx os).part e)
      (computeMaxGainMoveSt dist denseCon H a ρ (denseRun H m k mx os) s src u).1 ∧
    Clean (computeMaxGainMoveSt dist denseCon H a ρ (denseRun H m k mx os) s src u).2 :=
  bestSt_generic dist hw hf (dense_sim H m k mx hw hf hk h0 h1 os hl) hu hp ha hρ hs

section
variable {σ : Type} {C : ConInfo σ} {H : HG} {m k mx : Nat}

theorem det_generic (o : Metrics.Obj) {σ' : Type} {C' : ConInfo σ'} {P : PHG σ} {P' : PHG σ'} {Φ : Assign}
    (hE : ∀ e ∈ H.edges, EdgeOk C H k P.con Φ e ∧ EdgeOk C' H k P'.con Φ e ∧ C'.connSet P'.con e = C.connSet P.con e)
    (hwt : ∀ b, b < k → P.wt b = P'.wt b) (hw : H.WF) {u src : Nat} (hu : u ∈ H.nodes) (hp : Φ u = some src) (hsrc : src < k)
    (hall : ∀ v ∈ H.nodes, Φ v ≠ none) {a : Args} (hk : a.k = k) (hr : a.noRandom = true) {ρ ρ' : Rand} (hρ : ρ.Ok) (hρ' : ρ'.Ok)
    {s s' : Scratch} (hs : Clean s) (hs' : Clean s') :
    (computeMaxGainMove o C H a ρ P s src u).1 = (computeMaxGainMove o C' H a ρ' P' s' src u).1 := by
  have hinc : ∀ e ∈ H.inc u, e ∈ H.edges ∧ u ∈ H.pins e := fun e he => (hw.inc_iff u hu e).1 he
  obtain ⟨d1, d2⟩ := precompute_det (H := H) o hsrc (H.inc u) (fun e he => hE e (hinc e he).1) (Same.empty hs.1 hs'.1) (hs.2.trans hs'.2.symm)
  obtain ⟨mp, i1, i2, _, _⟩ := precompute_fold (C := C) (H := H) o (con := P.con) (Φ := Φ) hsrc (H.inc u) (fun e he => by
    refine ⟨(hE e (hinc e he).1).1, ?_, fun v hv => hall v (hw.pins_mem e (hinc e he).1 v hv)⟩
    unfold HG.pinsIn; rw [List.countP_pos_iff]; exact ⟨u, (hinc e he).2, by simp [hp]⟩) (inv_empty hs.1) ⟨by simp, by simp⟩
  have h1 := hρ 1 (by decide)
  have h2 := hρ' 1 (by decide)
  refine maxMove_det hr (by omega) (fun b hb => by rw [hwt b (hk ▸ hb)]) d1 d2 (fun x hx => ?_) src
  have := (i1.toDenseInv.lists.2 x.1 x.2).1 hx
  exact hk ▸ i2.lt _ _ this

end

theorem dense_connSet {H : HG} {m k mx : Nat} (hf : H.Fits m mx) {P : PHG (Packed × ConnSets)} {Φ : Assign}
    (hS : Sim (denseLawful m k mx) H P Φ) {e : Nat} (he : e ∈ H.edges) :
    denseCon.connSet P.con e = (List.range k).filter (fun b => decide (0 < H.pinsIn Φ e b)) := by
  obtain ⟨T, hR, hT⟩ := hS.con
  have : denseCon.connSet P.con e = _ := hR.2.connSet (hf e he).1
  rw [this]
  apply List.filter_congr
  intro b hb
  rw [hT e he b (List.mem_range.1 hb)]

/-- **C45** (deterministic). Without random tie breaking, two partitions with the same blocks, reached by any two
histories, yield the same move of a node, whatever the thread-local memories and random numbers are. Default partition
type. -/
theorem C45_deterministic (o : Metrics.Obj) (H : HG) (m k mx : Nat) (hw : H.WF) (hf : H.Fits m mx)
    (hk : 0 < k) (h0 : 0 < mx) (h1 : mx + 1 < 2 ^ 32) (os os' : List PHOp) (hl : PHOp.AllLegal H k (fun _ => none) os)
    (hl' : PHOp.AllLegal H k (fun _ => none) os') (hsame : (denseRun H m k mx os').part = (denseRun H m k mx os).part)
    (hall : ∀ v ∈ H.nodes, (denseRun H m k mx os).part v ≠ none) {u src : Nat} (hu : u ∈ H.nodes)
    (hp : (denseRun H m k mx os).part u = some src) {a : Args} (ha : a.k = k) (hr : a.noRandom = true) {ρ ρ' : Rand} (hρ : ρ.Ok)
    (hρ' : ρ'.Ok) {s s' : Scratch} (hs : Clean s) (hs' : Clean s') :
    (computeMaxGainMove o denseCon H a ρ (denseRun H m k mx os) s src u).1 =
      (computeMaxGainMove o denseCon H a ρ' (denseRun H m k mx os') s' src u).1 := by
  have hS := dense_sim H m k mx hw hf hk h0 h1 os hl
  have hS' := dense_sim H m k mx hw hf hk h0 h1 os' hl'
  rw [hsame] at hS'
  exact det_generic o (fun e he => ⟨edgeOk hf hS he, edgeOk hf hS' he, by rw [dense_connSet hf hS he, dense_connSet hf hS' he]⟩)
    (fun b hb => by rw [hS.wt b hb, hS'.wt b hb]) hw hu hp (hS.range u src hp) hall ha hr hρ hρ' hs hs'

/-! ### Connection with C44

The move as a function of the block ids: the same computation on plain tables instead of the data structures. -/

/-- plain tables computed from the block ids (queries only) -/
def plainCon (H : HG) (k : Nat) : ConInfo Assign where
  pinCount Φ e b := H.pinsIn Φ e b
  connectivity Φ e := H.lam Φ e
  contains Φ e b := decide (0 < H.pinsIn Φ e b)
  connSet Φ e := (List.range k).filter (fun b => decide (0 < H.pinsIn Φ e b))
  setPC Φ _ _ _ := Φ
  incr Φ _ _ := (0, Φ)
  decr Φ _ _ := (0, Φ)
  addBlock Φ _ _ := Φ
  removeBlock Φ _ _ := Φ
  reset Φ := Φ

/-- the arguments of the call in deterministic label propagation (deterministic_label_propagation.cpp:88) -/
def lpArgs (k : Nat) (maxw : Nat → Int) : Args := ⟨k, maxw, true, false, false, true⟩

/-- the parameter `best` of the model of deterministic label propagation: target block and improvement -/
def lpBest (o : Metrics.Obj) (H : HG) (k : Nat) (maxw : Nat → Int) (Φ : Assign) (u : Nat) : Nat × Int :=
  match Φ u with
  | none => (0, 0)
  | some src =>
    let r := (computeMaxGainMove o (plainCon H k) H (lpArgs k maxw) ⟨fun _ => false, fun _ => 0⟩
      ⟨Φ, H.blockWeight Φ, Φ⟩ ⟨⟨0, fun _ => 0, fun _ => (0, 0)⟩, 0⟩ src u).1
    (r.1, -r.2)

theorem plain_ok {H : HG} {k : Nat} {Φ : Assign} {e : Nat} : EdgeOk (plainCon H k) H k Φ Φ e :=
  ⟨fun _ _ => rfl, fun b => by simp [plainCon], List.nodup_range.filter _, rfl⟩

/-- **C45** (used in C44). On the default partition type the call of deterministic label propagation returns the move
`lpBest` of the block ids, and the improvement it reports is the exact one, positive if the node is to be moved, and the
largest possible one. -/
theorem C45_det_lp (o : Metrics.Obj) (H : HG) (m k mx : Nat) (hw : H.WF) (hf : H.Fits m mx) (hew : ∀ e ∈ H.edges, 0 ≤ H.ew e)
    (maxw : Nat → Int) {P : PHG (Packed × ConnSets)} {Φ : Assign} (hS : Sim (denseLawful m k mx) H P Φ) (hall : ∀ v ∈ H.nodes, Φ v ≠ none)
    {u src : Nat} (hu : u ∈ H.nodes) (hp : Φ u = some src) {ρ : Rand} (hρ : ρ.Ok) {s : Scratch} (hs : Clean s) :
    let r := (computeMaxGainMove o denseCon H (lpArgs k maxw) ρ P s src u).1
    (r.1, -r.2) = lpBest o H k maxw Φ u ∧ r.1 < k ∧
    (r.1 ≠ src → 0 < -r.2 ∧ -r.2 = H.objective Φ o - H.objective (Φ.put u r.1) o) ∧
    ∀ b, b < k → b ≠ src → H.objective Φ o - H.objective (Φ.put u b) o ≤ -r.2 := by
  intro r
  have hsrc := hS.range u src hp
  have hdet : r = (computeMaxGainMove o (plainCon H k) H (lpArgs k maxw) ⟨fun _ => false, fun _ => 0⟩
      ⟨Φ, H.blockWeight Φ, Φ⟩ ⟨⟨0, fun _ => 0, fun _ => (0, 0)⟩, 0⟩ src u).1 :=
    det_generic o (P' := ⟨Φ, H.blockWeight Φ, Φ⟩) (fun e he => ⟨edgeOk hf hS he, plain_ok, (dense_connSet hf hS he).symm⟩)
      (fun b hb => hS.wt b hb) hw hu hp hsrc hall rfl rfl hρ (fun n hn => hn) hs ⟨rfl, rfl⟩
  have hb := (best_generic o hw hf hew hS hu hp hall (a := lpArgs k maxw) rfl hρ hs).1
  refine ⟨?_, ?_, ?_, ?_⟩
  · unfold lpBest
    rw [hp, hdet]
  · by_cases h : r.1 = src
    · rw [h]; exact hsrc
    · exact (hb.exact' h).1.1
  · intro h
    have h1 := hb.strict rfl h
    have h2 := (hb.exact' h).2
    rw [show (lpArgs k maxw).rebalance = false from rfl] at h1
    have h1' : r.2 < 0 := h1
    have h2' : r.2 = H.objective (Φ.put u r.1) o - H.objective Φ o := h2
    constructor <;> omega
  · intro b hbk hne
    have := hb.optimal b ⟨hbk, by rw [hp]; simpa using Ne.symm hne, Or.inl rfl⟩ (fun h => by cases h)
    have h3 : r.2 ≤ H.objective (Φ.put u b) o - H.objective Φ o := this
    omega

/-! ### A concrete case -/

def exArgs : Args := ⟨2, fun _ => 2, false, false, false, false⟩
def exRand : Rand := ⟨fun n => n % 2 == 0, fun n => n - 1⟩
def exScratch : Scratch := ⟨⟨0, fun _ => 3, fun _ => (7, 9)⟩, 0⟩


/-- a random allowed move: node 1 has the gain 2 if imbalance is allowed, and stays otherwise -/
example : (computeMaxGainMove .km1 denseCon rbHG { exArgs with allow := true } exRand (denseRun rbHG 3 2 2 rbOs) exScratch 1 1).1 = (0, -2) ∧
    (computeMaxGainMove .km1 denseCon rbHG exArgs exRand (denseRun rbHG 3 2 2 rbOs) exScratch 1 1).1 = (1, 0) := by decide +kernel

example : BestMove rbHG { exArgs with allow := true } (denseRun rbHG 3 2 2 rbOs).part 1 1 (change rbHG .km1 (denseRun rbHG 3 2 2 rbOs).part 1)
    (fun _ => False → True) (computeMaxGainMove .km1 denseCon rbHG { exArgs with allow := true } exRand (denseRun rbHG 3 2 2 rbOs) exScratch 1 1).1 := by
  have h := (C45_best_move .km1 rbHG 3 2 2 rbHG_wf (by unfold HG.Fits; decide) (by decide) (by decide) (by decide) (by decide) rbOs rbOs_legal
    (by decide +kernel) (u := 1) (src := 1) (by decide) (by decide +kernel) (a := { exArgs with allow := true }) rfl (ρ := exRand)
    (fun n hn => by show n - 1 < n; omega) (s := exScratch) ⟨rfl, rfl⟩).1
  exact ⟨h.exact', h.stay, fun b hb _ => h.optimal b hb (fun h => by cases h), h.noWorse, h.strict⟩

/-! ### What does not hold for the LARGE_K preset -/

/-- one hyperedge with three pins -/
def triHG : HG where
  nodes := [0, 1, 2]
  edges := [0]
  pins := fun e => if e = 0 then [0, 1, 2] else []
  inc := fun v => if v < 3 then [0] else []
  nw := fun _ => 1
  ew := fun _ => 1

/-- **C45** (finding). In the partition type of the LARGE_K preset the move depends on the history of the partition, even
without random tie breaking: node 0 of a hyperedge with three pins in three blocks goes to the block that was added to
the connectivity set of the hyperedge first. -/
theorem C45_large_k_history : PHOp.AllLegal triHG 3 (fun _ => none) [.assign 0 0, .assign 1 1, .assign 2 2] ∧
    PHOp.AllLegal triHG 3 (fun _ => none) [.assign 0 0, .assign 2 2, .assign 1 1] ∧
    (∀ v ∈ triHG.nodes, (sparseRun triHG 3 [.assign 0 0, .assign 1 1, .assign 2 2]).part v = some v ∧
      (sparseRun triHG 3 [.assign 0 0, .assign 2 2, .assign 1 1]).part v = some v) ∧
    (computeMaxGainMove .km1 sparseCon triHG (lpArgs 3 (fun _ => 9)) exRand (sparseRun triHG 3 [.assign 0 0, .assign 1 1, .assign 2 2]) exScratch 0 0).1 = (1, -1) ∧
    (computeMaxGainMove .km1 sparseCon triHG (lpArgs 3 (fun _ => 9)) exRand (sparseRun triHG 3 [.assign 0 0, .assign 2 2, .assign 1 1]) exScratch 0 0).1 = (2, -1) := by
  refine ⟨?_, ?_, by decide +kernel, by decide +kernel, by decide +kernel⟩
  · simp [PHOp.AllLegal, PHOp.Legal, PHOp.spec, Assign.put, triHG]
  · simp [PHOp.AllLegal, PHOp.Legal, PHOp.spec, Assign.put, triHG]

end GainComp
end Verif
