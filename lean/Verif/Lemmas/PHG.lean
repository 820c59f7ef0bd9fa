import Verif.Model.PartitionedHypergraph
import Verif.Lemmas.ConInfo
import Verif.Lemmas.Hypergraph
namespace Verif

/-- The data structures were allocated large enough for `H`: hyperedge ids are below `m`, no
hyperedge has more than `mx` pins. -/
def HG.Fits (H : HG) (m mx : Nat) : Prop := ∀ e ∈ H.edges, e < m ∧ (H.pins e).length ≤ mx

namespace PHG
variable {σ : Type} {C : ConInfo σ} {H : HG} {m k mx : Nat}

/-- The state represents the assignment `Φ` exactly. -/
structure Sim (L : C.Lawful m k mx) (H : HG) (P : PHG σ) (Φ : Assign) : Prop where
  part : P.part = Φ
  range : ∀ v b, Φ v = some b → b < k
  wt : ∀ b, b < k → P.wt b = H.blockWeight Φ b
  con : ∃ T, L.R P.con T ∧ ∀ e ∈ H.edges, ∀ b, b < k → T e b = H.pinsIn Φ e b

theorem updateEdge_spec (L : C.Lawful m k mx) (hw : H.WF) (hf : H.Fits m mx) {c : σ} {T : Table}
    (hR : L.R c T) {Φ : Assign} {e u src dst : Nat} (he : e ∈ H.edges) (hu : u ∈ H.pins e)
    (hpu : Φ u = some src) (hne : src ≠ dst) (hs : src < k) (hd : dst < k)
    (hT : ∀ b, b < k → T e b = H.pinsIn Φ e b) :
    (updateEdge C H c e src dst).1 =
      { he := e, src := src, dst := dst, weight := H.ew e, size := (H.pins e).length,
        srcAfter := H.pinsIn (Φ.put u dst) e src, dstAfter := H.pinsIn (Φ.put u dst) e dst } ∧
    ∃ T', L.R (updateEdge C H c e src dst).2 T' ∧
      (∀ b, b < k → T' e b = H.pinsIn (Φ.put u dst) e b) ∧
      (∀ e', e' ≠ e → ∀ b, T' e' b = T e' b) := by
  obtain ⟨hem, hlen⟩ := hf e he
  have hput := fun c => H.pinsIn_put_mem (Φ := Φ) (b := dst) (c := c) (hw.pins_nodup e he) hu
  have hps := hput src; have hpd := hput dst
  simp only [hpu, if_true, hne, if_false] at hps
  have hsd : (some src = some dst) = False := by simp [hne]
  simp only [hpu, hsd, if_false, if_true] at hpd
  have h1 := hT src hs
  have h2 := hT dst hd
  obtain ⟨d1, d2⟩ := L.decBlock hR hem hs (by omega)
  have hle := H.pinsIn_le (Φ := Φ.put u dst) (e := e) (b := dst)
  have hTd : (T.upd e src (T e src - 1)) e dst = T e dst := by
    unfold Table.upd; rw [if_neg (by rintro ⟨_, h⟩; exact hne h.symm)]
  obtain ⟨i1, i2⟩ := L.incBlock d2 hem hd (by omega)
  refine ⟨?_, _, i2, ?_, ?_⟩
  · unfold updateEdge
    simp only [d1, i1, hTd]
    congr 1 <;> omega
  · intro b hb
    have hpb := hput b
    have h3 := hT b hb
    rw [hTd]
    unfold Table.upd
    by_cases hbd : b = dst
    · subst hbd; simp; omega
    · by_cases hbs : b = src
      · subst hbs; simp [hbd]; omega
      · have : ¬ (some src = some b) := by simp; exact fun h => hbs h.symm
        simp only [hpu, this, if_false, hbd] at hpb
        simp [hbd, hbs]; omega
  · intro e' he' b
    unfold Table.upd; simp [he']

theorem updateEdges_spec (L : C.Lawful m k mx) (hw : H.WF) (hf : H.Fits m mx) {Φ : Assign}
    {u src dst : Nat} (hpu : Φ u = some src) (hne : src ≠ dst) (hs : src < k) (hd : dst < k) :
    ∀ (es : List Nat) (c : σ) (T : Table), es.Nodup → (∀ e ∈ es, e ∈ H.edges ∧ u ∈ H.pins e) →
    L.R c T → (∀ e ∈ es, ∀ b, b < k → T e b = H.pinsIn Φ e b) →
    (updateEdges C H src dst c es).1 = es.map (fun e =>
      { he := e, src := src, dst := dst, weight := H.ew e, size := (H.pins e).length,
        srcAfter := H.pinsIn (Φ.put u dst) e src, dstAfter := H.pinsIn (Φ.put u dst) e dst }) ∧
    ∃ T', L.R (updateEdges C H src dst c es).2 T' ∧
      (∀ e ∈ es, ∀ b, b < k → T' e b = H.pinsIn (Φ.put u dst) e b) ∧
      (∀ e, e ∉ es → ∀ b, T' e b = T e b) := by
  intro es
  induction es with
  | nil => intro c T _ _ hR _; exact ⟨rfl, T, hR, by simp, fun _ _ _ => rfl⟩
  | cons e es ih =>
    intro c T hn hes hR hT
    rw [List.nodup_cons] at hn
    obtain ⟨h1, T1, hR1, h2, h3⟩ := updateEdge_spec L hw hf hR (hes e (by simp)).1
      (hes e (by simp)).2 hpu hne hs hd (hT e (by simp))
    have hne' : ∀ e' ∈ es, e' ≠ e := fun e' he' h => hn.1 (h ▸ he')
    obtain ⟨h4, T2, hR2, h5, h6⟩ := ih (updateEdge C H c e src dst).2 T1 hn.2
      (fun e' he' => hes e' (by simp [he'])) hR1
      (fun e' he' b hb => by rw [h3 e' (hne' e' he') b]; exact hT e' (by simp [he']) b hb)
    refine ⟨by simp only [updateEdges, List.map_cons, h1, h4], T2, hR2, ?_, ?_⟩
    · intro e' he' b hb
      rcases List.mem_cons.1 he' with rfl | he''
      · rw [h6 _ hn.1 b]; exact h2 b hb
      · exact h5 e' he'' b hb
    · intro e' he' b
      rw [List.mem_cons, not_or] at he'
      rw [h6 e' he'.2 b, h3 e' he'.1 b]

theorem inc_spec (hw : H.WF) {u : Nat} (hu : u ∈ H.nodes) :
    (H.inc u).Nodup ∧ (∀ e ∈ H.inc u, e ∈ H.edges ∧ u ∈ H.pins e) ∧
    (∀ e ∈ H.edges, e ∉ H.inc u → u ∉ H.pins e) :=
  ⟨hw.inc_nodup u hu, fun e he => (hw.inc_iff u hu e).1 he,
    fun e he hne hp => hne ((hw.inc_iff u hu e).2 ⟨he, hp⟩)⟩

/-- Accepted move: decision, reported updates and resulting state. -/
theorem changeNodePart_spec {L : C.Lawful m k mx} (hw : H.WF) (hf : H.Fits m mx) {P : PHG σ}
    {Φ : Assign} (hS : Sim L H P Φ) {u src dst : Nat} {maxTo : Int} (hu : u ∈ H.nodes)
    (hpu : Φ u = some src) (hne : src ≠ dst) (hd : dst < k) :
    (H.blockWeight Φ dst + H.nw u ≤ maxTo →
      (changeNodePart C H P u src dst maxTo).1 = true ∧
      (changeNodePart C H P u src dst maxTo).2.1 = (H.inc u).map (fun e =>
        { he := e, src := src, dst := dst, weight := H.ew e, size := (H.pins e).length,
          srcAfter := H.pinsIn (Φ.put u dst) e src,
          dstAfter := H.pinsIn (Φ.put u dst) e dst }) ∧
      Sim L H (changeNodePart C H P u src dst maxTo).2.2 (Φ.put u dst)) ∧
    (¬ H.blockWeight Φ dst + H.nw u ≤ maxTo →
      changeNodePart C H P u src dst maxTo = (false, [], P)) := by
  have hs := hS.range u src hpu
  have hwt : addWt P.wt dst (H.nw u) dst = H.blockWeight Φ dst + H.nw u := by
    simp only [addWt, if_true]; rw [hS.wt dst hd]
  constructor
  · intro hle
    obtain ⟨T, hR, hT⟩ := hS.con
    obtain ⟨i1, i2, i3⟩ := inc_spec hw hu
    obtain ⟨h1, T', hR', h2, h3⟩ := updateEdges_spec L hw hf hpu hne hs hd (H.inc u) P.con T i1 i2 hR
      (fun e he => hT e (i2 e he).1)
    unfold changeNodePart
    simp only [hwt, hle, if_true]
    refine ⟨trivial, h1, ?_, ?_, ?_, ?_⟩
    · simp only [hS.part]
    · intro v b hv
      by_cases hvu : v = u
      · subst hvu; rw [Assign.put_same] at hv; cases hv; exact hd
      · rw [Assign.put_other Φ hvu] at hv; exact hS.range v b hv
    · intro b hb
      rw [H.blockWeight_put hw.nodes_nodup hu, hpu]
      simp only [addWt]
      have := hS.wt b hb
      have e1 : (some src = some b) = (b = src) := by simp [eq_comm]
      simp only [e1]
      by_cases hbd : b = dst
      · have : b ≠ src := fun h => hne (h.symm.trans hbd)
        simp [hbd, hne.symm]; rw [← hS.wt dst hd]
      · by_cases hbs : b = src
        · subst hbs; simp [hbd, this]; ring
        · simp [hbd, hbs, this]
    · refine ⟨T', hR', ?_⟩
      intro e he b hb
      by_cases hin : e ∈ H.inc u
      · exact h2 e hin b hb
      · rw [h3 e hin b, H.pinsIn_put_notMem (i3 e he hin)]; exact hT e he b hb
  · intro hgt
    unfold changeNodePart
    simp only [hwt, hgt, if_false]
    congr 2
    have : addWt (addWt P.wt dst (H.nw u)) dst (-H.nw u) = P.wt := by
      funext b; unfold addWt; by_cases hb : b = dst <;> simp [hb]
    rw [this]

theorem setNodePart_spec {L : C.Lawful m k mx} (hw : H.WF) (hf : H.Fits m mx) {P : PHG σ}
    {Φ : Assign} (hS : Sim L H P Φ) {u p : Nat} (hu : u ∈ H.nodes) (hpu : Φ u = none)
    (hp : p < k) : Sim L H (setNodePart C H P u p) (Φ.put u p) := by
  obtain ⟨T, hR, hT⟩ := hS.con
  obtain ⟨i1, i2, i3⟩ := inc_spec hw hu
  have key : ∀ (es : List Nat) (c : σ) (T : Table), es.Nodup →
      (∀ e ∈ es, e ∈ H.edges ∧ u ∈ H.pins e) → L.R c T →
      (∀ e ∈ es, ∀ b, b < k → T e b = H.pinsIn Φ e b) →
      ∃ T', L.R (es.foldl (fun c e => (C.incBlock c e p).2) c) T' ∧
        (∀ e ∈ es, ∀ b, b < k → T' e b = H.pinsIn (Φ.put u p) e b) ∧
        (∀ e, e ∉ es → ∀ b, T' e b = T e b) := by
    intro es
    induction es with
    | nil => intro c T _ _ hR _; exact ⟨T, hR, by simp, fun _ _ _ => rfl⟩
    | cons e es ih =>
      intro c T hn hes hR hT
      rw [List.nodup_cons] at hn
      obtain ⟨hee, hup⟩ := hes e (by simp)
      obtain ⟨hem, hlen⟩ := hf e hee
      have hput := fun c => H.pinsIn_put_mem (Φ := Φ) (b := p) (c := c) (hw.pins_nodup e hee) hup
      have hle := H.pinsIn_le (Φ := Φ.put u p) (e := e) (b := p)
      have hpp := hput p
      simp only [hpu, if_true] at hpp
      have hTp := hT e (by simp) p hp
      obtain ⟨_, h2⟩ := L.incBlock hR hem hp (by simp at hpp; omega)
      have hne' : ∀ e' ∈ es, e' ≠ e := fun e' he' h => hn.1 (h ▸ he')
      obtain ⟨T', hR', h5, h6⟩ := ih _ _ hn.2 (fun e' he' => hes e' (by simp [he'])) h2
        (fun e' he' b hb => by
          unfold Table.upd; simp only [hne' e' he', false_and, if_false]
          exact hT e' (by simp [he']) b hb)
      refine ⟨T', hR', ?_, ?_⟩
      · intro e' he' b hb
        rcases List.mem_cons.1 he' with rfl | he''
        · rw [h6 _ hn.1 b]
          have hb2 := hput b
          have hTb := hT e' (by simp) b hb
          unfold Table.upd
          by_cases hbp : b = p
          · subst hbp; simp at hpp ⊢; omega
          · simp [hbp, hpu] at hb2 ⊢; omega
        · exact h5 e' he'' b hb
      · intro e' he' b
        rw [List.mem_cons, not_or] at he'
        rw [h6 e' he'.2 b]; unfold Table.upd; simp [he'.1]
  obtain ⟨T', hR', h2, h3⟩ := key (H.inc u) P.con T i1 i2 hR (fun e he => hT e (i2 e he).1)
  refine ⟨by simp only [setNodePart, hS.part], ?_, ?_, T', hR', ?_⟩
  · intro v b hv
    by_cases hvu : v = u
    · subst hvu; rw [Assign.put_same] at hv; cases hv; exact hp
    · rw [Assign.put_other Φ hvu] at hv; exact hS.range v b hv
  · intro b hb
    rw [H.blockWeight_put hw.nodes_nodup hu, hpu]
    have := hS.wt b hb
    simp only [setNodePart, addWt]
    by_cases hbp : b = p <;> simp [hbp, this] at *
    exact this
  · intro e he b hb
    by_cases hin : e ∈ H.inc u
    · exact h2 e hin b hb
    · rw [h3 e hin b, H.pinsIn_put_notMem (i3 e he hin)]; exact hT e he b hb

theorem chunkWeights_eq (part : Assign) (chunk : List Nat) (b : Nat) :
    chunkWeights H part chunk b = wsum H.nw part b chunk := by
  unfold chunkWeights
  have : ∀ (l : List Nat) (f : Nat → Int), (l.foldl (fun pws u => match part u with
      | some b => addWt pws b (H.nw u)
      | none => pws) f) b = f b + wsum H.nw part b l := by
    intro l
    induction l with
    | nil => intro f; simp [wsum_nil]
    | cons a l ih =>
      intro f
      rw [List.foldl_cons, ih, wsum_cons]
      cases ha : part a with
      | none => simp
      | some c =>
        simp only [addWt, Option.some.injEq]
        have : (c = b) = (b = c) := propext eq_comm
        simp only [this]
        by_cases hbc : b = c <;> simp [hbc]; ring
  exact (this chunk (fun _ => 0)).trans (by simp)

theorem initBlockWeights_eq (P : PHG σ) (order : Nat → List (List Nat)) (b : Nat)
    (h0 : P.wt b = 0) (hperm : (order b).flatten.Perm H.nodes) :
    initBlockWeights H P order b = H.blockWeight P.part b := by
  unfold initBlockWeights
  rw [h0]
  have : ∀ (L : List (List Nat)) (x : Int),
      L.foldl (fun acc chunk => acc + chunkWeights H P.part chunk b) x =
        x + wsum H.nw P.part b L.flatten := by
    intro L
    induction L with
    | nil => intro x; simp [wsum_nil]
    | cons a L ih =>
      intro x
      rw [List.foldl_cons, ih, chunkWeights_eq, List.flatten_cons, wsum_append]; ring
  rw [this, wsum_perm _ _ _ hperm]; simp [HG.blockWeight, wsum]

theorem localCounts_eq (part : Assign) (pins : List Nat) (b : Nat) :
    localCounts part pins b = pins.countP (fun v => part v = some b) := by
  unfold localCounts
  have : ∀ (l : List Nat) (f : Nat → Nat), (l.foldl (fun cnt v => match part v with
      | some b => fun b' => if b' = b then cnt b' + 1 else cnt b'
      | none => cnt) f) b = f b + l.countP (fun v => part v = some b) := by
    intro l
    induction l with
    | nil => intro f; simp
    | cons a l ih =>
      intro f
      rw [List.foldl_cons, ih, List.countP_cons]
      cases ha : part a with
      | none => simp
      | some c =>
        have : (c = b) = (b = c) := propext eq_comm
        simp only [Option.some.injEq, decide_eq_true_eq, this]
        by_cases hbc : b = c <;> simp [hbc]; omega
  exact (this pins (fun _ => 0)).trans (by simp)

theorem initEdge_spec (L : C.Lawful m k mx) {Φ : Assign} {c : σ} {T : Table} {e : Nat}
    (hR : L.R c T) (hem : e < m) (hlen : (H.pins e).length ≤ mx) (h0 : ∀ b, b < k → T e b = 0) :
    ∃ T', L.R (initEdge C H k Φ c e) T' ∧ (∀ b, b < k → T' e b = H.pinsIn Φ e b) ∧
      (∀ e', e' ≠ e → ∀ b, T' e' b = T e' b) := by
  have key : ∀ j, j ≤ k → ∃ T', L.R ((List.range j).foldl (fun c p =>
      if localCounts Φ (H.pins e) p > 0 then
        C.setPC (C.addBlock c e p) e p (localCounts Φ (H.pins e) p) else c) c) T' ∧
      (∀ b, b < j → T' e b = H.pinsIn Φ e b) ∧ (∀ b, j ≤ b → T' e b = T e b) ∧
      (∀ e', e' ≠ e → ∀ b, T' e' b = T e' b) := by
    intro j
    induction j with
    | zero => intro _; exact ⟨T, hR, by simp, fun _ _ => rfl, fun _ _ _ => rfl⟩
    | succ j ih =>
      intro hj
      obtain ⟨T1, hR1, a1, a2, a3⟩ := ih (by omega)
      rw [List.range_succ, List.foldl_append]
      simp only [List.foldl_cons, List.foldl_nil]
      have hcnt : localCounts Φ (H.pins e) j = H.pinsIn Φ e j := localCounts_eq _ _ _
      rw [hcnt]
      by_cases hpos : H.pinsIn Φ e j > 0
      · rw [if_pos hpos]
        have hle := H.pinsIn_le (Φ := Φ) (e := e) (b := j)
        have h2 := (L.fill (v := H.pinsIn Φ e j) hR1 hem (by omega : j < k)
          (by rw [a2 j (by omega)]; exact h0 j (by omega)) hpos (by omega)).1
        refine ⟨_, h2, ?_, ?_, ?_⟩
        · intro b hb
          unfold Table.upd
          by_cases hbj : b = j
          · simp [hbj]
          · simp only [hbj, and_false, if_false]; exact a1 b (by omega)
        · intro b hb
          unfold Table.upd
          rw [if_neg (by omega)]; exact a2 b (by omega)
        · intro e' he' b
          unfold Table.upd
          rw [if_neg (by simp [he'])]; exact a3 e' he' b
      · rw [if_neg hpos]
        refine ⟨T1, hR1, ?_, fun b hb => a2 b (by omega), a3⟩
        intro b hb
        by_cases hbj : b = j
        · subst hbj; rw [a2 b (by omega), h0 b (by omega)]; omega
        · exact a1 b (by omega)
  obtain ⟨T', hR', b1, _, b3⟩ := key k (Nat.le_refl k)
  exact ⟨T', hR', b1, b3⟩

theorem initPinCounts_spec (L : C.Lawful m k mx) {Φ : Assign} (es : List Nat) :
    ∀ (c : σ) (T : Table), es.Nodup → (∀ e ∈ es, e < m ∧ (H.pins e).length ≤ mx) → L.R c T →
    (∀ e ∈ es, ∀ b, b < k → T e b = 0) →
    ∃ T', L.R (es.foldl (initEdge C H k Φ) c) T' ∧
      (∀ e ∈ es, ∀ b, b < k → T' e b = H.pinsIn Φ e b) ∧
      (∀ e, e ∉ es → ∀ b, T' e b = T e b) := by
  induction es with
  | nil => intro c T _ _ hR _; exact ⟨T, hR, by simp, fun _ _ _ => rfl⟩
  | cons e es ih =>
    intro c T hn hes hR h0
    rw [List.nodup_cons] at hn
    obtain ⟨T1, hR1, a1, a2⟩ := initEdge_spec (Φ := Φ) L hR (hes e (by simp)).1 (hes e (by simp)).2
      (h0 e (by simp))
    have hne' : ∀ e' ∈ es, e' ≠ e := fun e' he' h => hn.1 (h ▸ he')
    obtain ⟨T2, hR2, b1, b2⟩ := ih _ T1 hn.2 (fun e' he' => hes e' (by simp [he'])) hR1
      (fun e' he' b hb => by rw [a2 e' (hne' e' he')]; exact h0 e' (by simp [he']) b hb)
    refine ⟨T2, hR2, ?_, ?_⟩
    · intro e' he' b hb
      rcases List.mem_cons.1 he' with rfl | he''
      · rw [b2 _ hn.1 b]; exact a1 b hb
      · exact b1 e' he'' b hb
    · intro e' he' b
      rw [List.mem_cons, not_or] at he'
      rw [b2 e' he'.2 b, a2 e' he'.1 b]

/-- the assignment stored by `setOnlyNodePart` on all nodes -/
def assignAll (nodes : List Nat) (Φ : Nat → Nat) : Assign :=
  fun v => if v ∈ nodes then some (Φ v) else none

theorem build_spec {L : C.Lawful m k mx} (hw : H.WF) (hf : H.Fits m mx) {P : PHG σ} {T0 : Table}
    (hR : L.R P.con T0) {Φ : Nat → Nat} (hΦ : ∀ v ∈ H.nodes, Φ v < k) {norder : List Nat}
    (hno : norder.Perm H.nodes) {order : Nat → List (List Nat)}
    (ho : ∀ b, b < k → (order b).flatten.Perm H.nodes) {eorder : List Nat}
    (heo : eorder.Perm H.edges) :
    Sim L H (build C H k P Φ norder order eorder) (assignAll H.nodes Φ) := by
  have hpart : ∀ (l : List Nat) (Q : PHG σ),
      l.foldl (fun P u => setOnlyNodePart P u (Φ u)) Q =
        { Q with part := fun v => if v ∈ l then some (Φ v) else Q.part v } := by
    intro l
    induction l with
    | nil => intro Q; simp
    | cons a l ih =>
      intro Q
      rw [List.foldl_cons, ih]
      simp only [setOnlyNodePart]
      congr 1
      funext v
      by_cases h1 : v ∈ l
      · simp [h1]
      · by_cases h2 : v = a
        · subst h2; simp [h1, Assign.put_same]
        · simp [h1, h2, Assign.put_other]
  unfold build
  simp only [hpart]
  have hP : (fun v => if v ∈ norder then some (Φ v) else (resetPartition C P).part v) =
      assignAll H.nodes Φ := by
    funext v
    unfold assignAll resetPartition
    by_cases hv : v ∈ H.nodes
    · rw [if_pos (hno.mem_iff.2 hv), if_pos hv]
    · rw [if_neg (fun h => hv (hno.mem_iff.1 h)), if_neg hv]
  rw [hP]
  refine ⟨rfl, ?_, ?_, ?_⟩
  · intro v b hv
    unfold assignAll at hv
    split at hv
    · rename_i h; cases hv; exact hΦ v h
    · simp at hv
  · intro b hb
    exact initBlockWeights_eq (H := H) _ order b rfl (ho b hb)
  · have hR0 : L.R (C.reset P.con) (fun _ _ => 0) := L.reset hR
    obtain ⟨T', hR', h1, _⟩ := initPinCounts_spec (H := H) (Φ := assignAll H.nodes Φ) L eorder
      (C.reset P.con) (fun _ _ => 0) (heo.nodup_iff.2 hw.edges_nodup)
      (fun e he => hf e (heo.mem_iff.1 he)) hR0 (fun _ _ _ _ => rfl)
    exact ⟨T', hR', fun e he b hb => h1 e (heo.mem_iff.2 he) b hb⟩

end PHG
end Verif
