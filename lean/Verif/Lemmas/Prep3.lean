import Verif.Lemmas.Prep2
import Verif.Props.C05_C06_C11_C14
/-!
# Lemmas for C46: the partition during the restoration
-/
namespace Verif
namespace Prep
open PHG

/-- the enabled part of the hypergraph, where disabled hyperedges are listed without pins -/
def padded (t : SHG) : HG where
  nodes := (List.range t.n).filter t.nodeOn
  edges := List.range t.m
  pins e := if t.edgeOn e then t.pins e else []
  inc u := (t.nets u).take (t.size u)
  nw := t.nw
  ew := t.ew

/-- disabled nodes have no incident nets -/
def Iso (s t : SHG) : Prop := ∀ u, u < s.n → t.nodeOn u = false → s.nets u = []

theorem mem_nodes {s t : SHG} (h : Rel s t) {u : Nat} : u ∈ (padded t).nodes ↔ u < s.n ∧ t.nodeOn u = true := by
  simp [padded, h.static.n]

theorem node_of_pin {s t : SHG} (hF : s.Full) (h : Rel s t) (hi : Iso s t) {e v : Nat} (he : e < s.m) (hv : v ∈ s.pins e) :
    v ∈ (padded t).nodes := by
  have hlt := hF.pins_lt e he v hv
  refine (mem_nodes h).2 ⟨hlt, ?_⟩
  by_contra hc
  have := hi v hlt (by simpa using hc)
  have h2 := (hF.nets_iff v e).2 ⟨he, hv⟩
  rw [this] at h2; simp at h2

theorem padded_wf {s t : SHG} (hF : s.Full) (h : Rel s t) (hi : Iso s t) : (padded t).WF where
  nodes_nodup := List.nodup_range.filter _
  edges_nodup := List.nodup_range
  pins_mem := by
    intro e he v hv
    have he' : e < s.m := by rw [← h.static.m]; exact List.mem_range.1 he
    simp only [padded] at hv
    split_ifs at hv
    · rw [h.static.pins] at hv
      exact node_of_pin hF h hi he' hv
    · simp at hv
  pins_nodup := by
    intro e he
    have he' : e < s.m := by rw [← h.static.m]; exact List.mem_range.1 he
    simp only [padded]
    split_ifs
    · rw [h.static.pins]; exact hF.pins_nodup e he'
    · simp
  inc_nodup := fun v _ => ((h.segs v).perm.nodup_iff.2 (hF.nets_nodup v)).sublist (List.take_sublist _ _)
  inc_iff := by
    intro v _ e
    show e ∈ (t.nets v).take (t.size v) ↔ e ∈ List.range t.m ∧ v ∈ (if t.edgeOn e then t.pins e else [])
    rw [(h.segs v).act e, hF.nets_iff, h.static.m, h.static.pins, List.mem_range]
    by_cases ht : t.edgeOn e = true
    · simp [ht]
    · simp [ht]

theorem toHG_wf {s t : SHG} (hF : s.Full) (h : Rel s t) (hi : Iso s t) : t.toHG.WF where
  nodes_nodup := List.nodup_range.filter _
  edges_nodup := List.nodup_range.filter _
  pins_mem := by
    intro e he v hv
    have he' : e < s.m := by
      have := (List.mem_filter.1 he).1
      rw [← h.static.m]; exact List.mem_range.1 this
    change v ∈ t.pins e at hv
    rw [h.static.pins] at hv
    exact node_of_pin hF h hi he' hv
  pins_nodup := by
    intro e he
    have he' : e < s.m := by
      have := (List.mem_filter.1 he).1
      rw [← h.static.m]; exact List.mem_range.1 this
    show (t.pins e).Nodup
    rw [h.static.pins]; exact hF.pins_nodup e he'
  inc_nodup := fun v _ => ((h.segs v).perm.nodup_iff.2 (hF.nets_nodup v)).sublist (List.take_sublist _ _)
  inc_iff := by
    intro v _ e
    show e ∈ (t.nets v).take (t.size v) ↔ e ∈ (List.range t.m).filter t.edgeOn ∧ v ∈ t.pins e
    rw [(h.segs v).act e, hF.nets_iff, h.static.pins, List.mem_filter, List.mem_range, h.static.m]
    exact ⟨fun ⟨⟨a, b⟩, c⟩ => ⟨⟨a, c⟩, b⟩, fun ⟨⟨a, c⟩, b⟩ => ⟨⟨a, b⟩, c⟩⟩

theorem padded_fits {s t : SHG} (h : Rel s t) {mx : Nat} (hl : ∀ e, e < s.m → (s.pins e).length ≤ mx) : (padded t).Fits s.m mx := by
  intro e he
  have he' : e < s.m := by rw [← h.static.m]; exact List.mem_range.1 he
  refine ⟨he', ?_⟩
  simp only [padded]
  split_ifs
  · rw [h.static.pins]; exact hl e he'
  · simp

/-! ### Histories on the reduced hypergraph -/

/-- the operation that also visits the disabled hyperedges -/
def padOp (t : SHG) : PHOp → PHOp
  | .build Φ n o e => .build Φ n o (e ++ (List.range t.m).filter (fun e => !t.edgeOn e))
  | .assign u p => .assign u p
  | .move u src dst mw => .move u src dst mw

variable {σ : Type} {C : ConInfo σ} {k : Nat}

theorem initEdge_none (part : Assign) (c : σ) {t : SHG} {e : Nat} (h : t.edgeOn e = false) : initEdge C (padded t) k part c e = c := by
  unfold initEdge
  have : localCounts part ((padded t).pins e) = fun _ => 0 := by simp [padded, h, localCounts]
  simp only [this, gt_iff_lt, lt_self_iff_false, if_false]
  generalize List.range k = l
  induction l with
  | nil => rfl
  | cons a l ih => exact ih

theorem exec_pad {t : SHG} {P : PHG σ} {Φ : Assign} {o : PHOp} (hl : o.Legal t.toHG k Φ) :
    PHG.exec C t.toHG k P o = PHG.exec C (padded t) k P (padOp t o) := by
  cases o with
  | assign u p => rfl
  | move u src dst mw =>
    have hup : ∀ (es : List Nat), (∀ e ∈ es, t.edgeOn e = true) → ∀ c, (updateEdges C t.toHG src dst c es).2 = (updateEdges C (padded t) src dst c es).2 := by
      intro es
      induction es with
      | nil => intro _ c; rfl
      | cons e es ih => intro h c; exact ih (fun e' he' => h e' (by simp [he'])) _
    have hup' : ∀ (es : List Nat) c, (updateEdges C t.toHG src dst c es).2 = (updateEdges C (padded t) src dst c es).2 := by
      intro es
      induction es with
      | nil => intro c; rfl
      | cons e es ih => intro c; exact ih _
    simp only [padOp, PHG.exec, changeNodePart]
    split_ifs with h1 h2 h2
    · have : (padded t).inc u = t.toHG.inc u := rfl
      rw [this, hup']
      rfl
    · exact absurd h1 h2
    · exact absurd h2 h1
    · rfl
  | build Ψ n o eo =>
    have heo := hl.2.2.2
    have hm : ∀ e ∈ eo, t.edgeOn e = true := fun e he => (List.mem_filter.1 (heo.mem_iff.1 he)).2
    simp only [padOp, PHG.exec, build, initializePartition]
    congr 2
    unfold initPinCounts
    rw [List.foldl_append]
    have h1 : ∀ (part : Assign) (l : List Nat), (∀ e ∈ l, t.edgeOn e = false) → ∀ c, l.foldl (initEdge C (padded t) k part) c = c := by
      intro part l
      induction l with
      | nil => intro _ c; rfl
      | cons e l ih =>
        intro h c
        rw [List.foldl_cons, initEdge_none part c (h e (by simp))]
        exact ih (fun e' he' => h e' (by simp [he'])) c
    have h2 : ∀ (part : Assign) (l : List Nat), (∀ e ∈ l, t.edgeOn e = true) → ∀ c, l.foldl (initEdge C t.toHG k part) c = l.foldl (initEdge C (padded t) k part) c := by
      intro part l
      induction l with
      | nil => intro _ c; rfl
      | cons e l ih =>
        intro h c
        rw [List.foldl_cons, List.foldl_cons]
        have : initEdge C t.toHG k part c e = initEdge C (padded t) k part c e := by
          unfold initEdge
          have : (padded t).pins e = t.toHG.pins e := by simp [padded, h e (by simp), SHG.toHG]
          rw [this]
        rw [this]
        exact ih (fun e' he' => h e' (by simp [he'])) _
    rw [h1 _ _ (by simp), h2 _ _ hm]

theorem pad_legal {t : SHG} {Φ : Assign} {o : PHOp} (hl : o.Legal t.toHG k Φ) :
    (padOp t o).Legal (padded t) k Φ ∧ ((padOp t o).spec (padded t) Φ) = (o.spec t.toHG Φ) := by
  cases o with
  | assign u p => exact ⟨hl, rfl⟩
  | move u src dst mw => exact ⟨hl, rfl⟩
  | build Ψ n o eo =>
    refine ⟨⟨hl.1, hl.2.1, hl.2.2.1, ?_⟩, rfl⟩
    have h1 : (eo ++ (List.range t.m).filter (fun e => !t.edgeOn e)).Perm
        ((List.range t.m).filter t.edgeOn ++ (List.range t.m).filter (fun e => !t.edgeOn e)) := hl.2.2.2.append_right _
    exact h1.trans (List.filter_append_perm _ _)

theorem execAll_pad {t : SHG} : ∀ (os : List PHOp) {P : PHG σ} {Φ : Assign}, PHOp.AllLegal t.toHG k Φ os →
    (PHG.execAll C t.toHG k P os).2 = (PHG.execAll C (padded t) k P (os.map (padOp t))).2 ∧
    PHOp.AllLegal (padded t) k Φ (os.map (padOp t)) := by
  intro os
  induction os with
  | nil => intro P Φ _; exact ⟨rfl, trivial⟩
  | cons o os ih =>
    intro P Φ hl
    obtain ⟨h1, h2⟩ := pad_legal hl.1
    obtain ⟨h3, h4⟩ := ih (P := (PHG.exec C t.toHG k P o).2) hl.2
    refine ⟨?_, h1, ?_⟩
    · show (PHG.execAll C t.toHG k (PHG.exec C t.toHG k P o).2 os).2 = _
      rw [h3, exec_pad hl.1]
      rfl
    · rw [h2]; exact h4

/-- nodes that are not enabled are not assigned -/
theorem unassigned {H : HG} : ∀ (os : List PHOp) {Φ : Assign}, PHOp.AllLegal H k Φ os → (∀ v, v ∉ H.nodes → Φ v = none) →
    ∀ v, v ∉ H.nodes → os.foldl (fun Φ o => (o.spec H Φ).2) Φ v = none := by
  intro os
  induction os with
  | nil => intro Φ _ h; exact h
  | cons o os ih =>
    intro Φ hl h
    refine ih hl.2 ?_
    intro v hv
    cases o with
    | build Ψ n o e => simp [PHOp.spec, hv]
    | assign u p =>
      have : v ≠ u := fun hh => hv (hh ▸ hl.1.1)
      simp [PHOp.spec, Assign.put, this, h v hv]
    | move u src dst mw =>
      have : v ≠ u := fun hh => hv (hh ▸ hl.1.1)
      simp only [PHOp.spec]
      split_ifs
      · simp [Assign.put, this, h v hv]
      · exact h v hv

/-! ### Restoring hyperedges -/

theorem cnt_chunks (part : Assign) (b : Nat) : ∀ (chunks : List (List Nat)),
    (chunks.map (fun ch => localCounts part ch b)).sum = chunks.flatten.countP (fun v => part v = some b) := by
  intro chunks
  induction chunks with
  | nil => rfl
  | cons c cs ih => rw [List.map_cons, List.sum_cons, List.flatten_cons, List.countP_append, ih, localCounts_eq]

theorem fillEdge_spec {m mx : Nat} (L : C.Lawful m k mx) {Φ : Assign} {c : σ} {T : Table} {e : Nat} {ps : List Nat} {chunks : List (List Nat)}
    (hch : chunks.flatten.Perm ps) (hR : L.R c T) (hem : e < m) (hlen : ps.length ≤ mx) (h0 : ∀ b, b < k → T e b = 0) :
    ∃ T', L.R (fillEdge C k Φ c e chunks) T' ∧ (∀ b, b < k → T' e b = ps.countP (fun v => Φ v = some b)) ∧
      (∀ e', e' ≠ e → ∀ b, T' e' b = T e' b) := by
  have hcnt : ∀ b, (chunks.map (fun ch => localCounts Φ ch b)).sum = ps.countP (fun v => Φ v = some b) := by
    intro b; rw [cnt_chunks, hch.countP_eq]
  unfold fillEdge
  simp only [hcnt]
  have key : ∀ j, j ≤ k → ∃ T', L.R ((List.range j).foldl (fun c b =>
      if ps.countP (fun v => Φ v = some b) > 0 then C.addBlock (C.setPC c e b (ps.countP (fun v => Φ v = some b))) e b else c) c) T' ∧
      (∀ b, b < j → T' e b = ps.countP (fun v => Φ v = some b)) ∧ (∀ b, j ≤ b → T' e b = T e b) ∧
      (∀ e', e' ≠ e → ∀ b, T' e' b = T e' b) := by
    intro j
    induction j with
    | zero => intro _; exact ⟨T, hR, by simp, fun _ _ => rfl, fun _ _ _ => rfl⟩
    | succ j ih =>
      intro hj
      obtain ⟨T1, hR1, a1, a2, a3⟩ := ih (by omega)
      rw [List.range_succ, List.foldl_append]
      simp only [List.foldl_cons, List.foldl_nil]
      by_cases hpos : ps.countP (fun v => Φ v = some j) > 0
      · rw [if_pos hpos]
        have hle : ps.countP (fun v => Φ v = some j) ≤ ps.length := List.countP_le_length
        have h2 := (L.fill (v := ps.countP (fun v => Φ v = some j)) hR1 hem (by omega : j < k)
          (by rw [a2 j (by omega)]; exact h0 j (by omega)) hpos (by omega)).2
        refine ⟨_, h2, ?_, ?_, ?_⟩
        · intro b hb
          unfold Table.upd
          by_cases hbj : b = j
          · simp [hbj]
          · simp only [hbj, and_false, if_false]; exact a1 b (by omega)
        · intro b hb
          unfold Table.upd
          rw [if_neg (by omega)]; exact a2 b (by omega)
        · intro e' he' b
          unfold Table.upd
          rw [if_neg (by simp [he'])]; exact a3 e' he' b
      · rw [if_neg hpos]
        refine ⟨T1, hR1, ?_, fun b hb => a2 b (by omega), a3⟩
        intro b hb
        by_cases hbj : b = j
        · subst hbj; rw [a2 b (by omega), h0 b (by omega)]; omega
        · exact a1 b (by omega)
  obtain ⟨T', hR', b1, _, b3⟩ := key k (Nat.le_refl k)
  exact ⟨T', hR', b1, b3⟩

/-- one hyperedge becomes enabled and its pin counts are set -/
theorem sim_enable {s t t' : SHG} {m mx : Nat} {L : C.Lawful m k mx} {P : PHG σ} {Φ : Assign} (h : Rel s t) (h' : Rel s t') {e : Nat}
    (hE : t'.edgeOn = upd t.edgeOn e true) (hN : t'.nodeOn = t.nodeOn) (hS : Sim L (padded t) P Φ) {T' : Table} {c : σ}
    (hR : L.R c T') (h1 : ∀ b, b < k → T' e b = (s.pins e).countP (fun v => Φ v = some b))
    (h2 : ∀ e', e' < s.m → e' ≠ e → ∀ b, b < k → T' e' b = (padded t).pinsIn Φ e' b) : Sim L (padded t') { P with con := c } Φ := by
  refine ⟨hS.part, hS.range, ?_, T', hR, ?_⟩
  · intro b hb
    show P.wt b = _
    rw [hS.wt b hb]
    unfold HG.blockWeight
    have : (padded t').nodes = (padded t).nodes := by simp [padded, hN, h.static.n, h'.static.n]
    rw [this]
    simp [padded, h.static.nw, h'.static.nw]
  · intro e' he' b hb
    have he2 : e' < s.m := by rw [← h'.static.m]; exact List.mem_range.1 he'
    by_cases hee : e' = e
    · subst hee
      rw [h1 b hb]
      unfold HG.pinsIn
      simp [padded, hE, upd, h'.static.pins]
    · rw [h2 e' he2 hee b hb]
      unfold HG.pinsIn
      simp [padded, hE, upd, hee, h.static.pins, h'.static.pins]

theorem off_zero {s t : SHG} {m mx : Nat} {L : C.Lawful m k mx} {P : PHG σ} {Φ : Assign} (h : Rel s t) (hS : Sim L (padded t) P Φ) {e : Nat} (he : e < s.m)
    (hoff : t.edgeOn e = false) : ∃ T, L.R P.con T ∧ (∀ b, b < k → T e b = 0) ∧
      ∀ e', e' < s.m → ∀ b, b < k → T e' b = (padded t).pinsIn Φ e' b := by
  obtain ⟨T, hR, hT⟩ := hS.con
  have hmem : ∀ e', e' < s.m → e' ∈ (padded t).edges := fun e' he' => List.mem_range.2 (by rw [h.static.m]; exact he')
  refine ⟨T, hR, ?_, fun e' he' b hb => hT e' (hmem e' he') b hb⟩
  intro b hb
  rw [hT e (hmem e he) b hb]
  simp [HG.pinsIn, padded, hoff]

theorem restoreLarge_sim {s : SHG} (hF : s.Full) {m mx : Nat} {L : C.Lawful m k mx} (hm : s.m ≤ m) (hl : ∀ e, e < s.m → (s.pins e).length ≤ mx)
    {order : Nat → List Nat} (ho : ∀ e, e < s.m → (order e).Perm (s.pins e)) {chunks : Nat → List (List Nat)}
    (hc : ∀ e, e < s.m → (chunks e).flatten.Perm (s.pins e)) {x : SHG × PHG σ} {Φ : Assign} (hR : Rel s x.1) (hS : Sim L (padded x.1) x.2 Φ)
    {e : Nat} (he : e < s.m) (hoff : x.1.edgeOn e = false) :
    Rel s (restoreLarge C k order chunks x e).1 ∧ Sim L (padded (restoreLarge C k order chunks x e).1) (restoreLarge C k order chunks x e).2 Φ ∧
    (restoreLarge C k order chunks x e).1.edgeOn = upd x.1.edgeOn e true ∧ (restoreLarge C k order chunks x e).1.nodeOn = x.1.nodeOn := by
  obtain ⟨r1, r2, r3, _⟩ := hR.restoreEdge hF he hoff (ho e he)
  refine ⟨r1, ?_, r2, r3⟩
  obtain ⟨T, t1, t2, t3⟩ := off_zero hR hS he hoff
  obtain ⟨T', f1, f2, f3⟩ := fillEdge_spec (Φ := Φ) L (hc e he) t1 (by omega) (hl e he) t2
  have hpart : x.2.part = Φ := hS.part
  show Sim L (padded (x.1.restoreEdge e (order e))) { x.2 with con := fillEdge C k x.2.part x.2.con e (chunks e) } Φ
  rw [hpart]
  exact sim_enable hR r1 r2 r3 hS f1 f2 (fun e' he' hne b hb => by rw [f3 e' hne b]; exact t3 e' he' b hb)

theorem restoreSingle_sim {s : SHG} (hF : s.Full) {m mx : Nat} {L : C.Lawful m k mx} (hm : s.m ≤ m) (hl : ∀ e, e < s.m → (s.pins e).length ≤ mx)
    {x : SHG × PHG σ} {Φ : Assign} (hR : Rel s x.1) (hS : Sim L (padded x.1) x.2 Φ)
    {e : Nat} (he : e < s.m) (hoff : x.1.edgeOn e = false) (h1 : (s.pins e).length = 1) (hall : ∀ v ∈ s.pins e, Φ v ≠ none) :
    Rel s (restoreSingle C x e).1 ∧ Sim L (padded (restoreSingle C x e).1) (restoreSingle C x e).2 Φ ∧
    (restoreSingle C x e).1.edgeOn = upd x.1.edgeOn e true ∧ (restoreSingle C x e).1.nodeOn = x.1.nodeOn := by
  have hp : x.1.pins = s.pins := hR.static.pins
  obtain ⟨r1, r2, r3, _⟩ := hR.restoreEdge hF he hoff (List.Perm.refl (s.pins e))
  have hfst : (restoreSingle C x e).1 = x.1.restoreEdge e (s.pins e) := by unfold restoreSingle; rw [hp]
  rw [hfst]
  refine ⟨r1, ?_, r2, r3⟩
  obtain ⟨v, hv⟩ := List.length_eq_one_iff.1 h1
  cases hb : Φ v with
  | none => exact absurd hb (hall v (by rw [hv]; simp))
  | some b =>
    have hsnd : (restoreSingle C x e).2 = { x.2 with con := C.addBlock (C.setPC x.2.con e b 1) e b } := by
      unfold restoreSingle
      rw [hp]
      dsimp only
      rw [r1.static.pins, hv, hS.part]
      simp only [List.headD_cons, hb]
    rw [hsnd]
    have hbk := hS.range v b hb
    obtain ⟨T, t1, t2, t3⟩ := off_zero hR hS he hoff
    have hf := (L.fill (v := 1) t1 (by omega : e < m) hbk (t2 b hbk) (by omega) (by have := hl e he; omega)).2
    refine sim_enable hR r1 r2 r3 hS hf ?_ ?_
    · intro b' hb'
      rw [hv]
      unfold Table.upd
      by_cases hbb : b' = b
      · subst hbb; simp [hb]
      · have : ¬ b = b' := fun h => hbb h.symm
        simp [hbb, hb, this, t2 b' hb']
    · intro e' he' hne b' hb'
      unfold Table.upd
      rw [if_neg (by simp [hne])]; exact t3 e' he' b' hb'

theorem restoreEdges_spec {s : SHG} (hF : s.Full) {m mx : Nat} {L : C.Lawful m k mx} (hm : s.m ≤ m) (hl : ∀ e, e < s.m → (s.pins e).length ≤ mx)
    {order : Nat → List Nat} (ho : ∀ e, e < s.m → (order e).Perm (s.pins e)) {chunks : Nat → List (List Nat)}
    (hc : ∀ e, e < s.m → (chunks e).flatten.Perm (s.pins e)) {large single : List Nat} (hnL : large.Nodup) (hnS : single.Nodup)
    {t : SHG} {P : PHG σ} {Φ : Assign} (hR : Rel s t) (hS : Sim L (padded t) P Φ)
    (h1 : ∀ e ∈ large, e < s.m ∧ t.edgeOn e = false ∧ e ∉ single)
    (h2 : ∀ e ∈ single, e < s.m ∧ t.edgeOn e = false ∧ (s.pins e).length = 1 ∧ ∀ v ∈ s.pins e, Φ v ≠ none) :
    Rel s (restoreEdges C k order chunks large single (t, P)).1 ∧
    Sim L (padded (restoreEdges C k order chunks large single (t, P)).1) (restoreEdges C k order chunks large single (t, P)).2 Φ ∧
    (∀ e, (restoreEdges C k order chunks large single (t, P)).1.edgeOn e = true ↔ (t.edgeOn e = true ∨ e ∈ large ∨ e ∈ single)) ∧
    (restoreEdges C k order chunks large single (t, P)).1.nodeOn = t.nodeOn := by
  have key1 : ∀ (l : List Nat), l.Nodup → ∀ (x : SHG × PHG σ), Rel s x.1 → Sim L (padded x.1) x.2 Φ → (∀ e ∈ l, e < s.m ∧ x.1.edgeOn e = false) →
      Rel s (l.foldl (restoreLarge C k order chunks) x).1 ∧ Sim L (padded (l.foldl (restoreLarge C k order chunks) x).1) (l.foldl (restoreLarge C k order chunks) x).2 Φ ∧
      (∀ e, (l.foldl (restoreLarge C k order chunks) x).1.edgeOn e = true ↔ (x.1.edgeOn e = true ∨ e ∈ l)) ∧
      (l.foldl (restoreLarge C k order chunks) x).1.nodeOn = x.1.nodeOn := by
    intro l
    induction l with
    | nil => intro _ x a b _; exact ⟨a, b, by simp, rfl⟩
    | cons e l ih =>
      intro hn x a b h
      rw [List.nodup_cons] at hn
      obtain ⟨r1, r2, r3, r4⟩ := restoreLarge_sim hF hm hl ho hc a b (h e (by simp)).1 (h e (by simp)).2
      obtain ⟨q1, q2, q3, q4⟩ := ih hn.2 _ r1 r2 (fun e' he' => ⟨(h e' (by simp [he'])).1, by
        rw [r3, upd_other (fun hh : e' = e => hn.1 (hh ▸ he'))]; exact (h e' (by simp [he'])).2⟩)
      refine ⟨q1, q2, fun e' => ?_, q4.trans r4⟩
      rw [List.foldl_cons, q3, r3]
      by_cases hee : e' = e
      · subst hee; rw [upd_same]; simp
      · rw [upd_other hee]; simp [hee]
  have key2 : ∀ (l : List Nat), l.Nodup → ∀ (x : SHG × PHG σ), Rel s x.1 → Sim L (padded x.1) x.2 Φ →
      (∀ e ∈ l, e < s.m ∧ x.1.edgeOn e = false ∧ (s.pins e).length = 1 ∧ ∀ v ∈ s.pins e, Φ v ≠ none) →
      Rel s (l.foldl (restoreSingle C) x).1 ∧ Sim L (padded (l.foldl (restoreSingle C) x).1) (l.foldl (restoreSingle C) x).2 Φ ∧
      (∀ e, (l.foldl (restoreSingle C) x).1.edgeOn e = true ↔ (x.1.edgeOn e = true ∨ e ∈ l)) ∧
      (l.foldl (restoreSingle C) x).1.nodeOn = x.1.nodeOn := by
    intro l
    induction l with
    | nil => intro _ x a b _; exact ⟨a, b, by simp, rfl⟩
    | cons e l ih =>
      intro hn x a b h
      rw [List.nodup_cons] at hn
      obtain ⟨a1, a2, a3, a4⟩ := h e (by simp)
      obtain ⟨r1, r2, r3, r4⟩ := restoreSingle_sim hF hm hl a b a1 a2 a3 a4
      obtain ⟨q1, q2, q3, q4⟩ := ih hn.2 _ r1 r2 (fun e' he' => by
        obtain ⟨b1, b2, b3, b4⟩ := h e' (by simp [he'])
        exact ⟨b1, by rw [r3, upd_other (fun hh : e' = e => hn.1 (hh ▸ he'))]; exact b2, b3, b4⟩)
      refine ⟨q1, q2, fun e' => ?_, q4.trans r4⟩
      rw [List.foldl_cons, q3, r3]
      by_cases hee : e' = e
      · subst hee; rw [upd_same]; simp
      · rw [upd_other hee]; simp [hee]
  unfold restoreEdges
  obtain ⟨a1, a2, a3, a4⟩ := key1 large hnL (t, P) hR hS (fun e he => ⟨(h1 e he).1, (h1 e he).2.1⟩)
  obtain ⟨b1, b2, b3, b4⟩ := key2 single hnS _ a1 a2 (fun e he => by
    obtain ⟨c1, c2, c3, c4⟩ := h2 e he
    refine ⟨c1, ?_, c3, c4⟩
    by_contra hc
    rcases (a3 e).1 (by simpa using hc) with h | h
    · rw [c2] at h; cases h
    · exact (h1 e h).2.2 he)
  refine ⟨b1, b2, fun e => ?_, b4.trans a4⟩
  rw [b3, a3, or_assoc]

end Prep
end Verif
