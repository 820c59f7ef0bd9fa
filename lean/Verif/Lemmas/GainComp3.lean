import Verif.Lemmas.GainComp2
/-! # Lemmas: Steiner tree scores, determinism of the scan -/
namespace Verif

/-- Steiner tree objective: sum of the weighted distances of the block sets of the hyperedges -/
def HG.steiner (H : HG) (dist : Finset Nat → Int) (Φ : Assign) : Int :=
  (H.edges.map (fun e => dist (H.blocksOf Φ e) * H.ew e)).sum

namespace GainComp
open PHG CSt

theorem sum_change {H : HG} (hw : H.WF) {u : Nat} (hu : u ∈ H.nodes) {f g : Nat → Int}
    (h : ∀ e ∈ H.edges, u ∉ H.pins e → f e = g e) :
    (H.edges.map f).sum - (H.edges.map g).sum = ((H.inc u).map (fun e => f e - g e)).sum := by
  have hperm : (H.inc u).Perm (H.edges.filter (fun e => decide (u ∈ H.pins e))) := by
    rw [List.perm_ext_iff_of_nodup (hw.inc_nodup u hu) (hw.edges_nodup.filter _)]
    intro e
    rw [hw.inc_iff u hu e, List.mem_filter]
    simp
  rw [(hperm.map _).sum_eq]
  clear hperm
  revert h
  generalize H.edges = l
  induction l with
  | nil => simp
  | cons a l ih =>
    intro h
    have := ih (fun e he => h e (by simp [he]))
    rw [List.map_cons, List.map_cons, List.sum_cons, List.sum_cons, List.filter_cons]
    by_cases hc : u ∈ H.pins a
    · rw [if_pos (by simpa using hc), List.map_cons, List.sum_cons]; omega
    · rw [if_neg (by simpa using hc)]
      have := h a (by simp) hc
      omega

theorem blocksOf_put {H : HG} {Φ : Assign} {e u src b : Nat} (hn : (H.pins e).Nodup) (hu : u ∈ H.pins e)
    (hs : Φ u = some src) (hne : b ≠ src) :
    H.blocksOf (Φ.put u b) e = insert b (if H.pinsIn Φ e src = 1 then (H.blocksOf Φ e).erase src else H.blocksOf Φ e) := by
  have key : ∀ c, H.pinsIn (Φ.put u b) e c + (if Φ u = some c then 1 else 0) =
      H.pinsIn Φ e c + (if c = b then 1 else 0) := fun c => HG.pinsIn_put_mem hn hu
  simp only [hs, Option.some.injEq] at key
  have hsp : 0 < H.pinsIn Φ e src := by
    unfold HG.pinsIn; rw [List.countP_pos_iff]; exact ⟨u, hu, by simp [hs]⟩
  ext c
  have kc := key c
  rw [← pinsIn_pos_iff, Finset.mem_insert]
  by_cases hcb : c = b
  · subst hcb
    rw [if_pos rfl] at kc
    split at kc <;> simp <;> omega
  · rw [if_neg hcb] at kc
    by_cases hcs : c = src
    · subst hcs
      rw [if_pos rfl] at kc
      split
      · rename_i h1
        simp [hcb]; omega
      · rw [← pinsIn_pos_iff]
        simp [hcb]; omega
    · rw [if_neg (fun h => hcs h.symm)] at kc
      have : (c ∈ if H.pinsIn Φ e src = 1 then (H.blocksOf Φ e).erase src else H.blocksOf Φ e) ↔ 0 < H.pinsIn Φ e c := by
        split
        · rw [Finset.mem_erase, pinsIn_pos_iff]; tauto
        · rw [pinsIn_pos_iff]
      rw [this]
      simp [hcb]; omega

theorem withBlock_back (X : Finset Nat) (b : Nat) : (Steiner.withBlock X b).2 = X := by
  unfold Steiner.withBlock
  by_cases h : b ∈ X
  · simp [h]
  · simp only [h, decide_false, Bool.not_false, if_true]
    exact Finset.erase_insert h

section
variable {σ : Type} {C : ConInfo σ} {H : HG} {mm k mx : Nat}

theorem stFold (dist : Finset Nat → Int) (before w : Int) (X : Finset Nat) : ∀ (adj : List Nat), adj.Nodup →
    ∀ {t : SMap Int} {m : FMap Int}, t.Inv m →
    (adj.foldl (fun (r : SMap Int × Finset Nat) b =>
      ((r.1.modify 0 b (· + (dist (Steiner.withBlock r.2 b).1 - before) * w)), (Steiner.withBlock r.2 b).2)) (t, X)).1.Inv
      (fun b => if b ∈ adj then some ((m b).getD 0 + (dist (insert b X) - before) * w) else m b) := by
  intro adj
  induction adj with
  | nil => intro _ t m h; simpa using h
  | cons c adj ih =>
    intro hn t m h
    rw [List.nodup_cons] at hn
    rw [List.foldl_cons]
    have := ih hn.2 (modify_inv h c ((dist (insert c X) - before) * w))
    have h0 : (Steiner.withBlock X c).1 = insert c X := rfl
    simp only [withBlock_back, h0] at this ⊢
    have he : (fun b => if b ∈ c :: adj then some ((m b).getD 0 + (dist (insert b X) - before) * w) else m b) =
        (fun b => if b ∈ adj then some ((if b = c then some ((m c).getD 0 + (dist (insert c X) - before) * w) else m b).getD 0 +
          (dist (insert b X) - before) * w) else if b = c then some ((m c).getD 0 + (dist (insert c X) - before) * w) else m b) := by
      funext b
      by_cases hb : b = c
      · subst hb; simp [hn.1]
      · simp [hb]
    rw [he]
    exact this

theorem edgeScoresSt_spec (dist : Finset Nat → Int) {con : σ} {Φ : Assign} {e src u : Nat} {adj : List Nat} (hE : EdgeOk C H k con Φ e)
    (hr : ∀ v b, Φ v = some b → b < k) (hadj : adj.Nodup) (hn : (H.pins e).Nodup) (hu : u ∈ H.pins e) (hs : Φ u = some src)
    {s : Scratch} {m : FMap Int} (hI : s.tmp.Inv m) :
    ∃ m', (edgeScoresSt dist C H con src adj s e).tmp.Inv m' ∧ (edgeScoresSt dist C H con src adj s e).iso = s.iso ∧
      (∀ b, b ∉ adj → m' b = m b) ∧ (∀ b ∈ adj, m' b ≠ none) ∧
      ∀ b ∈ adj, b ≠ src → (m' b).getD 0 = (m b).getD 0 +
        (dist (H.blocksOf (Φ.put u b) e) * H.ew e - dist (H.blocksOf Φ e) * H.ew e) := by
  have hX : (C.connSet con e).toFinset = H.blocksOf Φ e := by
    ext b
    rw [List.mem_toFinset, hE.cs b, ← pinsIn_pos_iff]
    constructor
    · exact fun h => h.2
    · intro h
      refine ⟨?_, h⟩
      obtain ⟨v, hv, hv2⟩ := List.countP_pos_iff.1 (show 0 < (H.pins e).countP (fun v => Φ v = some b) from h)
      exact hr v b (by simpa using hv2)
  refine ⟨_, stFold dist (dist (C.connSet con e).toFinset) (H.ew e) (if C.pinCount con e src = 1 then (C.connSet con e).toFinset.erase src
    else (C.connSet con e).toFinset) adj hadj hI, rfl, ?_, ?_, ?_⟩
  · intro b hb; simp [hb]
  · intro b hb; simp [hb]
  · intro b hb hne
    simp only [hb, if_true, Option.getD_some]
    rw [hX, hE.pc src (hr u src hs), blocksOf_put hn hu hs hne]
    ring

theorem precomputeSt_fold (dist : Finset Nat → Int) {con : σ} {Φ : Assign} {src u : Nat} {adj : List Nat}
    (hr : ∀ v b, Φ v = some b → b < k) (hadj : adj.Nodup) (hs : Φ u = some src) : ∀ (es : List Nat),
    (∀ e ∈ es, EdgeOk C H k con Φ e ∧ (H.pins e).Nodup ∧ u ∈ H.pins e) → ∀ {s : Scratch} {m : FMap Int}, s.tmp.Inv m →
    ∃ m', (es.foldl (edgeScoresSt dist C H con src adj) s).tmp.Inv m' ∧ (es.foldl (edgeScoresSt dist C H con src adj) s).iso = s.iso ∧
      (∀ b, b ∉ adj → m' b = m b) ∧ (es ≠ [] → ∀ b ∈ adj, m' b ≠ none) ∧ (es = [] → m' = m) ∧
      ∀ b ∈ adj, b ≠ src → (m' b).getD 0 = (m b).getD 0 + (es.map (fun e =>
        dist (H.blocksOf (Φ.put u b) e) * H.ew e - dist (H.blocksOf Φ e) * H.ew e)).sum := by
  intro es
  induction es with
  | nil => intro _ s m h; exact ⟨m, h, rfl, fun _ _ => rfl, by simp, fun _ => rfl, by simp⟩
  | cons e es ih =>
    intro hes s m h
    obtain ⟨h1, h2, h3⟩ := hes e (by simp)
    obtain ⟨m1, i1, i2, i3, i4, i5⟩ := edgeScoresSt_spec (s := s) dist h1 hr hadj h2 h3 hs h
    obtain ⟨m2, j1, j2, j3, j4, j5, j6⟩ := ih (fun e he => hes e (by simp [he])) i1
    refine ⟨m2, j1, by rw [List.foldl_cons, j2, i2], fun b hb => by rw [j3 b hb, i3 b hb], fun _ b hb => ?_, by simp, fun b hb hne => ?_⟩
    · by_cases he : es = []
      · rw [j5 he]; exact i4 b hb
      · exact j4 he b hb
    · rw [j6 b hb hne, i5 b hb hne, List.map_cons, List.sum_cons]; ring

/-- the scores of a node for the Steiner tree metric -/
theorem precomputeSt_spec (dist : Finset Nat → Int) {L : C.Lawful mm k mx} (hw : H.WF) (hf : H.Fits mm mx) {P : PHG σ} {Φ : Assign}
    (hS : Sim L H P Φ) {u src : Nat} (hu : u ∈ H.nodes) (hp : Φ u = some src) (all : Bool)
    {s : Scratch} (ht : s.tmp.size = 0) (hi : s.iso = 0) :
    ∃ m, (precomputeSt dist C H k P.con src u all s).tmp.Inv m ∧ (precomputeSt dist C H k P.con src u all s).iso = 0 ∧
      (∀ b x, m b = some x → b < k) ∧
      (∀ b x, m b = some x → b ≠ src → x = H.steiner dist (Φ.put u b) - H.steiner dist Φ) ∧
      (∀ b, b < k → m b = none → H.inc u = [] ∨ (all = false ∧ ∀ e ∈ H.edges, u ∈ H.pins e → b ∉ H.blocksOf Φ e)) ∧
      (H.inc u = [] → ∀ b, H.steiner dist (Φ.put u b) = H.steiner dist Φ) := by
  have hadj : (adjacentBlocks C H k P.con u all).Nodup := List.nodup_range.filter _
  obtain ⟨m, h1, h2, h3, h4, h5, h6⟩ := precomputeSt_fold (C := C) (H := H) dist (con := P.con) (Φ := Φ) (src := src) (u := u) hS.range hadj hp (H.inc u)
    (fun e he => by
      obtain ⟨heE, hpin⟩ := (hw.inc_iff u hu e).1 he
      exact ⟨edgeOk hf hS heE, hw.pins_nodup e heE, hpin⟩) (inv_empty ht)
  have hch : ∀ b, H.steiner dist (Φ.put u b) - H.steiner dist Φ = ((H.inc u).map (fun e =>
        dist (H.blocksOf (Φ.put u b) e) * H.ew e - dist (H.blocksOf Φ e) * H.ew e)).sum := by
    intro b
    unfold HG.steiner
    refine sum_change hw hu (fun e he hnp => ?_)
    rw [HG.blocksOf_congr (Ψ := Φ)]
    intro v hv
    exact Assign.put_other _ (by rintro rfl; exact hnp hv)
  have hin : ∀ b x, m b = some x → b ∈ adjacentBlocks C H k P.con u all := by
    intro b x hb
    by_contra hc
    rw [h3 b hc] at hb; cases hb
  refine ⟨m, h1, by unfold precomputeSt; rw [h2, hi], ?_, ?_, ?_, ?_⟩
  · intro b x hb
    have := hin b x hb
    unfold adjacentBlocks at this
    exact List.mem_range.1 (List.mem_filter.1 this).1
  · intro b x hb hne
    have := h6 b (hin b x hb) hne
    rw [hb, Option.getD_some, Option.getD_none] at this
    rw [hch b]; omega
  · intro b hb hm
    by_cases he : H.inc u = []
    · exact Or.inl he
    · right
      have hna : b ∉ adjacentBlocks C H k P.con u all := fun h => h4 he b h hm
      unfold adjacentBlocks at hna
      rw [List.mem_filter] at hna
      simp only [List.mem_range, hb, true_and, Bool.or_eq_true, not_or, Bool.not_eq_true, List.any_eq_false, decide_eq_true_eq] at hna
      refine ⟨hna.1, fun e heE hpin hbl => ?_⟩
      have hei := (hw.inc_iff u hu e).2 ⟨heE, hpin⟩
      exact hna.2 e hei (((edgeOk hf hS heE).cs b).2 ⟨hb, pinsIn_pos_iff.2 hbl⟩)
  · intro he b
    have := hch b
    rw [he] at this
    simp at this
    omega

/-! ### Determinism -/

theorem test_det {a : Args} (hr : a.noRandom = true) {ρ ρ' : Rand} {feas feas' : Nat → Bool} {dst : Nat} (hf : feas dst = feas' dst)
    (score : Int) (noTie : Bool) (m : Best) : testAndApply a ρ feas dst score noTie m = testAndApply a ρ' feas' dst score noTie m := by
  unfold testAndApply
  simp only [hr, hf, Bool.not_true, Bool.and_false, Bool.false_and]

theorem scanScores_det {a : Args} (hr : a.noRandom = true) {ρ ρ' : Rand} {feas feas' : Nat → Bool} {gain : Int → Int → Int} {iso : Int}
    {src : Nat} : ∀ (l : List (Nat × Int)), (∀ x ∈ l, feas x.1 = feas' x.1) → ∀ m,
    scanScores a ρ feas gain iso src l m = scanScores a ρ' feas' gain iso src l m := by
  intro l
  induction l with
  | nil => intro _ m; rfl
  | cons x l ih =>
    intro h m
    have := ih (fun y hy => h y (by simp [hy]))
    unfold scanScores at this ⊢
    rw [List.foldl_cons, List.foldl_cons, this, test_det hr (h x (by simp))]

theorem scanOthers_det {a : Args} (hr : a.noRandom = true) {ρ ρ' : Rand} {feas feas' : Nat → Bool} {t t' : SMap Int} (ht : Same t t') {iso : Int}
    {src : Nat} : ∀ (l : List Nat), (∀ x ∈ l, feas x = feas' x) → ∀ r,
    scanOthers a ρ feas t iso src l r = scanOthers a ρ' feas' t' iso src l r := by
  intro l
  induction l with
  | nil => intro _ m; rfl
  | cons x l ih =>
    intro h r
    rw [scanOthers_cons, scanOthers_cons, ih (fun y hy => h y (by simp [hy])), ht.contains x, test_det hr (h x (by simp))]

/-- without random tie breaking at most one non-adjacent block is collected -/
theorem scanOthers_le_one {a : Args} (hr : a.noRandom = true) {ρ : Rand} {feas : Nat → Bool} {t : SMap Int} {iso : Int}
    {src : Nat} : ∀ (l : List Nat) (r : List Nat × Best), (r.1 = [] ∨ (r.1.length = 1 ∧ r.2.gain = iso)) →
    (scanOthers a ρ feas t iso src l r).1.length ≤ 1 := by
  intro l
  induction l with
  | nil =>
    intro r h
    show r.1.length ≤ 1
    rcases h with h | ⟨h, _⟩
    · rw [h]; simp
    · omega
  | cons c l ih =>
    intro r h
    rw [scanOthers_cons]
    apply ih
    by_cases hc : src ≠ c ∧ t.contains c = false
    · rw [if_pos hc]
      rcases test_spec (a := a) (ρ := ρ) (feas := feas) c iso true r.2 with ⟨t1, _, t3, _, t5, t6⟩ | ⟨t1, _, t3, _, _⟩
      · have hlt := t6 hr
        rcases h with h | ⟨_, h⟩
        · right
          simp only [t1, if_true, h]
          exact ⟨rfl, t3⟩
        · omega
      · simp only [t1, t3]
        exact h
    · rw [if_neg hc]; exact h

theorem maxMove_det {a : Args} (hr : a.noRandom = true) {ρ ρ' : Rand} (hp : ρ.pick 1 = ρ'.pick 1) {feas feas' : Nat → Bool}
    (hf : ∀ b, b < a.k → feas b = feas' b) {gain : Int → Int → Int} {s s' : Scratch} (hs : Same s.tmp s'.tmp) (hi : s.iso = s'.iso)
    (hk : ∀ x ∈ s.tmp.toList, x.1 < a.k) (src : Nat) :
    maxMove a ρ feas gain s src = maxMove a ρ' feas' gain s' src := by
  unfold maxMove
  rw [hs.toList, ← hi, scanScores_det hr (ρ' := ρ') (feas' := feas') s.tmp.toList (fun x hx => hf _ (hk x hx))]
  simp only
  set M := scanScores a ρ' feas' gain s.iso src s.tmp.toList ⟨src, if a.rebalance = true then 2147483647 else 0, 0⟩ with hM
  by_cases h : a.nonAdj = true ∧ M.blk = src
  · rw [if_pos h, if_pos h]
    have hle := scanOthers_le_one hr (ρ := ρ) (feas := feas) (t := s.tmp) (iso := s.iso) (src := src) (List.range a.k) ([], M) (Or.inl rfl)
    rw [scanOthers_det hr hs (ρ' := ρ') (feas' := feas') (List.range a.k) (fun x hx => hf x (List.mem_range.1 hx))] at hle ⊢
    set R := scanOthers a ρ' feas' s'.tmp s.iso src (List.range a.k) ([], M) with hR
    by_cases hl : R.1.length > 0
    · rw [if_pos hl, if_pos hl]
      have h1 : R.1.length = 1 := by omega
      rw [h1, hp]
    · rw [if_neg hl, if_neg hl]
  · rw [if_neg h, if_neg h]

theorem edgeScores_det {σ' : Type} {C' : ConInfo σ'} {Φ : Assign} (o : Metrics.Obj) {con : σ} {con' : σ'} {e src : Nat}
    (hE : EdgeOk C H k con Φ e) (hE' : EdgeOk C' H k con' Φ e) (hc : C'.connSet con' e = C.connSet con e) (hk : src < k)
    {s s' : Scratch} (hs : Same s.tmp s'.tmp) (hi : s.iso = s'.iso) :
    Same (edgeScores o C H con src s e).tmp (edgeScores o C' H con' src s' e).tmp ∧
      (edgeScores o C H con src s e).iso = (edgeScores o C' H con' src s' e).iso := by
  have hlt : ∀ b ∈ C.connSet con e, b < k := fun b hb => ((hE.cs b).1 hb).1
  cases o with
  | km1 =>
    simp only [edgeScores, hE.pc src hk, hE'.pc src hk, hc, hi]
    exact ⟨Same.addScores _ (fun _ _ => rfl) hs, trivial⟩
  | cut =>
    simp only [edgeScores, hE.pc src hk, hE'.pc src hk, hE.conn, hE'.conn, hc, hi]
    split
    · exact ⟨hs, rfl⟩
    · split
      · exact ⟨Same.addScores _ (fun _ _ => rfl) hs, rfl⟩
      · exact ⟨hs, hi⟩
  | soed =>
    simp only [edgeScores, hE.pc src hk, hE'.pc src hk, hc, hi]
    split
    · refine ⟨Same.addScores _ (fun b hb => ?_) hs, rfl⟩
      rw [hE.pc b (hlt b hb), hE'.pc b (hlt b hb)]
    · exact ⟨hs, hi⟩

theorem precompute_det {σ' : Type} {C' : ConInfo σ'} {Φ : Assign} (o : Metrics.Obj) {con : σ} {con' : σ'} {src : Nat} (hk : src < k) :
    ∀ (es : List Nat), (∀ e ∈ es, EdgeOk C H k con Φ e ∧ EdgeOk C' H k con' Φ e ∧ C'.connSet con' e = C.connSet con e) →
    ∀ {s s' : Scratch}, Same s.tmp s'.tmp → s.iso = s'.iso →
    Same (es.foldl (edgeScores o C H con src) s).tmp (es.foldl (edgeScores o C' H con' src) s').tmp ∧
      (es.foldl (edgeScores o C H con src) s).iso = (es.foldl (edgeScores o C' H con' src) s').iso := by
  intro es
  induction es with
  | nil => intro _ s s' h1 h2; exact ⟨h1, h2⟩
  | cons e es ih =>
    intro hes s s' h1 h2
    obtain ⟨a1, a2, a3⟩ := hes e (by simp)
    obtain ⟨b1, b2⟩ := edgeScores_det (H := H) o a1 a2 a3 hk h1 h2
    exact ih (fun e he => hes e (by simp [he])) b1 b2

end
end GainComp
end Verif
