import Verif.Lemmas.NLP1
/-!
# Effect of the callback for a restored pin
-/
namespace Verif
namespace Dyn

variable {k : Nat} {part : Assign} {pins0 cs : List Nat} {conn : Nat} {pc pc0 : Nat → Nat} {v : Nat}

theorem restore_filter (h : NetCnt k part (pins0 ++ [v]) cs conn pc) : (pins0 ++ [v]).filter (fun x => decide (x ≠ v)) = pins0 := by
  have hv : v ∉ pins0 := by
    have := h.nodup
    rw [List.nodup_append] at this
    intro hm
    exact this.2.2 v hm v (by simp) rfl
  rw [List.filter_append, List.filter_eq_self.2]
  · simp
  · intro x hx
    have : x ≠ v := by rintro rfl; exact hv hx
    simp [this]

theorem restore_other (h : NetCnt k part (pins0 ++ [v]) cs conn pc) {blk : Nat} (hb : blk < k) (hv : part v = some blk) (h2 : pc blk = 2) :
    ∃ y, y ∈ pins0 ∧ part y = some blk ∧ (pins0 ++ [v]).find? (fun x => decide (x ≠ v ∧ part x = some blk)) = some y ∧
      ∀ x ∈ pins0, part x = some blk → x = y := by
  have hnd := h.nodup
  rw [List.nodup_append] at hnd
  have hcnt := h.cnt blk hb
  rw [h2, List.countP_append, List.countP_cons, List.countP_nil, hv] at hcnt
  simp only [decide_true, if_true] at hcnt
  have h1 : (pins0.filter (fun x => decide (part x = some blk))).length = 1 := by
    rw [← List.countP_eq_length_filter]; omega
  obtain ⟨y, hy⟩ := List.length_eq_one_iff.1 h1
  have hm : ∀ x, x ∈ pins0 ∧ part x = some blk ↔ x = y := by
    intro x
    have : x ∈ pins0.filter (fun x => decide (part x = some blk)) ↔ x = y := by rw [hy]; simp
    rw [← this, List.mem_filter]; simp
  have hyy := (hm y).2 rfl
  refine ⟨y, hyy.1, hyy.2, ?_, fun x hx hp => (hm x).1 ⟨hx, hp⟩⟩
  have hyv : y ≠ v := by rintro rfl; exact hnd.2.2 y hyy.1 y (by simp) rfl
  cases hf : (pins0 ++ [v]).find? (fun x => decide (x ≠ v ∧ part x = some blk)) with
  | none =>
    rw [List.find?_eq_none] at hf
    exact absurd (by simp [hyv, hyy.2]) (hf y (by simp [hyy.1]))
  | some x =>
    have hx := List.find?_some hf
    have hxm := List.mem_of_find?_eq_some hf
    simp only [decide_eq_true_eq] at hx
    rw [List.mem_append] at hxm
    rcases hxm with hxm | hxm
    · rw [(hm x).1 ⟨hxm, hx.2⟩]
    · simp at hxm; exact absurd hxm hx.1

set_option maxHeartbeats 4000000 in
theorem restore_ben (o : Metrics.Obj) (h : NetCnt k part (pins0 ++ [v]) cs conn pc) {blk : Nat} (hb : blk < k) (hv : part v = some blk)
    (hpc : ∀ b, b < k → pc b = pc0 b + if b = blk then 1 else 0) (h2 : 2 ≤ pc blk) (w : Int) {x b : Nat} (hbk : b < k) (Φ : Assign) :
    opsSum Φ (benIdx k x b) (restoreOps o k part (pins0 ++ [v]) cs conn pc blk v (pc blk) w) =
      netBen o w (pins0 ++ [v]) pc x b - netBen o w pins0 pc0 x b := by
  have hfil := restore_filter h
  have hnd0 : pins0.Nodup := (List.nodup_append.1 h.nodup).1
  have hv0 : v ∉ pins0 := by
    have := h.nodup
    rw [List.nodup_append] at this
    intro hm
    exact this.2.2 v hm v (by simp) rfl
  have hcsb : b ∈ cs ↔ 0 < pc b := by rw [h.csm]; simp [hbk]
  have hcsk : ∀ c ∈ cs, c < k := fun c hc => ((h.csm c).1 hc).1
  have hlen : (pins0 ++ [v]).length = pins0.length + 1 := by simp
  have hpcb := hpc b hbk
  have hpcblk := hpc blk hb
  rw [if_pos rfl] at hpcblk
  have hle : pc blk ≤ pins0.length + 1 := by rw [h.cnt blk hb, ← hlen]; exact List.countP_le_length
  have hpen1 : ∀ y (a : Int), opsSum Φ (benIdx k x b) [.add (penIdx k y) a] = 0 := by
    intro y a; rw [opsSum_cons, opsSum_nil, contrib_pb _ hbk]; rfl
  have hben1 : ∀ c, c < k → ∀ y (a : Int), opsSum Φ (benIdx k x b) [.add (benIdx k y c) a] = if x = y ∧ c = b then a else 0 := by
    intro c hc y a; rw [opsSum_cons, opsSum_nil, contrib_bb _ hc hbk, add_zero]
    by_cases hy : x = y
    · subst hy; simp
    · rw [if_neg (fun h => hy h.1.symm), if_neg (fun h => hy h.1)]
  have hmap : ∀ c, c < k → ∀ (a : Int), opsSum Φ (benIdx k x b) (pins0.map (fun y => .add (benIdx k y c) a)) = if x ∈ pins0 ∧ c = b then a else 0 := by
    intro c hc a
    rw [opsSum_map Φ _ x pins0 hnd0 _ (fun u hu => by rw [contrib_bb _ hc hbk, if_neg (fun h => hu h.1)]), contrib_bb _ hc hbk]
    by_cases hx : x ∈ pins0 <;> by_cases hcb : c = b <;> simp [hx, hcb]
  have hcsmap : opsSum Φ (benIdx k x b) (cs.map (fun c => .add (benIdx k v c) w)) = if x = v ∧ 0 < pc b then w else 0 := by
    rw [opsSum_map Φ _ b cs h.csn (fun c => if c ∈ cs then .add (benIdx k v c) w else .add (penIdx k v) w) ?_ |> fun e => (congrArg _ (List.map_congr_left (fun c hc => by rw [if_pos hc]))).trans e]
    · by_cases hbc : b ∈ cs
      · rw [if_pos hbc, if_pos hbc, contrib_bb _ hbk hbk]
        have := hcsb.1 hbc
        by_cases hxv : x = v
        · subst hxv; simp [this]
        · rw [if_neg (fun h => hxv h.1.symm), if_neg (fun h => hxv h.1)]
      · rw [if_neg hbc, if_neg (fun h => hbc (hcsb.2 h.2))]
    · intro c hc
      by_cases hcs : c ∈ cs
      · rw [if_pos hcs, contrib_bb _ (hcsk c hcs) hbk, if_neg (fun h => hc h.2)]
      · rw [if_neg hcs, contrib_pb _ hbk]
  have hflat : ∀ f : Nat → List CacheOp, (∀ c ∈ cs, c ≠ b → opsSum Φ (benIdx k x b) (f c) = 0) →
      opsSum Φ (benIdx k x b) (cs.flatMap f) = if b ∈ cs then opsSum Φ (benIdx k x b) (f b) else 0 := by
    intro f hf
    have := opsSum_flatMap Φ (benIdx k x b) b cs h.csn (fun c => if c ∈ cs then f c else []) (by
      intro c hc
      by_cases hcs : c ∈ cs
      · simp only [hcs, if_true]; exact hf c hcs hc
      · simp only [hcs, if_false]; rfl)
    rw [show cs.flatMap f = cs.flatMap (fun c => if c ∈ cs then f c else []) from List.flatMap_congr (fun c hc => by rw [if_pos hc]), this]
    by_cases hbc : b ∈ cs
    · simp only [hbc, if_true]
    · rw [if_neg hbc, if_neg hbc]
  have hmem : x ∈ pins0 ++ [v] ↔ x ∈ pins0 ∨ x = v := by simp
  have hxv0 : x = v → x ∉ pins0 := by rintro rfl; exact hv0
  have h3 := h.cases3 hb (by omega)
  rw [hlen] at h3
  have hne : ∀ c, c < k → c ≠ blk → pc0 c = pc c := by
    intro c hc hcb
    have := hpc c hc
    rw [if_neg hcb] at this; omega
  have hcase : (b = blk ∧ pc b = pc blk ∧ pc0 b + 1 = pc blk) ∨ (b ≠ blk ∧ pc0 b = pc b) := by
    by_cases hbb : b = blk
    · subst hbb; left; exact ⟨rfl, rfl, by omega⟩
    · right; exact ⟨hbb, hne b hbk hbb⟩
  have hx3 : (x = v ∧ x ∉ pins0) ∨ (x ≠ v ∧ x ∈ pins0) ∨ (x ≠ v ∧ x ∉ pins0) := by
    by_cases hxv : x = v
    · exact Or.inl ⟨hxv, hxv0 hxv⟩
    · by_cases hx : x ∈ pins0
      · exact Or.inr (Or.inl ⟨hxv, hx⟩)
      · exact Or.inr (Or.inr ⟨hxv, hx⟩)
  unfold netBen
  rw [hlen]
  cases o with
  | km1 =>
    show opsSum Φ _ (km1Restore k part (pins0 ++ [v]) cs blk v (pc blk) w) = _
    unfold km1Restore
    rw [opsSum_append, opsSum_append, hpen1, hcsmap, opsSum_ite, opsSum_nil]
    have hz : (if pc blk = 2 then opsSum Φ (benIdx k x b) (km1Restore.match_1 (fun _ => List CacheOp) ((pins0 ++ [v]).find? (fun x => decide (x ≠ v ∧ part x = some blk))) (fun x => [.add (penIdx k x) w]) (fun _ => [])) else 0) = 0 := by
      by_cases ha : pc blk = 2
      · obtain ⟨y, hy, _, hf, _⟩ := restore_other h hb hv ha
        rw [if_pos ha, hf]; exact hpen1 _ _
      · rw [if_neg ha]
    rw [hz]
    simp only [benMult, mul_ite, mul_one, mul_zero, hmem]
    rcases hx3 with ⟨q1, q2⟩ | ⟨q1, q2⟩ | ⟨q1, q2⟩ <;> clear hfil hcsk hpen1 hben1 hmap hcsmap hflat hpc hne <;> grind
  | cut =>
    show opsSum Φ _ (cutRestore k (pins0 ++ [v]) cs conn pc blk v (pc blk) w) = _
    unfold cutRestore
    rw [hlen, hfil, opsSum_ite, opsSum_append, opsSum_ite, opsSum_nil, hflat _ (fun c hc hcb => by rw [opsSum_ite, hben1 c (hcsk c hc), opsSum_nil, if_neg (c := x = v ∧ c = b) (fun h => hcb h.2), ite_self]),
      opsSum_ite, opsSum_ite, opsSum_nil, hben1 b hbk, opsSum_cons, contrib_pb _ hbk, opsSum_ite, opsSum_nil,
      opsSum_map_zero _ _ _ _ (fun u _ => contrib_pb _ hbk), ite_self, zero_add, ite_self]
    simp only [benMult, mul_ite, mul_one, mul_zero, hmem, hcsb]
    rcases h3 with ⟨c2, b', hb', hbb', hf, hs, hp', hz⟩ | ⟨c1, hs, hz⟩ | ⟨c2, c1, hs, hz⟩
    · rw [hf, if_pos c2]
      simp only
      rw [hmap b' hb']
      have hbz : b = b' ∨ b = blk ∨ (b ≠ b' ∧ b ≠ blk ∧ pc b = 0) := by
        by_cases e1 : b = b'
        · exact Or.inl e1
        · by_cases e2 : b = blk
          · exact Or.inr (Or.inl e2)
          · exact Or.inr (Or.inr ⟨e1, e2, hz b hbk e2 e1⟩)
      rcases hbz with rfl | rfl | ⟨e1, e2, e3⟩ <;> rcases hx3 with ⟨q1, q2⟩ | ⟨q1, q2⟩ | ⟨q1, q2⟩ <;> clear hfil hcsk hpen1 hben1 hmap hcsmap hflat hpc hne hz <;> grind
    · have hbz : b = blk ∨ (b ≠ blk ∧ pc b = 0) := by
        by_cases e2 : b = blk
        · exact Or.inl e2
        · exact Or.inr ⟨e2, hz b hbk e2⟩
      rw [if_neg (by omega)]
      rcases hbz with rfl | ⟨e2, e3⟩ <;> rcases hx3 with ⟨q1, q2⟩ | ⟨q1, q2⟩ | ⟨q1, q2⟩ <;> clear hfil hcsk hpen1 hben1 hmap hcsmap hflat hpc hne hz <;> grind
    · rw [if_neg c2]
      have hbz : b = blk ∨ (b ≠ blk ∧ pc b + pc blk + 1 ≤ pins0.length + 1) := by
        by_cases e2 : b = blk
        · exact Or.inl e2
        · exact Or.inr ⟨e2, hz b hbk e2⟩
      rcases hbz with rfl | ⟨e2, e3⟩ <;> rcases hx3 with ⟨q1, q2⟩ | ⟨q1, q2⟩ | ⟨q1, q2⟩ <;> clear hfil hcsk hpen1 hben1 hmap hcsmap hflat hpc hne hz <;> grind
  | soed =>
    show opsSum Φ _ (soedRestore k part (pins0 ++ [v]) cs conn pc blk v (pc blk) w) = _
    unfold soedRestore
    simp only
    rw [hlen, hfil, opsSum_append, opsSum_append, opsSum_append, opsSum_append, hpen1,
      hflat _ (fun c hc hcb => by rw [opsSum_cons, contrib_bb _ (hcsk c hc) hbk, opsSum_ite, hben1 c (hcsk c hc), opsSum_nil, if_neg (c := x = v ∧ c = b) (fun h => hcb h.2), ite_self, if_neg (fun h => hcb h.2)]; rfl)]
    have hvx : (v = x ∧ b = b) = (x = v) := by rw [eq_iff_iff]; constructor <;> (intro h; first | exact h.1.symm | exact ⟨h.symm, rfl⟩)
    by_cases ha : pc blk = 2
    · obtain ⟨y, hy, hpy, hfy, huy⟩ := restore_other h hb hv ha
      rw [if_pos ha, hfy]
      simp only [ha, true_and, opsSum_cons, opsSum_ite, opsSum_nil, contrib_pb _ hbk, contrib_bb _ hb hbk, contrib_bb _ hbk hbk, hvx, add_zero, zero_add, ite_self]
      rcases h3 with ⟨c2, b', hb', hbb', hf, hs, hp', hz⟩ | ⟨c1, hs, hz⟩ | ⟨c2, c1, hs, hz⟩
      · rw [hf, if_pos c2]
        simp only
        rw [hmap b' hb']
        have hbz : b = b' ∨ b = blk ∨ (b ≠ b' ∧ b ≠ blk ∧ pc b = 0) := by
          by_cases e1 : b = b'
          · exact Or.inl e1
          · by_cases e2 : b = blk
            · exact Or.inr (Or.inl e2)
            · exact Or.inr (Or.inr ⟨e1, e2, hz b hbk e2 e1⟩)
        simp only [benMult, mul_ite, mul_add, mul_one, mul_zero, hmem, hcsb]
        rcases hbz with rfl | rfl | ⟨e1, e2, e3⟩ <;> rcases hx3 with ⟨q1, q2⟩ | ⟨q1, q2⟩ | ⟨q1, q2⟩ <;> clear hfil hcsk hpen1 hben1 hmap hcsmap hflat hpc hne hz <;> grind
      · have hbz : b = blk ∨ (b ≠ blk ∧ pc b = 0) := by
          by_cases e2 : b = blk
          · exact Or.inl e2
          · exact Or.inr ⟨e2, hz b hbk e2⟩
        have hl1 : pins0.length = 1 := by omega
        have hy1 : ∀ z, z ∈ pins0 ↔ z = y := by
          obtain ⟨z, hz⟩ := List.length_eq_one_iff.1 hl1
          rw [hz] at hy ⊢
          intro z'
          simp at hy ⊢; rw [hy]
        rw [if_neg (c := conn = 2) (by omega)]
        simp only [benMult, mul_ite, mul_add, mul_one, mul_zero, hmem, hcsb, hy1] at hx3 ⊢
        clear hfil hcsk hpen1 hben1 hmap hcsmap hflat hpc hne hz
        rcases hbz with rfl | ⟨e2, e3⟩ <;> rcases hx3 with ⟨q1, q2⟩ | ⟨q1, q2⟩ | ⟨q1, q2⟩ <;> grind
      · rw [if_neg c2]
        have hbz : b = blk ∨ (b ≠ blk ∧ pc b + pc blk + 1 ≤ pins0.length + 1) := by
          by_cases e2 : b = blk
          · exact Or.inl e2
          · exact Or.inr ⟨e2, hz b hbk e2⟩
        simp only [benMult, mul_ite, mul_add, mul_one, mul_zero, hmem, hcsb]
        rcases hbz with rfl | ⟨e2, e3⟩ <;> rcases hx3 with ⟨q1, q2⟩ | ⟨q1, q2⟩ | ⟨q1, q2⟩ <;> clear hfil hcsk hpen1 hben1 hmap hcsmap hflat hpc hne hz <;> grind
    · rw [if_neg ha]
      simp only [ha, false_and, opsSum_cons, opsSum_ite, opsSum_nil, contrib_pb _ hbk, contrib_bb _ hbk hbk, hvx, add_zero, zero_add, ite_self, if_false]
      have hbz : b = blk ∨ (b ≠ blk ∧ pc b + pc blk ≤ pins0.length + 1) := by
        by_cases e2 : b = blk
        · exact Or.inl e2
        · refine Or.inr ⟨e2, ?_⟩
          rcases h3 with ⟨c2, b', hb', hbb', hf, hs, hp', hz⟩ | ⟨c1, hs, hz⟩ | ⟨c2, c1, hs, hz⟩
          · by_cases e1 : b = b'
            · subst e1; omega
            · have := hz b hbk e2 e1; omega
          · have := hz b hbk e2; omega
          · have := hz b hbk e2; omega
      simp only [benMult, mul_ite, mul_add, mul_one, mul_zero, hmem, hcsb]
      rcases hbz with rfl | ⟨e2, e3⟩ <;> rcases hx3 with ⟨q1, q2⟩ | ⟨q1, q2⟩ | ⟨q1, q2⟩ <;> clear hfil hcsk hpen1 hben1 hmap hcsmap hflat hpc hne <;> grind

set_option maxHeartbeats 4000000 in
theorem restore_pen (o : Metrics.Obj) (h : NetCnt k part (pins0 ++ [v]) cs conn pc) {blk : Nat} (hb : blk < k) (hv : part v = some blk)
    (hpc : ∀ b, b < k → pc b = pc0 b + if b = blk then 1 else 0) (h2 : 2 ≤ pc blk) (w : Int) {x : Nat} (Φ : Assign) :
    opsSum Φ (penIdx k x) (restoreOps o k part (pins0 ++ [v]) cs conn pc blk v (pc blk) w) =
      netPen o w part (pins0 ++ [v]) pc x - netPen o w part pins0 pc0 x := by
  have hfil := restore_filter h
  have hnd0 : pins0.Nodup := (List.nodup_append.1 h.nodup).1
  have hv0 : v ∉ pins0 := by
    have := h.nodup
    rw [List.nodup_append] at this
    intro hm
    exact this.2.2 v hm v (by simp) rfl
  have hcsk : ∀ c ∈ cs, c < k := fun c hc => ((h.csm c).1 hc).1
  have hlen : (pins0 ++ [v]).length = pins0.length + 1 := by simp
  have hpcblk := hpc blk hb
  rw [if_pos rfl] at hpcblk
  have hle : pc blk ≤ pins0.length + 1 := by rw [h.cnt blk hb, ← hlen]; exact List.countP_le_length
  have hpen1 : ∀ y (a : Int), opsSum Φ (penIdx k x) [.add (penIdx k y) a] = if x = y then a else 0 := by
    intro y a; rw [opsSum_cons, opsSum_nil, contrib_pp, add_zero]
    by_cases hy : x = y
    · subst hy; simp
    · rw [if_neg (fun h => hy h.symm), if_neg hy]
  have hmapp : ∀ (a : Int), opsSum Φ (penIdx k x) (pins0.map (fun y => .add (penIdx k y) a)) = if x ∈ pins0 then a else 0 := by
    intro a
    rw [opsSum_map Φ _ x pins0 hnd0 _ (fun u hu => by rw [contrib_pp, if_neg hu]), contrib_pp, if_pos rfl]
  have hmapb : ∀ c, c < k → ∀ (a : Int), opsSum Φ (penIdx k x) (pins0.map (fun y => .add (benIdx k y c) a)) = 0 := by
    intro c hc a
    exact opsSum_map_zero _ _ _ _ (fun u _ => contrib_bp _ hc)
  have hcsmap : opsSum Φ (penIdx k x) (cs.map (fun c => .add (benIdx k v c) w)) = 0 :=
    opsSum_map_zero _ _ _ _ (fun c hc => contrib_bp _ (hcsk c hc))
  have hmem : x ∈ pins0 ++ [v] ↔ x ∈ pins0 ∨ x = v := by simp
  have h3 := h.cases3 hb (by omega)
  rw [hlen] at h3
  -- the blocks of `x`
  have hx4 : (x = v ∧ x ∉ pins0 ∧ part x = some blk) ∨ (x ≠ v ∧ x ∉ pins0) ∨ (x ≠ v ∧ x ∈ pins0 ∧ part x = some blk) ∨
      (x ≠ v ∧ x ∈ pins0 ∧ ∃ q, q < k ∧ q ≠ blk ∧ part x = some q ∧ pc q = pc0 q ∧ pc q + pc blk ≤ pins0.length + 1 ∧ 0 < pc q) := by
    by_cases hxv : x = v
    · exact Or.inl ⟨hxv, by rw [hxv]; exact hv0, by rw [hxv]; exact hv⟩
    · by_cases hx : x ∈ pins0
      · obtain ⟨q, hq, hp⟩ := h.asg x (by simp [hx])
        by_cases hqb : q = blk
        · subst hqb; exact Or.inr (Or.inr (Or.inl ⟨hxv, hx, hp⟩))
        · refine Or.inr (Or.inr (Or.inr ⟨hxv, hx, q, hq, hqb, hp, by rw [hpc q hq, if_neg hqb, add_zero], ?_, by
            rw [h.cnt q hq]; exact List.countP_pos_iff.2 ⟨x, by simp [hx], by simp [hp]⟩⟩))
          rcases h3 with ⟨c2, b', hb', hbb', hf, hs, hp', hz⟩ | ⟨c1, hs, hz⟩ | ⟨c2, c1, hs, hz⟩
          · by_cases e1 : q = b'
            · subst e1; omega
            · have := hz q hq hqb e1; omega
          · have := hz q hq hqb; omega
          · have := hz q hq hqb; omega
      · exact Or.inr (Or.inl ⟨hxv, hx⟩)
  unfold netPen
  rw [hlen]
  cases o with
  | km1 =>
    show opsSum Φ _ (km1Restore k part (pins0 ++ [v]) cs blk v (pc blk) w) = _
    unfold km1Restore
    rw [opsSum_append, opsSum_append, hpen1, hcsmap, add_zero]
    by_cases ha : pc blk = 2
    · obtain ⟨y, hy, hpy, hfy, huy⟩ := restore_other h hb hv ha
      rw [if_pos ha, hfy]
      simp only [hpen1, penMult, mul_ite, mul_one, mul_zero, hmem]
      clear h hfil hcsk hpen1 hmapp hmapb hcsmap hpc h3
      rcases hx4 with ⟨q1, q2, q3⟩ | ⟨q1, q2⟩ | ⟨q1, q2, q3⟩ | ⟨q1, q2, q, _, _, q3, q4, q5, q8⟩ <;> grind
    · rw [if_neg ha, opsSum_nil]
      simp only [penMult, mul_ite, mul_one, mul_zero, hmem]
      clear h hfil hcsk hpen1 hmapp hmapb hcsmap hpc h3
      rcases hx4 with ⟨q1, q2, q3⟩ | ⟨q1, q2⟩ | ⟨q1, q2, q3⟩ | ⟨q1, q2, q, _, _, q3, q4, q5, q8⟩ <;> grind
  | cut =>
    show opsSum Φ _ (cutRestore k (pins0 ++ [v]) cs conn pc blk v (pc blk) w) = _
    unfold cutRestore
    rw [hlen, hfil, opsSum_ite, opsSum_append, opsSum_ite, opsSum_nil, opsSum_flatMap_zero _ _ _ _ (fun c hc => by rw [opsSum_ite, opsSum_cons, opsSum_nil, contrib_bp _ (hcsk c hc), add_zero, ite_self]),
      opsSum_ite, opsSum_cons, contrib_pp, opsSum_ite, opsSum_nil, hmapp]
    rcases h3 with ⟨c2, b', hb', hbb', hf, hs, hp', hz⟩ | ⟨c1, hs, hz⟩ | ⟨c2, c1, hs, hz⟩
    · rw [hf, if_pos c2]
      simp only
      rw [hmapb b' hb']
      simp only [penMult, mul_ite, mul_one, mul_zero, hmem]
      clear h hfil hcsk hpen1 hmapp hmapb hcsmap hpc hz hf
      rcases hx4 with ⟨q1, q2, q3⟩ | ⟨q1, q2⟩ | ⟨q1, q2, q3⟩ | ⟨q1, q2, q, _, _, q3, q4, q5, q8⟩ <;> grind
    · rw [if_neg (by omega)]
      simp only [penMult, mul_ite, mul_one, mul_zero, hmem]
      clear h hfil hcsk hpen1 hmapp hmapb hcsmap hpc
      rcases hx4 with ⟨q1, q2, q3⟩ | ⟨q1, q2⟩ | ⟨q1, q2, q3⟩ | ⟨q1, q2, q, q6, q7, q3, q4, q5, q8⟩ 
      · grind
      · grind
      · grind
      · have := hz q q6 q7; grind
    · rw [if_neg c2]
      simp only [penMult, mul_ite, mul_one, mul_zero, hmem]
      clear h hfil hcsk hpen1 hmapp hmapb hcsmap hpc hz
      rcases hx4 with ⟨q1, q2, q3⟩ | ⟨q1, q2⟩ | ⟨q1, q2, q3⟩ | ⟨q1, q2, q, _, _, q3, q4, q5, q8⟩ <;> grind
  | soed =>
    show opsSum Φ _ (soedRestore k part (pins0 ++ [v]) cs conn pc blk v (pc blk) w) = _
    unfold soedRestore
    simp only
    rw [hlen, hfil, opsSum_append, opsSum_append, opsSum_append, opsSum_append, hpen1,
      opsSum_flatMap_zero _ _ _ _ (fun c hc => by rw [opsSum_cons, contrib_bp _ (hcsk c hc), opsSum_ite, opsSum_cons, contrib_bp _ (hcsk c hc), opsSum_nil]; simp), add_zero]
    have hmid : opsSum Φ (penIdx k x) (if pc blk = 2 ∧ conn = 2 then km1Restore.match_1 (fun _ => List CacheOp) (cs.find? (fun b => decide (b ≠ blk))) (fun b => pins0.map (fun x => .add (benIdx k x b) (-w))) (fun _ => []) else []) = 0 := by
      rcases h3 with ⟨c2, b', hb', hbb', hf, hs, hp', hz⟩ | ⟨c1, hs, hz⟩ | ⟨c2, c1, hs, hz⟩
      · rw [opsSum_ite, hf]
        simp only
        rw [hmapb b' hb', opsSum_nil, ite_self]
      · rw [if_neg (by omega), opsSum_nil]
      · rw [if_neg (by omega), opsSum_nil]
    rw [hmid]
    have hb2i : ∀ (c : Prop) [Decidable c], b2i (decide c) = if c then 1 else 0 := by intro c _; unfold b2i; simp
    by_cases ha : pc blk = 2
    · obtain ⟨y, hy, hpy, hfy, huy⟩ := restore_other h hb hv ha
      rw [if_pos ha, hfy]
      simp only [opsSum_cons, opsSum_ite, opsSum_nil, contrib_pp, contrib_bp _ hb, penMult, hb2i, mul_ite, ite_mul, one_mul, zero_mul, mul_one, mul_zero, mul_add, hmem]
      clear h hfil hcsk hpen1 hmapp hmapb hcsmap hpc h3 hmid
      rcases hx4 with ⟨q1, q2, q3⟩ | ⟨q1, q2⟩ | ⟨q1, q2, q3⟩ | ⟨q1, q2, q, _, _, q3, q4, q5, q8⟩ 
      · grind
      · grind
      · grind
      · have hyx : y ≠ x := by rintro rfl; rw [hpy] at q3; simp at q3; omega
        simp only [q3]; clear hfy huy hmem; grind
    · rw [if_neg ha]
      simp only [opsSum_cons, opsSum_ite, opsSum_nil, contrib_pp, contrib_bp _ hb, penMult, hb2i, mul_ite, ite_mul, one_mul, zero_mul, mul_one, mul_zero, mul_add, hmem]
      clear h hfil hcsk hpen1 hmapp hmapb hcsmap hpc h3 hmid
      rcases hx4 with ⟨q1, q2, q3⟩ | ⟨q1, q2⟩ | ⟨q1, q2, q3⟩ | ⟨q1, q2, q, _, _, q3, q4, q5, q8⟩ <;> grind

end Dyn
end Verif
