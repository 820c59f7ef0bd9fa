import Verif.Lemmas.NLP7
/-!
# Restoring removed nets
-/
namespace Verif
namespace Dyn
open SMap (wr)

theorem addedWeight_zero {ew : Nat → Int} {een : Nat → Bool} {R : RemovedNets} (h1 : ∀ p ∈ R, een p.1 = false) (h3 : ∀ e r, (e, some r) ∈ R → een r = true)
    {e : Nat} (he : e ∈ R.map Prod.fst) : addedWeight ew R e = 0 := by
  rw [List.mem_map] at he
  obtain ⟨p, hp, rfl⟩ := he
  have : R.filter (fun q => q.2 == some p.1) = [] := by
    rw [List.filter_eq_nil_iff]
    intro q hq hb
    have hb : q.2 = some p.1 := by simpa using hb
    have := h3 q.1 p.1 (by rw [← hb]; exact hq)
    rw [h1 p hp] at this; cases this
  unfold addedWeight
  rw [this]; rfl

/-- contribution of the restored nets without representative -/
def singleSum (ew g : Nat → Int) (R : RemovedNets) : Int := (R.map (fun p => if p.2 = none then ew p.1 * g p.1 else 0)).sum

theorem wSum_undo_gen {m : Nat} {een : Nat → Bool} {ew g : Nat → Int} {R : RemovedNets} (hnd : (R.map Prod.fst).Nodup)
    (h1 : ∀ p ∈ R, p.1 < m ∧ een p.1 = false)
    (h3 : ∀ e r, (e, some r) ∈ R → r < m ∧ een r = true ∧ g e = g r) :
    wSum m (fun e => een e || (R.map Prod.fst).contains e) (fun e => ew e - addedWeight ew R e) g = wSum m een ew g + singleSum ew g R := by
  classical
  have hdec : ∀ e : Nat, Decidable ((e, (none : Option Nat)) ∈ R) := fun e => inferInstance
  let g' : Nat → Int := fun e => if (e, (none : Option Nat)) ∈ R then 0 else g e
  have hsome : ∀ e r, (e, some r) ∈ R → (e, (none : Option Nat)) ∉ R := by
    intro e r he hn
    have := List.inj_on_of_nodup_map hnd he hn rfl
    cases this
  have hen : ∀ e, een e = true → g' e = g e := by
    intro e he
    show (if _ then _ else _) = _
    rw [if_neg]
    intro hn
    have := (h1 _ hn).2
    rw [he] at this; cases this
  have hu := wSum_undo_one (g := g') (ew := ew) hnd h1 (fun e he => if_pos he) (fun e r he => ⟨(h3 e r he).1, (h3 e r he).2.1, by
    rw [hen r (h3 e r he).2.1]
    show (if _ then _ else _) = _
    rw [if_neg (hsome e r he)]; exact (h3 e r he).2.2⟩)
  have hb : wSum m een ew g' = wSum m een ew g := by
    unfold wSum
    refine Finset.sum_congr rfl (fun e he => ?_)
    rw [hen e (Finset.mem_filter.1 he).2]
  rw [hb] at hu
  rw [← hu]
  unfold wSum
  rw [← sub_eq_iff_eq_add', ← Finset.sum_sub_distrib]
  have hF : ∀ e, (ew e - addedWeight ew R e) * g e - (ew e - addedWeight ew R e) * g' e = if (e, (none : Option Nat)) ∈ R then ew e * g e else 0 := by
    intro e
    show _ - _ * (if _ then _ else _) = _
    by_cases he : (e, (none : Option Nat)) ∈ R
    · rw [if_pos he, if_pos he, addedWeight_zero (fun p hp => (h1 p hp).2) (fun e r h => (h3 e r h).2.1) (List.mem_map.2 ⟨_, he, rfl⟩)]
      simp
    · rw [if_neg he, if_neg he]; simp
  rw [Finset.sum_congr rfl (fun e _ => hF e)]
  have hsub : (R.map Prod.fst).toFinset ⊆ (Finset.range m).filter (fun e => (een e || (R.map Prod.fst).contains e) = true) := by
    intro e he
    rw [List.mem_toFinset] at he
    obtain ⟨p, hp, rfl⟩ := List.mem_map.1 he
    rw [Finset.mem_filter, Finset.mem_range]
    exact ⟨(h1 p hp).1, by rw [List.contains_iff_mem.2 he, Bool.or_true]⟩
  rw [← Finset.sum_subset hsub ?_, List.sum_toFinset _ hnd, List.map_map]
  · unfold singleSum
    congr 1
    refine List.map_congr_left ?_
    rintro ⟨e, q⟩ hp
    cases q with
    | none => show (if _ then _ else _) = _; rw [if_pos hp, if_pos rfl]
    | some r => show (if _ then _ else _) = _; rw [if_neg (hsome e r hp)]; rfl
  · intro e _ he
    rw [if_neg]
    intro hn
    exact he (List.mem_toFinset.2 (List.mem_map.2 ⟨_, hn, rfl⟩))

theorem singleSum_perm {ew g : Nat → Int} {R R' : RemovedNets} (h : R'.Perm R) : singleSum ew g R' = singleSum ew g R := (h.map _).sum_eq

theorem benSum_wSum (o : Metrics.Obj) (m : Nat) (h : DH) (part : Assign) (x b : Nat) :
    benSum o m h part x b = wSum m h.een h.ew (fun e => if x ∈ h.edgePins e then benMult o (h.edgePins e).length (bcnt part (h.edgePins e) b) else 0) := by
  unfold benSum wSum
  rw [Finset.sum_filter]
  refine Finset.sum_congr rfl (fun e _ => ?_)
  by_cases he : h.een e = true
  · rw [if_pos he, if_pos he]; unfold netBen
    beta_reduce
    by_cases hx : x ∈ h.edgePins e
    · rw [if_pos hx, if_pos hx]
    · rw [if_neg hx, if_neg hx, Int.mul_zero]
  · rw [if_neg he, if_neg he]

theorem penSum_wSum (o : Metrics.Obj) (m : Nat) (h : DH) (part : Assign) (x : Nat) :
    penSum o m h part x = wSum m h.een h.ew (fun e => netPen o 1 part (h.edgePins e) (bcnt part (h.edgePins e)) x) := by
  unfold penSum wSum
  rw [Finset.sum_filter]
  refine Finset.sum_congr rfl (fun e _ => ?_)
  by_cases he : h.een e = true
  · rw [if_pos he, if_pos he]; unfold netPen
    beta_reduce
    by_cases hx : x ∈ h.edgePins e
    · rw [if_pos hx, if_pos hx]
      cases part x with
      | none => simp
      | some p => simp only [Int.one_mul]
    · rw [if_neg hx, if_neg hx, Int.mul_zero]
  · rw [if_neg he, if_neg he]

variable {σ : Type} {C : ConInfo σ} {m k mx : Nat} {L : C.Lawful m k mx} {o : Metrics.Obj}

theorem bcnt_le (part : Assign) (pins : List Nat) (b : Nat) : bcnt part pins b ≤ pins.length := List.countP_le_length

theorem bcnt_perm {part : Assign} {pins pins' : List Nat} (h : pins'.Perm pins) (b : Nat) : bcnt part pins' b = bcnt part pins b := h.countP_eq _

/-- copying the pin counts of the representative -/
theorem copy_spec {e r : Nat} (he : e < m) (hr : r < m) (hne : e ≠ r) : ∀ (cs : List Nat) {con : σ} {T : Table}, L.R con T → cs.Nodup →
    (∀ b ∈ cs, b < k ∧ 0 < T r b ∧ T r b ≤ mx ∧ T e b = 0) →
    ∃ T', L.R (cs.foldl (fun c b => C.setPC (C.addBlock c e b) e b (C.pinCount c r b)) con) T' ∧
      ∀ e' b, T' e' b = if e' = e ∧ b ∈ cs then T r b else T e' b
  | [], con, T, hR, _, _ => ⟨T, hR, fun e' b => by simp⟩
  | b0 :: cs, con, T, hR, hn, h => by
    rw [List.nodup_cons] at hn
    obtain ⟨a1, a2, a3, a4⟩ := h b0 (by simp)
    have hpc := L.pinCount_eq hR hr a1
    have hf := (L.fill hR he a1 a4 a2 a3).1
    rw [List.foldl_cons, hpc]
    have hrow : ∀ b, (T.upd e b0 (T r b0)) r b = T r b := by
      intro b; unfold Table.upd; rw [if_neg (by rintro ⟨h1, _⟩; exact hne h1.symm)]
    obtain ⟨T', h1, h2⟩ := copy_spec he hr hne cs hf hn.2 (by
      intro b hb
      obtain ⟨c1, c2, c3, c4⟩ := h b (by simp [hb])
      refine ⟨c1, by rw [hrow]; exact c2, by rw [hrow]; exact c3, ?_⟩
      unfold Table.upd
      rw [if_neg]
      · exact c4
      · rintro ⟨_, rfl⟩; exact hn.1 hb)
    refine ⟨T', h1, fun e' b => ?_⟩
    rw [h2 e' b, hrow]
    unfold Table.upd
    by_cases hee : e' = e
    · subst hee
      by_cases hb : b ∈ cs
      · simp [hb]
      · by_cases hb0 : b = b0
        · subst hb0; simp
        · simp [hb, hb0]
    · simp [hee]

/-- what is used about the blocks -/
structure PartOK (k : Nat) (h' : DH) (m mx : Nat) (part : Assign) : Prop where
  asg : ∀ e, e < m → h'.een e = true → ∀ x ∈ h'.edgePins e, ∃ b, b < k ∧ part x = some b
  len : ∀ e, e < m → h'.een e = true → (h'.edgePins e).length ≤ mx

theorem idx_ben {v x b b' : Nat} (hb : b < k) (hb' : b' < k) : benIdx k v b = benIdx k x b' ↔ v = x ∧ b = b' := by
  have h := contrib_bb (k := k) (v := v) (x := x) (Φ := fun _ => none) 1 hb hb'
  simp only [CacheOp.contrib] at h
  constructor
  · intro he
    by_contra hn
    rw [if_neg hn, if_pos he] at h; omega
  · rintro ⟨rfl, rfl⟩; rfl

theorem idx_pen {v x b : Nat} (hb : b < k) : penIdx k x ≠ benIdx k v b := by
  unfold penIdx benIdx
  intro h
  have h1 : (x * (k + 1)) % (k + 1) = (v * (k + 1) + b + 1) % (k + 1) := by rw [h]
  rw [Nat.mul_mod_left, show v * (k + 1) + b + 1 = (b + 1) + v * (k + 1) by omega, Nat.add_mul_mod_self_right, Nat.mod_eq_of_lt (by omega)] at h1
  omega

theorem bcnt_single {part : Assign} {y p b : Nat} (h : part y = some p) : bcnt part [y] b = if p = b then 1 else 0 := by
  unfold bcnt
  by_cases hb : p = b <;> simp [h, hb]

/-- the loop over the removed nets -/
theorem netsLoop_spec {h h' : DH} {R : RemovedNets} {part : Assign} {ini : Bool} (hN : NetsOK m h h' R) (hP : PartOK k h' m mx part) :
    ∀ (l : RemovedNets) {con : σ} {cache : Nat → Int} {T : Table}, (∀ q ∈ l, q ∈ R) → (l.map Prod.fst).Nodup → L.R con T →
    (∀ e, e < m → ∀ b, b < k → (h.een e = true → T e b = bcnt part (h'.edgePins e) b) ∧ (e ∈ l.map Prod.fst → T e b = 0)) →
    ∃ con' cache', restoreNetsAll C k o ini h' part l (con, cache) = some (con', cache') ∧ ∃ T', L.R con' T' ∧
      (∀ e, e < m → ∀ b, b < k → T' e b = if e ∈ l.map Prod.fst then bcnt part (h'.edgePins e) b else T e b) ∧
      (ini = false → cache' = cache) ∧
      (∀ x, cache' (penIdx k x) = cache (penIdx k x)) ∧
      (ini = true → ∀ x b, b < k → cache' (benIdx k x b) = cache (benIdx k x b) +
        singleSum h'.ew (fun e => if x ∈ h'.edgePins e then benMult o (h'.edgePins e).length (bcnt part (h'.edgePins e) b) else 0) l)
  | [], con, cache, T, _, _, hR, _ => ⟨con, cache, rfl, T, hR, fun e _ b _ => by simp, fun _ => rfl, fun _ => rfl, fun _ x b _ => by simp [singleSum]⟩
  | (e, q) :: l, con, cache, T, hsub, hnd, hR, hT => by
    have hmem : (e, q) ∈ R := hsub _ (by simp)
    obtain ⟨hem, hgone⟩ := hN.gone _ hmem
    have hem : e < m := hem
    have hen : h'.een e = true := by
      have : (R.map Prod.fst).contains e = true := List.contains_iff_mem.2 (List.mem_map.2 ⟨_, hmem, rfl⟩)
      rw [hN.een]; simp only [this, Bool.or_true]
    rw [List.map_cons, List.nodup_cons] at hnd
    have hzero : ∀ b, b < k → T e b = 0 := fun b hb => (hT e hem b hb).2 (by simp)
    have hgone' : ∀ e', h.een e' = true → e' ≠ e := by
      rintro e' h1 rfl
      have h2 : h.een e' = false := hgone
      rw [h1] at h2; cases h2
    have hle : ∀ b, bcnt part (h'.edgePins e) b ≤ mx := fun b => Nat.le_trans (bcnt_le _ _ _) (hP.len e hem hen)
    -- one iteration
    have hone : ∃ con1 cache1 T1, restoreNet C k o ini h' part (e, q) (con, cache) = some (con1, cache1) ∧ L.R con1 T1 ∧
        (∀ e', e' < m → ∀ b, b < k → T1 e' b = if e' = e then bcnt part (h'.edgePins e) b else T e' b) ∧ (ini = false → cache1 = cache) ∧
        (∀ x, cache1 (penIdx k x) = cache (penIdx k x)) ∧
        (ini = true → ∀ x b, b < k → cache1 (benIdx k x b) = cache (benIdx k x b) + (if q = none then
          h'.ew e * (if x ∈ h'.edgePins e then benMult o (h'.edgePins e).length (bcnt part (h'.edgePins e) b) else 0) else 0)) := by
      cases q with
      | none =>
        obtain ⟨hsz, y, hy⟩ := hN.single e hmem
        obtain ⟨p, hp, hpy⟩ := hP.asg e hem hen y (by rw [hy]; simp)
        have hcond : restoreNet C k o ini h' part (e, none) (con, cache) =
            some (C.setPC (C.addBlock con e p) e p 1, if ini = true ∧ o = .km1 then cacheAdd cache (benIdx k y p) (h'.ew e) else cache) := by
          unfold restoreNet
          rw [if_pos hsz, hy]
          simp only [List.getLast?_singleton, hpy]
        have hmx : 1 ≤ mx := by have := hP.len e hem hen; rw [hy] at this; exact this
        refine ⟨_, _, _, hcond, (L.fill hR hem hp (hzero p hp) Nat.one_pos hmx).1, ?_, ?_, ?_, ?_⟩
        · intro e' he' b hb
          unfold Table.upd
          rw [hy, bcnt_single hpy]
          have := hzero b hb
          grind
        · intro hi; rw [if_neg (by rw [hi]; simp)]
        · intro x
          split
          · unfold cacheAdd; rw [if_neg (idx_pen hp)]
          · rfl
        · intro hi x b hb
          rw [if_pos rfl, hy, bcnt_single hpy]
          by_cases ho : o = .km1
          · rw [if_pos ⟨hi, ho⟩]
            subst ho
            unfold cacheAdd
            have := idx_ben (k := k) (v := x) (x := y) hb hp
            by_cases hxy : x = y ∧ b = p
            · rw [if_pos (this.2 hxy), if_pos (by simp [hxy.1]), if_pos hxy.2.symm]; simp [benMult]
            · rw [if_neg (fun h => hxy (this.1 h))]
              by_cases hx : x = y
              · have hbp : p ≠ b := fun h => hxy ⟨hx, h.symm⟩
                rw [if_pos (by simp [hx]), if_neg hbp]; simp [benMult]
              · rw [if_neg (by simp [hx])]; simp
          · rw [if_neg (fun h => ho h.2)]
            have hz : ∀ n, benMult o 1 n = 0 := by
              intro n
              cases o with
              | km1 => exact absurd rfl ho
              | cut => simp [benMult]
              | soed => simp [benMult]
            simp [hz]
      | some r =>
        obtain ⟨hsz, hrm, hre, hperm⟩ := hN.par e r hmem
        have hner : e ≠ r := fun h => hgone' r hre h.symm
        have hTr : ∀ b, b < k → T r b = bcnt part (h'.edgePins e) b := fun b hb => by
          rw [(hT r hrm b hb).1 hre]; exact (bcnt_perm hperm b).symm
        have hcond : restoreNet C k o ini h' part (e, some r) (con, cache) =
            some ((C.connSet con r).foldl (fun c b => C.setPC (C.addBlock c e b) e b (C.pinCount c r b)) con, cache) := by
          unfold restoreNet
          rw [if_neg hsz]
        obtain ⟨T1, h1, h2⟩ := copy_spec hem hrm hner (C.connSet con r) hR (L.connSet_nodup hR hrm) (by
          intro b hb
          obtain ⟨c1, c2⟩ := (L.connSet_mem hR hrm b).1 hb
          exact ⟨c1, c2, by rw [hTr b c1]; exact hle b, hzero b c1⟩)
        refine ⟨_, _, T1, hcond, h1, ?_, fun _ => rfl, fun _ => rfl, fun _ x b _ => by simp⟩
        intro e' he' b hb
        rw [h2 e' b]
        have hcs := L.connSet_mem hR hrm b
        have := hTr b hb
        have := hzero b hb
        grind
    obtain ⟨con1, cache1, T1, g1, g2, g3, g4, g5, g6⟩ := hone
    obtain ⟨con', cache', i1, T', i2, i3, i4, i5, i6⟩ := netsLoop_spec hN hP l (con := con1) (cache := cache1) (T := T1) (fun q hq => hsub q (by simp [hq])) hnd.2 g2 (by
      intro e' he' b hb
      have hg := g3 e' he' b hb
      obtain ⟨t1, t2⟩ := hT e' he' b hb
      refine ⟨fun h => ?_, fun h => ?_⟩
      · rw [hg, if_neg (hgone' e' h)]; exact t1 h
      · rw [hg, if_neg (by rintro rfl; exact hnd.1 h)]; exact t2 (by simp only [List.map_cons]; exact List.mem_cons_of_mem _ h))
    refine ⟨con', cache', by unfold restoreNetsAll; rw [g1]; exact i1, T', i2, ?_, fun hi => by rw [i4 hi, g4 hi], fun x => by rw [i5, g5], ?_⟩
    · intro e' he' b hb
      rw [i3 e' he' b hb, g3 e' he' b hb]
      have hnd1 := hnd.1
      simp only [List.map_cons, List.mem_cons]
      grind
    · intro hi x b hb
      rw [i6 hi x b hb, g6 hi x b hb]
      unfold singleSum
      rw [List.map_cons, List.sum_cons]
      beta_reduce
      simp only []
      omega

/-- **removed nets are restored** -/
theorem NInv.nets {s0 : DH} {par : Nat → Nat} {s : PHN σ} {h' : DH} {R rord : RemovedNets} {con : σ} {cache : Nat → Int} (hI : NInv L o s) (hF : NFix s0 par m mx s.h)
    (hN : NetsOK m s.h h' R) (hro : rord.Perm R) (hpin : ∀ e, e < m → h'.een e = true → ∀ x ∈ h'.edgePins e, s.h.has x)
    (hu : ∀ e, e < m → h'.een e = true → s0.used e) :
    (∃ con cache, restoreNetsAll C k o s.ini h' s.P.part rord (s.P.con, s.cache) = some (con, cache)) ∧
    (restoreNetsAll C k o s.ini h' s.P.part rord (s.P.con, s.cache) = some (con, cache) →
      NInv L o ⟨h', { s.P with con := con }, cache, s.ini⟩ ∧ NFix s0 par m mx h') := by
  have hep : ∀ e, h'.edgePins e = s.h.edgePins e := fun e => by unfold DH.edgePins; rw [hN.pins, hN.size]
  have hPO : PartOK k h' m mx s.P.part := by
    refine ⟨fun e he hen x hx => ?_, fun e he hen => ?_⟩
    · obtain ⟨b, hb⟩ := hI.full x (hpin e he hen x hx)
      exact ⟨b, hI.rng x b hb, hb⟩
    · refine Nat.le_trans ?_ (hF.slots e (hu e he hen))
      rw [hep]; unfold DH.edgePins; rw [List.length_take]; omega
  obtain ⟨T, hR, hT⟩ := hI.con
  obtain ⟨con', cache', i1, T', i2, i3, i4, i5, i6⟩ := netsLoop_spec (o := o) (ini := s.ini) (L := L) hN hPO rord (con := s.P.con) (cache := s.cache) (T := T)
    (fun q hq => hro.mem_iff.1 hq) ((hro.map _).nodup_iff.2 hN.nodup) hR (by
      intro e he b hb
      rw [hT e he b hb, hep]
      refine ⟨fun h => if_pos h, fun h => if_neg ?_⟩
      obtain ⟨p, hp, rfl⟩ := List.mem_map.1 h
      rw [(hN.gone p (hro.mem_iff.1 hp)).2]; simp)
  refine ⟨⟨con', cache', i1⟩, fun hc => ?_⟩
  rw [i1] at hc
  injection hc with hc
  injection hc with hc1 hc2
  subst hc1; subst hc2
  have hmem : ∀ e, e ∈ rord.map Prod.fst ↔ (R.map Prod.fst).contains e = true := fun e => by
    rw [(hro.map Prod.fst).mem_iff]; simp
  have hhas : ∀ x, h'.has x ↔ s.h.has x := fun x => by unfold DH.has; rw [hN.nodes.1, hN.nodes.2.1]
  have hnone : ∀ e, (e, none) ∈ R → h'.ew e = s.h.ew e := by
    intro e he
    rw [hN.ew]
    show _ - addedWeight s.h.ew R e = _
    rw [addedWeight_zero (fun p hp => (hN.gone p hp).2) (fun e r h => (hN.par e r h).2.2.1) (List.mem_map.2 ⟨_, he, rfl⟩), Int.sub_zero]
  have hsing : ∀ g, singleSum h'.ew g R = singleSum s.h.ew g R := by
    intro g
    unfold singleSum
    congr 1
    refine List.map_congr_left ?_
    rintro ⟨e, q⟩ hp
    cases q with
    | none => show (if _ then h'.ew e * _ else _) = _; rw [hnone e hp]
    | some r => rfl
  refine ⟨⟨⟨T', i2, ?_⟩, hI.rng, ?_, ?_, ?_, ?_, ?_⟩, ⟨hF.mEq, by rw [hN.nodes.2.2.2]; exact hF.parEq, by rw [hN.pins]; exact hF.slots⟩⟩
  · intro e he b hb
    rw [i3 e he b hb, hT e he b hb]
    show _ = if h'.een e = true then bcnt s.P.part (h'.edgePins e) b else 0
    rw [hN.een]
    beta_reduce
    rw [hep]
    by_cases hr : e ∈ rord.map Prod.fst
    · rw [if_pos hr, (hmem e).1 hr, Bool.or_true, if_pos rfl]
    · rw [if_neg hr, show (R.map Prod.fst).contains e = false by rw [bool_false_iff]; exact fun h => hr ((hmem e).2 h), Bool.or_false]
  · intro v hv
    exact hI.full v ((hhas v).1 hv)
  · intro b hb
    show s.P.wt b = wtSum h' s.P.part b
    rw [hI.wt b hb]
    unfold wtSum
    rw [hN.nodes.1, hN.nodes.2.1, hN.nodes.2.2.1]
  · intro hi x b hb
    show cache' _ = benSum o m h' s.P.part x b
    rw [i6 hi x b hb, hI.ben hi x b hb, benSum_wSum, benSum_wSum, hN.een, hN.ew, wSum_undo_gen hN.nodup hN.gone, singleSum_perm hro, ← hN.ew, hsing]
    · simp only [hep]
    · intro e r he
      obtain ⟨p1, p2, p3, p4⟩ := hN.par e r he
      exact ⟨p2, p3, by rw [p4.length_eq, bcnt_perm p4]; simp only [p4.mem_iff]⟩
  · intro hi x
    show cache' _ = penSum o m h' s.P.part x
    rw [i5, hI.pen hi x, penSum_wSum, penSum_wSum, hN.een, hN.ew, wSum_undo_gen hN.nodup hN.gone]
    · have : singleSum s.h.ew (fun e => netPen o 1 s.P.part (h'.edgePins e) (bcnt s.P.part (h'.edgePins e)) x) R = 0 := by
        unfold singleSum
        refine List.sum_eq_zero ?_
        intro z hz
        obtain ⟨⟨e, q⟩, hp, rfl⟩ := List.mem_map.1 hz
        cases q with
        | some r => rfl
        | none =>
          obtain ⟨hsz, y, hy⟩ := hN.single e hp
          rw [if_pos rfl]
          beta_reduce
          have : netPen o 1 s.P.part [y] (bcnt s.P.part [y]) x = 0 := by
            unfold netPen
            by_cases hx : x ∈ [y]
            · rw [if_pos hx]
              obtain rfl : x = y := by simpa using hx
              cases hpx : s.P.part x with
              | none => rfl
              | some p =>
                simp only [bcnt_single hpx]
                cases o <;> simp [penMult, b2i]
            · rw [if_neg hx]
          show s.h.ew e * netPen o 1 s.P.part (h'.edgePins e) (bcnt s.P.part (h'.edgePins e)) x = 0
          rw [hy, this, Int.mul_zero]
      rw [this, add_zero]
      simp only [hep]
    · intro e r he
      obtain ⟨p1, p2, p3, p4⟩ := hN.par e r he
      refine ⟨p2, p3, ?_⟩
      unfold netPen
      simp only [p4.mem_iff, p4.length_eq]
      split
      · cases s.P.part x with
        | none => rfl
        | some p => simp only; rw [bcnt_perm p4]
      · rfl
  · intro hi x hx
    show cache' _ = 0 ∧ ∀ b, b < k → cache' _ = 0
    rw [i4 hi]
    exact hI.zero hi x (fun h => hx ((hhas x).2 h))

end Dyn
end Verif
