import Verif.Lemmas.Rollback5
/-!
# Rollback: from the scan to the partition
-/
namespace Verif
open CSt Metrics

namespace Rollback

theorem take_succ_none {ms : List FMMove} {i : Nat} (h : ms[i]? = none) : ms.take (i + 1) = ms.take i := by
  have : ms.length ≤ i := by simpa using h
  rw [List.take_of_length_le (by omega), List.take_of_length_le this]

theorem take_node {H : HG} {k : Nat} {Φ : Assign} {ms : List FMMove} (hv : ValidMoves H k Φ ms) {i : Nat} {m : FMMove}
    (hi : ms[i]? = some m) (hs : m.src ≠ none) : applyMoves Φ (ms.take i) m.node = Φ m.node := by
  apply applyMoves_other
  intro m' hm' hs' he
  obtain ⟨j, hj⟩ := List.mem_iff_getElem?.1 hm'
  rw [List.getElem?_take] at hj
  split_ifs at hj with hlt
  have := hv.once j i m' m hj hi hs' hs he
  omega

theorem wAt_eq {H : HG} (hw : H.WF) {k : Nat} {Φ : Assign} {ms : List FMMove} (hv : ValidMoves H k Φ ms) {W : Nat → Int}
    (hW : ∀ b < k, W b = H.blockWeight Φ b) (i : Nat) : ∀ b < k,
    wAt H.nw ms W i b = H.blockWeight (applyMoves Φ (ms.take i)) b := by
  induction i with
  | zero => intro b hb; simp [wAt, applyMoves, hW b hb]
  | succ i ih =>
    intro b hb
    rw [wAt]
    cases hi : ms[i]? with
    | none => rw [take_succ_none hi]; exact ih b hb
    | some m =>
      rw [applyMoves_take_succ hi]
      cases hs : m.src with
      | none =>
        have : m.apply (applyMoves Φ (ms.take i)) = applyMoves Φ (ms.take i) := by
          unfold FMMove.apply; rw [hs]
        rw [this]; simp only [hs]; exact ih b hb
      | some src =>
        have hap : m.apply (applyMoves Φ (ms.take i)) = (applyMoves Φ (ms.take i)).put m.node m.dst := by
          unfold FMMove.apply; rw [hs]
        obtain ⟨h1, h2, h3, h4, h5⟩ := hv.legal m (List.mem_of_getElem? hi) src hs
        have hcur := take_node hv hi (by rw [hs]; simp)
        rw [hap, HG.blockWeight_put hw.nodes_nodup h1, hcur, h2]
        simp only [hs, addW]
        rw [ih b hb]
        simp only [Option.some.injEq]
        split_ifs <;> omega

theorem cumGain_eq {H : HG} {o : Obj} {Φ : Assign} {ms : List FMMove} {gain : Nat → Int}
    (hg : ∀ i m, ms[i]? = some m →
      gain i = H.objective (applyMoves Φ (ms.take i)) o - H.objective (applyMoves Φ (ms.take (i + 1))) o) (i : Nat) :
    cumGain ms gain i = H.objective Φ o - H.objective (applyMoves Φ (ms.take i)) o := by
  induction i with
  | zero => simp [cumGain, applyMoves]
  | succ i ih =>
    rw [cumGain, ih]
    cases hi : ms[i]? with
    | none => rw [take_succ_none hi]; simp
    | some m =>
      simp only
      cases hs : m.src with
      | none =>
        have : m.apply (applyMoves Φ (ms.take i)) = applyMoves Φ (ms.take i) := by
          unfold FMMove.apply; rw [hs]
        rw [applyMoves_take_succ hi, this]; simp
      | some src => rw [hg i m hi]; simp

theorem maxElement_eq (k : Nat) (W : Nat → Int) : maxElement k W = maxWeight k W := by
  unfold maxElement maxWeight
  congr 1
  funext a b
  rw [max_def]
  split_ifs <;> omega

theorem foldl_max_le {c : Int} (l : List Int) : ∀ a, a ≤ c → (∀ x ∈ l, x ≤ c) → l.foldl max a ≤ c := by
  induction l with
  | nil => intro a h _; exact h
  | cons x l ih =>
    intro a h1 h2
    exact ih _ (max_le h1 (h2 x (by simp))) (fun y hy => h2 y (by simp [hy]))

theorem maxElement_le {k : Nat} (hk : 0 < k) {W : Nat → Int} {c : Int} (h : ∀ b < k, W b ≤ c) : maxElement k W ≤ c := by
  rw [maxElement_eq]
  unfold maxWeight
  apply foldl_max_le _ _ (h 0 hk)
  intro x hx
  obtain ⟨b, hb, rfl⟩ := List.mem_map.1 hx
  exact h b (List.mem_range.1 hb)

theorem maxElement_congr {k : Nat} (hk : 0 < k) {W W' : Nat → Int} (h : ∀ b < k, W b = W' b) :
    maxElement k W = maxElement k W' := by
  unfold maxElement
  rw [h 0 hk]
  congr 1
  exact List.map_congr_left (fun b hb => h b (List.mem_range.1 hb))

theorem blockWeight_le {H : HG} (hnw : ∀ u ∈ H.nodes, 0 ≤ H.nw u) (Φ : Assign) (b : Nat) :
    H.blockWeight Φ b ≤ (H.nodes.map H.nw).sum := by
  unfold HG.blockWeight
  have : ∀ l : List Nat, (∀ u ∈ l, 0 ≤ H.nw u) →
      ((l.filter (fun u => decide (Φ u = some b))).map H.nw).sum ≤ (l.map H.nw).sum := by
    intro l
    induction l with
    | nil => intro _; simp
    | cons a l ih =>
      intro h
      have h1 := ih (fun u hu => h u (by simp [hu]))
      have h2 := h a (by simp)
      rw [List.filter_cons]
      split_ifs
      · simp only [List.map_cons, List.sum_cons]; omega
      · simp only [List.map_cons, List.sum_cons]; omega
  exact this H.nodes hnw

/-- the hyperedges processed by `recalculateGains` -/
theorem recalcSched_spec {H : HG} (hw : H.WF) {k : Nat} {Φ : Assign} {T : Tracker} (hT : T.OK)
    (hv : ValidMoves H k Φ T.order) {round : Nat} {last : Nat → Nat} (hl : ∀ e, last e < round)
    {sched : List (Nat × Nat)} (hs : RecalcSched H T round last sched) :
    (sched.map Prod.snd).Nodup ∧ (∀ te ∈ sched, te.2 ∈ H.edges) ∧
    (∀ e ∈ H.edges, (∃ m ∈ T.order, m.src ≠ none ∧ m.node ∈ H.pins e) → e ∈ sched.map Prod.snd) := by
  cases hs with
  | allEdges perm =>
    refine ⟨perm.nodup_iff.2 hw.edges_nodup, ?_, ?_⟩
    · intro te h; exact perm.mem_iff.1 (List.mem_map.2 ⟨te, h, rfl⟩)
    · intro e he _; exact perm.mem_iff.2 he
  | iterMoves is finished perm =>
    have htasks : ∀ t ∈ claimTasks H T id, t.2.2 = .load ∧ t.2.1 = id t.1 ∧ ∃ m ∈ T.order, t.1 ∈ H.inc m.node ∧
        T.moveOfNode m.node ≠ none := by
      intro t ht
      unfold claimTasks at ht
      obtain ⟨m, hm, h1⟩ := List.mem_flatMap.1 ht
      cases hmv : T.moveOfNode m.node with
      | none => rw [hmv] at h1; simp at h1
      | some y =>
        rw [hmv] at h1
        obtain ⟨e, he, rfl⟩ := List.mem_map.1 h1
        exact ⟨rfl, rfl, m, hm, he, by rw [hmv]; simp⟩
    obtain ⟨c1, c2, c3⟩ := claimed_once (uid := id) hl (fun t h => ⟨(htasks t h).1, (htasks t h).2.1⟩) is finished
    rw [List.map_id] at c1 c2
    have hnode : ∀ v, T.moveOfNode v ≠ none → v ∈ H.nodes := by
      intro v hh
      cases hmv : T.moveOfNode v with
      | none => exact absurd hmv hh
      | some y =>
        obtain ⟨id', src, dst⟩ := y
        obtain ⟨i, m, h1, h2, h3, _⟩ := hT.moveOfNode_iff.1 hmv
        exact h2 ▸ (hv.legal m (List.mem_of_getElem? h1) src h3).1
    refine ⟨perm.nodup_iff.2 c1, ?_, ?_⟩
    · intro te h
      have h1 := perm.mem_iff.1 (List.mem_map.2 ⟨te, h, rfl⟩)
      obtain ⟨t, ht, he⟩ := c3 _ h1
      obtain ⟨_, _, m, hm, h2, h3⟩ := htasks t ht
      rw [← he]
      exact ((hw.inc_iff m.node (hnode _ h3) t.1).1 h2).1
    · rintro e he ⟨m, hm, hsrc, hpin⟩
      refine perm.mem_iff.2 ?_
      obtain ⟨i, hi⟩ := List.mem_iff_getElem?.1 hm
      have hmv : T.moveOfNode m.node ≠ none := by
        cases hs : m.src with
        | none => exact absurd hs hsrc
        | some src =>
          rw [(hT.moveOfNode_iff (id := T.first + i) (src := src) (dst := m.dst)).2 ⟨i, m, hi, rfl, hs, rfl, rfl⟩]
          simp
      have hinc : e ∈ H.inc m.node := (hw.inc_iff m.node (hnode _ hmv) e).2 ⟨he, hpin⟩
      have ht : (e, id e, ClaimPC.load) ∈ claimTasks H T id := by
        unfold claimTasks
        refine List.mem_flatMap.2 ⟨m, hm, ?_⟩
        cases hmv' : T.moveOfNode m.node with
        | none => exact absurd hmv' hmv
        | some y => exact List.mem_map.2 ⟨e, hinc, rfl⟩
      exact c2 _ ht

/-- what the choice of the prefix guarantees -/
theorem bestPrefix_spec {H : HG} (hw : H.WF) {k : Nat} (hk : 0 < k) {o : Obj} (hnw : ∀ u ∈ H.nodes, 0 ≤ H.nw u)
    (hew : ∀ e ∈ H.edges, 0 ≤ H.ew e) (htot : (H.nodes.map H.nw).sum < maxHNW)
    {Φ : Assign} {T : Tracker} (hT : T.OK) (hv : ValidMoves H k Φ T.order)
    (hall : ∀ v ∈ H.nodes, ∃ b, b < k ∧ Φ v = some b) {part : Assign} (hp : part = applyMoves Φ T.order)
    {pc : Nat → Nat → Nat} (hpc : ∀ e ∈ H.edges, ∀ b, b < k → pc e b = H.pinsIn part e b)
    {W Wmax : Nat → Int} (hW : ∀ b < k, W b = H.blockWeight Φ b)
    {round : Nat} {last : Nat → Nat} (hl : ∀ e, last e < round)
    {sched : List (Nat × Nat)} (hs : RecalcSched H T round last sched)
    {g : BGhost} {steps : List BStep} (hst : BGhost.Steps T.order.length BGhost.init steps g)
    (hc : g.Complete T.order.length) {threads : List Nat} (ht : ∀ c l r t, BStep.fin c l r t ∈ steps → t ∈ threads) :
    let r := bestPrefix H k o pc part T W Wmax sched steps threads
    let Ψ := applyMoves Φ (T.order.take r.best)
    r.gain = H.objective Φ o - H.objective Ψ o ∧ 0 ≤ r.gain ∧
    (r.best = 0 ∨ ∀ b < k, H.blockWeight Ψ b ≤ Wmax b) ∧
    (∀ i ≤ T.order.length, (i = 0 ∨ ∀ b < k, H.blockWeight (applyMoves Φ (T.order.take i)) b ≤ Wmax b) →
      H.objective Ψ o ≤ H.objective (applyMoves Φ (T.order.take i)) o ∧
      (H.objective Ψ o = H.objective (applyMoves Φ (T.order.take i)) o →
        maxWeight k (H.blockWeight Ψ) ≤ maxWeight k (H.blockWeight (applyMoves Φ (T.order.take i))))) := by
  obtain ⟨s1, s2, s3⟩ := recalcSched_spec hw hT hv hl hs
  have hgain : ∀ i m, T.order[i]? = some m →
      (recalculateGains H k o pc part T sched (fun _ _ => RData.fresh)).2 i =
      H.objective (applyMoves Φ (T.order.take i)) o - H.objective (applyMoves Φ (T.order.take (i + 1))) o :=
    fun i m hi => recalculateGains_eq hw hT hv hall hp hew hpc s1 s2 s3 hi
  generalize hg : (recalculateGains H k o pc part T sched (fun _ _ => RData.fresh)).2 = gain at hgain
  have hcum := cumGain_eq hgain
  have hwat := wAt_eq hw hv hW
  have hm : ∀ m ∈ T.order, ∀ b, m.src = some b → b < k ∧ m.dst < k ∧ b ≠ m.dst ∧ 0 ≤ H.nw m.node := by
    intro m hm b hb
    obtain ⟨h1, _, h3, h4, h5⟩ := hv.legal m hm b hb
    exact ⟨h3, h4, h5, hnw _ h1⟩
  have hheavy : ∀ i, maxElement k (wAt H.nw T.order W i) = maxWeight k (H.blockWeight (applyMoves Φ (T.order.take i))) := by
    intro i
    rw [maxElement_congr hk (hwat i), maxElement_eq]
  have hheavy0 : maxElement k W = maxWeight k (H.blockWeight Φ) := by
    rw [maxElement_congr hk hW, maxElement_eq]
  have hbound : ∀ i, maxElement k (wAt H.nw T.order W i) ≤ (H.nodes.map H.nw).sum := fun i =>
    maxElement_le hk (fun b hb => by rw [hwat i b hb]; exact blockWeight_le hnw _ _)
  have hsb := scan_best (k := k) (nw := H.nw) (ms := T.order) (gain := gain) (Wmax := Wmax) (W := W) hm
    (fun j _ => by have := hbound (j + 1); unfold prefixAt; simp only; omega)
    (by have := hbound 0; rw [wAt] at this; omega) hst hc (threads := threads) (by
      intro t h
      unfold finThreads at h
      obtain ⟨st, h1, h2⟩ := List.mem_filterMap.1 h
      cases st with
      | fin c l r t' => simp only [Option.some.injEq] at h2; subst h2; exact ht c l r t' h1
      | _ => simp at h2)
  intro r Ψ
  have hr : r = finalize k W (BScan.run k H.nw T.order gain Wmax W steps).best threads := by
    show bestPrefix H k o pc part T W Wmax sched steps threads = _
    unfold bestPrefix; rw [hg]
  rw [← hr] at hsb
  obtain ⟨c1, c2, c3⟩ := hsb
  have hrg : r.gain = H.objective Φ o - H.objective Ψ o ∧ r.heaviest = maxWeight k (H.blockWeight Ψ) ∧ 0 ≤ r.gain ∧
      (r.best = 0 ∨ ∀ b < k, H.blockWeight Ψ b ≤ Wmax b) := by
    show _ = _ - H.objective (applyMoves Φ (T.order.take r.best)) o ∧
      _ = maxWeight k (H.blockWeight (applyMoves Φ (T.order.take r.best))) ∧ _ ∧
      (_ ∨ ∀ b < k, H.blockWeight (applyMoves Φ (T.order.take r.best)) b ≤ _)
    rcases c1 with c1 | ⟨j, hj, c1⟩
    · rw [c1]
      exact ⟨by simp [applyMoves], by rw [hheavy0]; simp [applyMoves], Int.le_refl _, Or.inl rfl⟩
    · rw [c1]
      refine ⟨hcum (j + 1), hheavy (j + 1), hj.nonneg, Or.inr ?_⟩
      intro b hb
      show H.blockWeight (applyMoves Φ (T.order.take (j + 1))) b ≤ _
      rw [← hwat (j + 1) b hb]; exact hj.balanced b hb
  obtain ⟨g1, g2, g3, g4⟩ := hrg
  refine ⟨g1, g3, g4, ?_⟩
  have hinit : H.objective Ψ o ≤ H.objective Φ o ∧ (H.objective Ψ o = H.objective Φ o →
      maxWeight k (H.blockWeight Ψ) ≤ maxWeight k (H.blockWeight Φ)) := by
    rw [Prefix.le_iff, hheavy0] at c2
    simp only at c2
    omega
  intro i
  induction i with
  | zero => intro _ _; simpa [applyMoves] using hinit
  | succ i ih =>
    intro hi hbal
    have hbal' : ∀ b < k, H.blockWeight (applyMoves Φ (T.order.take (i + 1))) b ≤ Wmax b := by
      rcases hbal with h | h
      · omega
      · exact h
    obtain ⟨m, hmi⟩ : ∃ m, T.order[i]? = some m := ⟨_, List.getElem?_eq_getElem (by omega)⟩
    cases hsrc : m.src with
    | none =>
      have : applyMoves Φ (T.order.take (i + 1)) = applyMoves Φ (T.order.take i) := by
        rw [applyMoves_take_succ hmi]; unfold FMMove.apply; rw [hsrc]
      rw [this] at hbal' ⊢
      exact ih (by omega) (Or.inr hbal')
    | some src =>
      by_cases hneg : 0 ≤ cumGain T.order gain (i + 1)
      · have hcand : Cand k H.nw T.order gain Wmax W i :=
          ⟨⟨m, hmi, by rw [hsrc]; simp⟩, fun b hb => by rw [hwat (i + 1) b hb]; exact hbal' b hb, hneg⟩
        have := c3 i hcand
        rw [Prefix.le_iff] at this
        have e1 : (prefixAt k H.nw T.order gain W i).gain = cumGain T.order gain (i + 1) := rfl
        have e2 : (prefixAt k H.nw T.order gain W i).heaviest = maxElement k (wAt H.nw T.order W (i + 1)) := rfl
        rw [e1, e2, hheavy, hcum] at this
        omega
      · rw [hcum] at hneg
        have := hinit.1
        omega

/-! ### the reverts -/

theorem reverts_starts {ms : List FMMove} {best : Nat} {as : List Act} (h : (startsOf as).Perm (reverts ms best)) :
    Unlimited as ∧ (∀ u d l, Act.start u d l ∈ as ↔ ∃ m ∈ ms.drop best, m.node = u ∧ m.src = some d ∧ l = maxHNW) := by
  have hmem : ∀ u d l, Act.start u d l ∈ as ↔ ∃ m ∈ ms.drop best, m.node = u ∧ m.src = some d ∧ l = maxHNW := by
    intro u d l
    have h1 : Act.start u d l ∈ as ↔ Act.start u d l ∈ startsOf as := by
      unfold startsOf; rw [List.mem_filter]; simp
    rw [h1, h.mem_iff]
    unfold reverts
    rw [List.mem_filterMap]
    constructor
    · rintro ⟨m, h2, h3⟩
      cases hs : m.src with
      | none => rw [hs] at h3; simp at h3
      | some b => rw [hs] at h3; simp at h3; exact ⟨m, h2, h3.1, by rw [← h3.2.1, hs], h3.2.2.symm⟩
    · rintro ⟨m, h2, rfl, h3, rfl⟩
      exact ⟨m, h2, by rw [h3]; rfl⟩
  refine ⟨fun u d l hh => ?_, hmem⟩
  obtain ⟨_, _, _, _, h4⟩ := (hmem u d l).1 hh
  exact h4

theorem startNodes_startsOf (as : List Act) : startNodes as = startNodes (startsOf as) := by
  induction as with
  | nil => rfl
  | cons a as ih =>
    cases a with
    | start u d l =>
      show u :: startNodes as = u :: startNodes (startsOf as)
      rw [ih]
    | tick u => exact ih
    | recompute u => exact ih

theorem startNodes_reverts (l : List FMMove) :
    startNodes (l.filterMap (fun m => m.src.map (fun b => Act.start m.node b maxHNW))) =
    (l.filter (fun m => m.src.isSome)).map FMMove.node := by
  induction l with
  | nil => rfl
  | cons a l ih =>
    cases hs : a.src with
    | none => simp [List.filterMap_cons, List.filter_cons, hs, ih]
    | some b =>
      rw [List.filterMap_cons, hs]
      simp only [Option.map_some, List.filter_cons, hs, Option.isSome_some, if_true, List.map_cons, ← ih]
      rfl

theorem valid_nodes_nodup {H : HG} {k : Nat} {Φ : Assign} {ms : List FMMove} (hv : ValidMoves H k Φ ms) :
    ((ms.filter (fun m => m.src.isSome)).map FMMove.node).Nodup := by
  have hpw : ms.Pairwise (fun m m' => m.src ≠ none → m'.src ≠ none → m.node ≠ m'.node) := by
    rw [List.pairwise_iff_getElem]
    intro i j hi hj hij h1 h2 h3
    have := hv.once i j _ _ (List.getElem?_eq_getElem hi) (List.getElem?_eq_getElem hj) h1 h2 h3
    omega
  unfold List.Nodup
  rw [List.pairwise_map]
  rw [List.pairwise_filter]
  refine hpw.imp ?_
  intro a b h h1 h2
  exact h (by intro hh; rw [hh] at h1; simp at h1) (by intro hh; rw [hh] at h2; simp at h2)

theorem reverts_nodup {H : HG} {k : Nat} {Φ : Assign} {ms : List FMMove} (hv : ValidMoves H k Φ ms) {best : Nat}
    {as : List Act} (h : (startsOf as).Perm (reverts ms best)) : (startNodes as).Nodup := by
  rw [startNodes_startsOf]
  have h1 : (startNodes (startsOf as)).Perm (startNodes (reverts ms best)) := by
    unfold startNodes; exact h.filterMap _
  rw [h1.nodup_iff]
  unfold reverts
  rw [startNodes_reverts]
  exact (valid_nodes_nodup hv).sublist (((List.drop_sublist _ _).filter _).map _)

section
variable {σ : Type} {C : ConInfo σ} {H : HG} {m k mx : Nat} {o : Metrics.Obj}

/-- after the reverts the partition is the one of the prefix -/
theorem revert_result {L : C.Lawful m k mx} (hw : H.WF) (hf : H.Fits m mx) (hnw : ∀ u ∈ H.nodes, 0 ≤ H.nw u)
    (htot : (H.nodes.map H.nw).sum ≤ maxHNW) {Φ : Assign} {ms : List FMMove} (hv : ValidMoves H k Φ ms)
    {best : Nat} {as : List Act} {s s' : CSt σ} (hp : s.part = applyMoves Φ ms)
    (hst : (startsOf as).Perm (reverts ms best)) (hI : Inv L H s) (hW : WtInv H k s) (hq : s.quiescent H = true)
    (he : CSt.exec C H k o s as = some s') (hq' : s'.quiescent H = true) :
    s'.part = applyMoves Φ (ms.take best) := by
  obtain ⟨hU, hmem⟩ := reverts_starts hst
  obtain ⟨r1, r2⟩ := unlimited_result hw hf hnw htot hU (reverts_nodup hv hst) hI hW hq he hq'
  funext v
  by_cases hvs : ∃ m ∈ ms.drop best, m.src ≠ none ∧ m.node = v
  · obtain ⟨m', hm', hs, rfl⟩ := hvs
    cases hsrc : m'.src with
    | none => exact absurd hsrc hs
    | some b =>
      rw [r1 m'.node b maxHNW ((hmem _ _ _).2 ⟨m', hm', rfl, hsrc, rfl⟩)]
      obtain ⟨_, h2, _⟩ := hv.legal m' (List.mem_of_mem_drop hm') b hsrc
      rw [← h2]
      symm
      apply applyMoves_other
      intro m'' hm'' hs'' he''
      obtain ⟨i, hi⟩ := List.mem_iff_getElem?.1 hm''
      obtain ⟨j, hj⟩ := List.mem_iff_getElem?.1 hm'
      rw [List.getElem?_take] at hi
      split_ifs at hi with hlt
      rw [List.getElem?_drop] at hj
      have := hv.once i (best + j) m'' m' hi hj hs'' hs he''
      omega
  · have hnot : v ∉ startNodes as := by
      intro hh
      obtain ⟨a, ha, h2⟩ := List.mem_filterMap.1 hh
      cases a with
      | start u d l =>
        simp only [Option.some.injEq] at h2
        subst h2
        obtain ⟨m', h3, h4, h5, _⟩ := (hmem u d l).1 ha
        exact hvs ⟨m', h3, by rw [h5]; simp, h4⟩
      | tick u => simp at h2
      | recompute u => simp at h2
    rw [r2 v hnot, hp]
    conv_lhs => rw [← List.take_append_drop best ms, applyMoves_append]
    apply applyMoves_other
    intro m' hm' hs' he'
    exact hvs ⟨m', hm', hs', he'⟩

/-- the moved flag of nodes that are not started -/
theorem moved_exec {v : Nat} {as : List Act} {s s' : CSt σ} (hn : v ∉ startNodes as) (h : s.moved v = false)
    (he : CSt.exec C H k o s as = some s') : s'.moved v = false := by
  refine neverStarts_spec (fun d l hh => hn ?_) h he
  exact List.mem_filterMap.2 ⟨_, hh, rfl⟩

end
end Rollback
end Verif
