import Verif.Lemmas.DFlow5
/-! # Deterministic flow refinement: rounds -/
namespace Verif
namespace DFlow
open DetLP (Mv moveAll moveAll_other moveAll_mem Fit Good)
open Flow (Env)
open CSt Rollback PHG

variable {σ : Type} {C : ConInfo σ} {c : Cfg} {m mx : Nat}

theorem seqLog_he {H : HG} (hw : H.WF) (A : List Mv) : ∀ {Φ : Assign}, (∀ m ∈ A, m.node ∈ H.nodes) → ∀ u ∈ seqLog H Φ A, u.he ∈ H.edges := by
  induction A with
  | nil => intro Φ _ u hu; simp [seqLog] at hu
  | cons a A ih =>
    intro Φ hA u hu
    rw [seqLog, List.mem_append] at hu
    rcases hu with hu | hu
    · split_ifs at hu with hh
      · simp at hu
      · obtain ⟨e, he, rfl⟩ := List.mem_map.1 hu
        exact ((hw.inc_iff _ (hA a (by simp)) e).1 he).1
    · exact ih (fun m hm => hA m (by simp [hm])) u hu

theorem pushList_he (hw : c.fc.H.WF) {con : σ} {Φ : Assign} {q : QG} {ts : List (Nat × Nat)} (hA : ∀ p ∈ ts, ∀ m ∈ mvOf c Φ q p, m.node ∈ c.fc.H.nodes) :
    ∀ p ∈ pushList C c con Φ q ts, p.2.2 ∈ c.fc.H.edges := by
  intro p hp
  unfold pushList at hp
  obtain ⟨t, ht, hp⟩ := List.mem_flatMap.1 hp
  obtain ⟨r, hr, hp⟩ := List.mem_flatMap.1 hp
  unfold pushesOf at hp
  obtain ⟨b, _, rfl⟩ := List.mem_map.1 hp
  unfold newCuts at hr
  obtain ⟨u, hu, hur⟩ := List.mem_filterMap.1 hr
  split_ifs at hur
  cases hur
  exact seqLog_he hw _ (hA t ht) u hu

theorem eligible_mono {h h' : Sch} {q q' : QG} (ha : h'.active = h.active) (hr : h'.round = h.round) {i j : Nat} (hw : q.weight i j ≤ q'.weight i j)
    (hn : q.nimp i j ≤ q'.nimp i j) (he : eligible c h q i j = true) : eligible c h' q' i j = true := by
  unfold eligible at he ⊢
  rw [ha, hr]
  simp only [Bool.and_eq_true, decide_eq_true_eq, Bool.or_eq_true, Bool.not_eq_true', beq_iff_eq] at he ⊢
  refine ⟨⟨he.1.1, by omega⟩, ?_⟩
  rcases he.2 with h | h | h
  · exact Or.inl h
  · exact Or.inr (Or.inl h)
  · exact Or.inr (Or.inr (by omega))

theorem RInv.mono {h h' : Sch} {q q' : QG} (hI : RInv c h q) (ha : h'.active = h.active) (hr : h'.round = h.round) (hp : h'.pairs = h.pairs)
    (hpt : h'.parts = h.parts) (hd : h'.done = h.done) (hw : ∀ i j, q.weight i j ≤ q'.weight i j) (hn : ∀ i j, q.nimp i j ≤ q'.nimp i j) : RInv c h' q' := by
  refine ⟨?_, ?_, ?_, ?_, ?_⟩
  · rw [hp]; exact hI.sym
  · rw [hp]; exact hI.rng
  · rw [hp]; exact hI.nodup
  · intro b
    unfold openP
    rw [hpt, hp, hd]
    exact hI.parts b
  · intro b b' hb
    rw [hp] at hb
    exact eligible_mono ha hr (hw _ _) (hn _ _) (hI.elig b b' hb)

/-- the weights and improvement counts only grow -/
theorem MatchRes.mono {L : C.Lawful m c.fc.k mx} (E : Env c.fc m mx) (hF : FlowOK c) (hew : ∀ e ∈ c.fc.H.edges, 0 ≤ c.fc.H.ew e) {x y : DSt σ} {ms : List (Nat × Nat)}
    {ch : Choice} (hG : Good L c.fc.H x.s) (hms : IsMatching c.fc.k ms) (h : MatchRes C c L x ms ch y) :
    (∀ i j, x.q.weight i j ≤ y.q.weight i j) ∧ (∀ i j, x.q.nimp i j ≤ y.q.nimp i j) := by
  obtain ⟨r1, r2, r3, r4⟩ := report_fold ch.order (gainOf c x.s.part x.q) (sortCut x.q ch.order)
  have hts := hms.perm h.perm
  have hhe : ∀ p ∈ ch.pushes, p.2.2 ∈ c.fc.H.edges := by
    intro p hp
    refine pushList_he E.wf (fun p hp m hm => ?_) p (h.pushes.subset hp)
    exact (hF p.1 p.2 x.s.part _ (hts.lt p hp).1 (hts.lt p hp).2 (fun v hv => hG.inv.assigned v hv)).mem m hm
  constructor
  · intro i j
    rw [h.q, addAll_weight, r2]
    have : 0 ≤ ((ch.pushes.filter (fun p => decide (i = min p.1 p.2.1 ∧ j = max p.1 p.2.1))).map (fun p => c.fc.H.ew p.2.2)).sum := by
      apply List.sum_nonneg
      intro a ha
      obtain ⟨p, hp, rfl⟩ := List.mem_map.1 ha
      exact hew _ (hhe p (List.mem_filter.1 hp).1)
    have e : (sortCut x.q ch.order).weight i j = x.q.weight i j := rfl
    omega
  · intro i j
    rw [h.q, (addAll_imp _ _ _).1, r3]
    have e : (sortCut x.q ch.order).nimp i j = x.q.nimp i j := rfl
    omega

/-- a round -/
structure RoundRes (C : ConInfo σ) (c : Cfg) (L : C.Lawful m c.fc.k mx) (x : DSt σ) (chs : List Choice) (y : DSt σ) : Prop where
  good : Good L c.fc.H y.s
  inv : RInv c y.h y.q
  nodup : (chs.flatMap Choice.order).Nodup
  mem : ∀ p, p ∈ chs.flatMap Choice.order ↔ p.1 < p.2 ∧ p.2 ∈ x.h.pairs p.1 ∧ x.h.done p.1 p.2 = false
  each : ∀ ch ∈ chs, ch.order ≠ [] ∧ IsMatching c.fc.k ch.order
  obj : c.fc.H.objective y.s.part c.fc.o = c.fc.H.objective x.s.part c.fc.o - (y.delta - x.delta)
  total : y.total = x.total
  round : y.h.round = x.h.round

theorem round_spec {L : C.Lawful m c.fc.k mx} (E : Env c.fc m mx) (hF : FlowOK c) (hew : ∀ e ∈ c.fc.H.edges, 0 ≤ c.fc.H.ew e) (chs : List Choice) :
    ∀ {x y : DSt σ}, Good L c.fc.H x.s → RInv c x.h x.q → roundExec C c x chs = some y → RoundRes C c L x chs y := by
  induction chs with
  | nil =>
    intro x y hG hI he
    rw [roundExec] at he
    split_ifs at he with hn
    injection he with he; subst he
    obtain ⟨n1, n2⟩ := nextMatching_spec hI
    refine ⟨hG, n1, List.nodup_nil, fun p => ?_, fun ch hh => by simp at hh, by simp, rfl, n2.round⟩
    simp only [List.flatMap_nil, List.not_mem_nil, false_iff]
    rintro ⟨h1, h2, h3⟩
    have := nextMatching_nil hI hn p.1 p.2 h2
    rw [Nat.min_eq_left (by omega), Nat.max_eq_right (by omega), h3] at this
    cases this
  | cons ch chs ih =>
    intro x y hG hI he
    rw [roundExec] at he
    split_ifs at he with hn
    obtain ⟨n1, n2⟩ := nextMatching_spec hI
    have hms : IsMatching c.fc.k (nextMatching c x.h x.q).2 := ⟨fun p hp => ⟨(n2.task p hp).1, (n2.task p hp).2.1⟩, n2.disj⟩
    cases hm : matching C c { x with h := (nextMatching c x.h x.q).1 } (nextMatching c x.h x.q).2 ch with
    | none => rw [hm] at he; cases he
    | some z =>
      rw [hm] at he
      simp only [] at he
      have M := matching_spec (x := { x with h := (nextMatching c x.h x.q).1 }) E hF hG hms hm
      obtain ⟨w1, w2⟩ := MatchRes.mono (x := { x with h := (nextMatching c x.h x.q).1 }) E hF hew hG hms M
      obtain ⟨f, _, _, hh⟩ := M.h
      have hzI : RInv c z.h z.q := RInv.mono n1 (by rw [hh]) (by rw [hh]) (by rw [hh]) (by rw [hh]) (by rw [hh]) w1 w2
      have R := ih M.good hzI he
      have hmem : ∀ p, p ∈ ch.order ↔ p ∈ (nextMatching c x.h x.q).2 := fun p => M.perm.mem_iff
      have hpairs : z.h.pairs = x.h.pairs := by rw [hh]; exact n2.pairs
      have hdone : ∀ i j, z.h.done i j = true ↔ x.h.done i j = true ∨ (i, j) ∈ ch.order := by
        intro i j; rw [hh, hmem]; exact n2.done i j
      refine ⟨R.good, R.inv, ?_, ?_, ?_, ?_, ?_, ?_⟩
      · rw [List.flatMap_cons, List.nodup_append]
        refine ⟨(hms.perm M.perm).nodup, R.nodup, ?_⟩
        rintro p hp _ hq rfl
        have h3 := ((R.mem p).1 hq).2.2
        rw [(hdone p.1 p.2).2 (Or.inr hp)] at h3
        cases h3
      · intro p
        rw [List.flatMap_cons, List.mem_append, R.mem, hpairs]
        have hd := hdone p.1 p.2
        constructor
        · rintro (hp | ⟨h1, h2, h3⟩)
          · obtain ⟨t1, _, t3, t4⟩ := n2.task p ((hmem p).1 hp)
            exact ⟨t1, t3, t4⟩
          · refine ⟨h1, h2, ?_⟩
            rw [Bool.eq_false_iff] at h3 ⊢
            exact fun hx => h3 (hd.2 (Or.inl hx))
        · rintro ⟨h1, h2, h3⟩
          by_cases hp : p ∈ ch.order
          · exact Or.inl hp
          · refine Or.inr ⟨h1, h2, ?_⟩
            rw [Bool.eq_false_iff]
            intro hx
            rcases hd.1 hx with hx | hx
            · rw [h3] at hx; cases hx
            · exact hp hx
      · intro ch' hc
        rcases List.mem_cons.1 hc with rfl | hc
        · exact ⟨fun h0 => hn (List.nil_perm.1 (h0 ▸ M.perm)), hms.perm M.perm⟩
        · exact R.each ch' hc
      · rw [R.obj, M.obj, M.delta]; simp only []; omega
      · rw [R.total, M.total]
      · rw [R.round, hh]; exact n2.round

/-! ### Improving and balanced moves -/

/-- the moves computed for a pair never make the objective worse, if they are performed alone -/
def Improving (c : Cfg) : Prop := ∀ i j Φ es, i < j → j < c.fc.k → (∀ v ∈ c.fc.H.nodes, ∃ b, b < c.fc.k ∧ Φ v = some b) →
  c.fc.H.objective (moveAll Φ (c.flow i j Φ es)) c.fc.o ≤ c.fc.H.objective Φ c.fc.o

/-- the moves computed for a pair respect the maximum block weights, if they are performed alone -/
def Balanced (c : Cfg) (limit : Nat → Int) : Prop := ∀ i j Φ es, i < j → j < c.fc.k → (∀ v ∈ c.fc.H.nodes, ∃ b, b < c.fc.k ∧ Φ v = some b) →
  ∀ b, b = i ∨ b = j → c.fc.H.blockWeight (moveAll Φ (c.flow i j Φ es)) b ≤ max (c.fc.H.blockWeight Φ b) (limit b)

theorem blockWeight_ext {H : HG} {Φ Ψ : Assign} {b : Nat} (h : ∀ v ∈ H.nodes, Φ v = some b ↔ Ψ v = some b) : H.blockWeight Φ b = H.blockWeight Ψ b := by
  unfold HG.blockWeight
  congr 2
  refine List.filter_congr (fun v hv => ?_)
  have := h v hv
  by_cases hh : Φ v = some b
  · rw [decide_eq_true hh, decide_eq_true (this.1 hh)]
  · rw [decide_eq_false hh, decide_eq_false (fun hx => hh (this.2 hx))]

theorem mvOf_ok (hF : FlowOK c) {ts : List (Nat × Nat)} (hts : IsMatching c.fc.k ts) {Φ : Assign} (q : QG)
    (hΦ : ∀ v ∈ c.fc.H.nodes, ∃ b, b < c.fc.k ∧ Φ v = some b) {p : Nat × Nat} (hp : p ∈ ts) : TaskOK c.fc.H Φ p.1 p.2 (mvOf c Φ q p) :=
  hF _ _ _ _ (hts.lt p hp).1 (hts.lt p hp).2 hΦ

theorem mvOf_nodup (hF : FlowOK c) {ts : List (Nat × Nat)} (hts : IsMatching c.fc.k ts) {Φ : Assign} (q : QG)
    (hΦ : ∀ v ∈ c.fc.H.nodes, ∃ b, b < c.fc.k ∧ Φ v = some b) : ((ts.flatMap (mvOf c Φ q)).map Mv.node).Nodup := by
  have T := hts.tasks hF q hΦ
  have := allMoves_nodup T
  have e : allMoves (movesOf c Φ q ts) ts.length = ts.flatMap (mvOf c Φ q) := flatMap_range_get _ _ _ (fun t ht => movesOf_get ht)
  rwa [e] at this

/-- the moves of the other pairs do not matter for a block -/
theorem blockWeight_own (hF : FlowOK c) {ts : List (Nat × Nat)} (hts : IsMatching c.fc.k ts) {Φ : Assign} (q : QG)
    (hΦ : ∀ v ∈ c.fc.H.nodes, ∃ b, b < c.fc.k ∧ Φ v = some b) {b : Nat} :
    (∀ p ∈ ts, b = p.1 ∨ b = p.2 → c.fc.H.blockWeight (moveAll Φ (ts.flatMap (mvOf c Φ q))) b = c.fc.H.blockWeight (moveAll Φ (mvOf c Φ q p)) b) ∧
    ((∀ p ∈ ts, b ≠ p.1 ∧ b ≠ p.2) → c.fc.H.blockWeight (moveAll Φ (ts.flatMap (mvOf c Φ q))) b = c.fc.H.blockWeight Φ b) := by
  have hn := mvOf_nodup hF hts q hΦ
  have hpd : ∀ p ∈ ts, ∀ p' ∈ ts, p ≠ p' → Disj p p' := by
    intro p hp p' hp' hne
    obtain ⟨t, ht, rfl⟩ := List.mem_iff_getElem.1 hp
    obtain ⟨t', ht', rfl⟩ := List.mem_iff_getElem.1 hp'
    have hP := List.pairwise_iff_getElem.1 hts.disj
    rcases Nat.lt_trichotomy t t' with hlt | heq | hlt
    · exact hP t t' ht ht' hlt
    · subst heq; exact absurd rfl hne
    · have := hP t' t ht' ht hlt
      exact ⟨Ne.symm this.1, Ne.symm this.2.2.1, Ne.symm this.2.1, Ne.symm this.2.2.2⟩
  have key : ∀ p' ∈ ts, (b ≠ p'.1 ∧ b ≠ p'.2) → ∀ mv ∈ mvOf c Φ q p', moveAll Φ (ts.flatMap (mvOf c Φ q)) mv.node ≠ some b ∧ Φ mv.node ≠ some b := by
    intro p' hp' hb mv hmv
    have ok := mvOf_ok hF hts q hΦ hp'
    refine ⟨?_, ?_⟩
    · rw [moveAll_mem _ hn mv (List.mem_flatMap.2 ⟨p', hp', hmv⟩)]
      intro hh; cases hh
      rcases ok.dst mv hmv with h | h
      · exact hb.1 h
      · exact hb.2 h
    · rw [(ok.src mv hmv).1]
      intro hh; cases hh
      rcases (ok.src mv hmv).2 with h | h
      · exact hb.1 h
      · exact hb.2 h
  constructor
  · intro p hp hb
    apply blockWeight_ext
    intro v hv
    by_cases h1 : v ∈ (mvOf c Φ q p).map Mv.node
    · obtain ⟨mv, hmv, rfl⟩ := List.mem_map.1 h1
      rw [moveAll_mem _ hn mv (List.mem_flatMap.2 ⟨p, hp, hmv⟩), moveAll_mem _ (mvOf_ok hF hts q hΦ hp).nodup mv hmv]
    · rw [moveAll_other (mvOf c Φ q p) h1]
      by_cases h2 : v ∈ (ts.flatMap (mvOf c Φ q)).map Mv.node
      · obtain ⟨mv, hmv, rfl⟩ := List.mem_map.1 h2
        obtain ⟨p', hp', hmv⟩ := List.mem_flatMap.1 hmv
        have hne : p ≠ p' := by rintro rfl; exact h1 (List.mem_map.2 ⟨mv, hmv, rfl⟩)
        have hd := hpd p hp p' hp' hne
        have := key p' hp' (by rcases hb with rfl | rfl; exacts [⟨hd.1, hd.2.1⟩, ⟨hd.2.2.1, hd.2.2.2⟩]) mv hmv
        exact ⟨fun hh => absurd hh this.1, fun hh => absurd hh this.2⟩
      · rw [moveAll_other _ h2]
  · intro hb
    apply blockWeight_ext
    intro v hv
    by_cases h2 : v ∈ (ts.flatMap (mvOf c Φ q)).map Mv.node
    · obtain ⟨mv, hmv, rfl⟩ := List.mem_map.1 h2
      obtain ⟨p', hp', hmv⟩ := List.mem_flatMap.1 hmv
      have := key p' hp' (hb p' hp') mv hmv
      exact ⟨fun hh => absurd hh this.1, fun hh => absurd hh this.2⟩
    · rw [moveAll_other _ h2]

theorem MatchRes.balanced {L : C.Lawful m c.fc.k mx} (hF : FlowOK c) {limit : Nat → Int} (hB : Balanced c limit) {x y : DSt σ} {ms : List (Nat × Nat)}
    {ch : Choice} (hG : Good L c.fc.H x.s) (hms : IsMatching c.fc.k ms) (h : MatchRes C c L x ms ch y) (b : Nat) :
    c.fc.H.blockWeight y.s.part b ≤ max (c.fc.H.blockWeight x.s.part b) (limit b) := by
  have hts := hms.perm h.perm
  have hΦ : ∀ v ∈ c.fc.H.nodes, ∃ b, b < c.fc.k ∧ x.s.part v = some b := fun v hv => hG.inv.assigned v hv
  obtain ⟨o1, o2⟩ := blockWeight_own (b := b) hF hts x.q hΦ
  rw [h.part]
  by_cases hb : ∃ p ∈ ch.order, b = p.1 ∨ b = p.2
  · obtain ⟨p, hp, hb⟩ := hb
    rw [o1 p hp hb]
    exact hB p.1 p.2 _ _ (hts.lt p hp).1 (hts.lt p hp).2 hΦ b hb
  · rw [o2 (fun p hp => ⟨fun hh => hb ⟨p, hp, Or.inl hh⟩, fun hh => hb ⟨p, hp, Or.inr hh⟩⟩)]
    exact le_max_left _ _

theorem MatchRes.improving {L : C.Lawful m c.fc.k mx} (hM : Improving c) {x y : DSt σ} {ms : List (Nat × Nat)}
    {ch : Choice} (hG : Good L c.fc.H x.s) (hms : IsMatching c.fc.k ms) (h : MatchRes C c L x ms ch y) :
    x.delta ≤ y.delta ∧ ∀ b, y.h.next b = true → x.h.next b = true ∨ x.delta < y.delta := by
  have hts := hms.perm h.perm
  have hΦ : ∀ v ∈ c.fc.H.nodes, ∃ b, b < c.fc.k ∧ x.s.part v = some b := fun v hv => hG.inv.assigned v hv
  have hg : ∀ p ∈ ch.order, 0 ≤ gainOf c x.s.part x.q p := by
    intro p hp
    have := hM p.1 p.2 x.s.part ((x.q.cut p.1 p.2).insertionSort (· ≤ ·)) (hts.lt p hp).1 (hts.lt p hp).2 hΦ
    unfold gainOf mvOf
    omega
  have hs : 0 ≤ (ch.order.map (gainOf c x.s.part x.q)).sum := by
    apply List.sum_nonneg
    intro a ha
    obtain ⟨p, hp, rfl⟩ := List.mem_map.1 ha
    exact hg p hp
  rw [h.delta]
  refine ⟨by omega, fun b hb => ?_⟩
  obtain ⟨f, h1, h2, h3⟩ := h.h
  rw [h3] at hb
  rcases flags_sound h1 hb with hb | ⟨p, hp, hpos, _⟩
  · exact Or.inl hb
  · right
    have : gainOf c x.s.part x.q p ≤ (ch.order.map (gainOf c x.s.part x.q)).sum := by
      apply List.single_le_sum _ _ (List.mem_map.2 ⟨p, hp, rfl⟩)
      intro a ha
      obtain ⟨p, hp, rfl⟩ := List.mem_map.1 ha
      exact hg p hp
    omega

/-- a property of consecutive matchings holds for a round -/
theorem round_rel {L : C.Lawful m c.fc.k mx} (E : Env c.fc m mx) (hF : FlowOK c) (hew : ∀ e ∈ c.fc.H.edges, 0 ≤ c.fc.H.ew e) (Rel : DSt σ → DSt σ → Prop)
    (hrefl : ∀ x x' : DSt σ, x'.s = x.s → x'.delta = x.delta → x'.h.next = x.h.next → Rel x x') (htrans : ∀ x y z, Rel x y → Rel y z → Rel x z)
    (hstep : ∀ x y ms ch, Good L c.fc.H x.s → IsMatching c.fc.k ms → MatchRes C c L x ms ch y → Rel x y) (chs : List Choice) :
    ∀ {x y : DSt σ}, Good L c.fc.H x.s → RInv c x.h x.q → roundExec C c x chs = some y → Rel x y := by
  induction chs with
  | nil =>
    intro x y hG hI he
    rw [roundExec] at he
    split_ifs at he with hn
    injection he with he; subst he
    exact hrefl _ _ rfl rfl (nextMatching_spec hI).2.next
  | cons ch chs ih =>
    intro x y hG hI he
    rw [roundExec] at he
    split_ifs at he with hn
    obtain ⟨n1, n2⟩ := nextMatching_spec hI
    have hms : IsMatching c.fc.k (nextMatching c x.h x.q).2 := ⟨fun p hp => ⟨(n2.task p hp).1, (n2.task p hp).2.1⟩, n2.disj⟩
    cases hm : matching C c { x with h := (nextMatching c x.h x.q).1 } (nextMatching c x.h x.q).2 ch with
    | none => rw [hm] at he; cases he
    | some z =>
      rw [hm] at he
      simp only [] at he
      have M := matching_spec (x := { x with h := (nextMatching c x.h x.q).1 }) E hF hG hms hm
      obtain ⟨w1, w2⟩ := MatchRes.mono (x := { x with h := (nextMatching c x.h x.q).1 }) E hF hew hG hms M
      obtain ⟨f, _, _, hh⟩ := M.h
      have hzI : RInv c z.h z.q := RInv.mono n1 (by rw [hh]) (by rw [hh]) (by rw [hh]) (by rw [hh]) (by rw [hh]) w1 w2
      exact htrans _ _ _ (htrans _ _ _ (hrefl x { x with h := (nextMatching c x.h x.q).1 } rfl rfl n2.next) (hstep { x with h := (nextMatching c x.h x.q).1 } z _ ch hG hms M)) (ih M.good hzI he)

/-- the objective is not negative if no hyperedge is empty -/
theorem objective_nonneg {H : HG} (hew : ∀ e ∈ H.edges, 0 ≤ H.ew e) (hne : ∀ e ∈ H.edges, H.pins e ≠ []) {Φ : Assign}
    (hw : H.WF) (hall : ∀ v ∈ H.nodes, Φ v ≠ none) (o : Metrics.Obj) : 0 ≤ H.objective Φ o := by
  have hpos : ∀ e ∈ H.edges, 0 < H.lam Φ e := by
    intro e he
    obtain ⟨v, hv⟩ := List.exists_mem_of_ne_nil _ (hne e he)
    exact HG.lam_pos hv (hall v (hw.pins_mem e he v hv))
  cases o with
  | cut =>
    apply List.sum_nonneg
    intro a ha
    obtain ⟨e, he, rfl⟩ := List.mem_map.1 ha
    have := hew e he
    split_ifs <;> omega
  | km1 =>
    apply List.sum_nonneg
    intro a ha
    obtain ⟨e, he, rfl⟩ := List.mem_map.1 ha
    have := hpos e he
    exact mul_nonneg (by omega) (hew e he)
  | soed =>
    apply List.sum_nonneg
    intro a ha
    obtain ⟨e, he, rfl⟩ := List.mem_map.1 ha
    split_ifs
    · exact mul_nonneg (by omega) (hew e he)
    · omega

end DFlow
end Verif
