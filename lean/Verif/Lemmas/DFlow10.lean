import Verif.Lemmas.DFlow9
/-! # Deterministic flow refinement: the quotient graph lists all cut hyperedges -/
namespace Verif
namespace DFlow
open DetLP (Mv moveAll moveAll_other moveAll_mem Fit Good)
open Flow (Env)
open CSt Rollback PHG

variable {σ : Type} {C : ConInfo σ} {c : Cfg} {m mx : Nat} {L : C.Lawful m c.fc.k mx}

/-- a block that gets its first pin is reported -/
theorem seqLog_born {H : HG} (hw : H.WF) {e b : Nat} (he : e ∈ H.edges) (A : List Mv) : ∀ {Φ : Assign}, (A.map Mv.node).Nodup → (∀ m ∈ A, m.node ∈ H.nodes) →
    (∀ m ∈ A, Φ m.node = some m.src) → H.pinsIn Φ e b = 0 → 0 < H.pinsIn (moveAll Φ A) e b → (e, b) ∈ newCuts (seqLog H Φ A) := by
  induction A with
  | nil => intro Φ _ _ _ h0 h1; exact absurd h1 (by rw [show moveAll Φ [] = Φ from rfl, h0]; omega)
  | cons a A ih =>
    intro Φ hn hm hs h0 h1
    have hn' := List.nodup_cons.1 (by simpa using hn : (a.node :: A.map Mv.node).Nodup)
    have hs' : ∀ mv ∈ A, (Φ.put a.node a.dst) mv.node = some mv.src := by
      intro mv hmv
      have : mv.node ≠ a.node := fun hh => hn'.1 (hh ▸ List.mem_map.2 ⟨mv, hmv, rfl⟩)
      rw [Assign.put_other Φ this]; exact hs mv (by simp [hmv])
    have e1 : newCuts (seqLog H Φ (a :: A)) =
        newCuts (if a.src = a.dst then [] else (H.inc a.node).map (fun e => H.mkUpdate Φ e a.node a.src a.dst)) ++ newCuts (seqLog H (Φ.put a.node a.dst) A) := by
      rw [seqLog, newCuts, List.filterMap_append]; rfl
    rw [e1, List.mem_append]
    by_cases hz : H.pinsIn (Φ.put a.node a.dst) e b = 0
    · exact Or.inr (ih hn'.2 (fun mv h => hm mv (by simp [h])) hs' hz h1)
    · left
      have hpin : a.node ∈ H.pins e := by
        by_contra hh
        rw [HG.pinsIn_put_notMem hh] at hz; exact hz h0
      have hc := HG.pinsIn_put_mem (Φ := Φ) (u := a.node) (b := a.dst) (c := b) (hw.pins_nodup e he) hpin
      have hdst : b = a.dst := by
        by_contra hh
        rw [if_neg hh] at hc; omega
      rw [if_pos hdst] at hc
      have hno : ¬ Φ a.node = some b := by
        intro hh
        rw [if_pos hh] at hc; omega
      rw [if_neg hno] at hc
      have hsd : a.src ≠ a.dst := by
        intro hh
        exact hno (by rw [hs a (by simp), hh, hdst])
      rw [if_neg hsd, newCuts, List.mem_filterMap]
      refine ⟨H.mkUpdate Φ e a.node a.src a.dst, List.mem_map.2 ⟨e, (hw.inc_iff a.node (hm a (by simp)) e).2 ⟨he, hpin⟩, rfl⟩, ?_⟩
      have : (H.mkUpdate Φ e a.node a.src a.dst).dstAfter = 1 := by
        show H.pinsIn (Φ.put a.node a.dst) e a.dst = 1
        rw [← hdst] at hc ⊢; omega
      rw [if_pos this]
      simp [HG.mkUpdate, hdst]

/-- the pins in a block only depend on the moves of the pair with this block -/
theorem pinsIn_own (hF : FlowOK c) {ts : List (Nat × Nat)} (hts : IsMatching c.fc.k ts) {Φ : Assign} (q : QG)
    (hΦ : ∀ v ∈ c.fc.H.nodes, ∃ b, b < c.fc.k ∧ Φ v = some b) {b : Nat} {e : Nat} :
    (∀ p ∈ ts, b = p.1 ∨ b = p.2 → c.fc.H.pinsIn (moveAll Φ (ts.flatMap (mvOf c Φ q))) e b = c.fc.H.pinsIn (moveAll Φ (mvOf c Φ q p)) e b) ∧
    ((∀ p ∈ ts, b ≠ p.1 ∧ b ≠ p.2) → c.fc.H.pinsIn (moveAll Φ (ts.flatMap (mvOf c Φ q))) e b = c.fc.H.pinsIn Φ e b) := by
  have hn := mvOf_nodup hF hts q hΦ
  have hpd : ∀ p ∈ ts, ∀ p' ∈ ts, p ≠ p' → Disj p p' := by
    intro p hp p' hp' hne
    obtain ⟨t, ht, rfl⟩ := List.mem_iff_getElem.1 hp
    obtain ⟨t', ht', rfl⟩ := List.mem_iff_getElem.1 hp'
    have hP := List.pairwise_iff_getElem.1 hts.disj
    rcases Nat.lt_trichotomy t t' with hlt | heq | hlt
    · exact hP t t' ht ht' hlt
    · subst heq; exact absurd rfl hne
    · have := hP t' t ht' ht hlt
      exact ⟨Ne.symm this.1, Ne.symm this.2.2.1, Ne.symm this.2.1, Ne.symm this.2.2.2⟩
  have key : ∀ p' ∈ ts, (b ≠ p'.1 ∧ b ≠ p'.2) → ∀ mv ∈ mvOf c Φ q p', moveAll Φ (ts.flatMap (mvOf c Φ q)) mv.node ≠ some b ∧ Φ mv.node ≠ some b := by
    intro p' hp' hb mv hmv
    have ok := mvOf_ok hF hts q hΦ hp'
    refine ⟨?_, ?_⟩
    · rw [moveAll_mem _ hn mv (List.mem_flatMap.2 ⟨p', hp', hmv⟩)]
      intro hh; cases hh
      rcases ok.dst mv hmv with h | h
      · exact hb.1 h
      · exact hb.2 h
    · rw [(ok.src mv hmv).1]
      intro hh; cases hh
      rcases (ok.src mv hmv).2 with h | h
      · exact hb.1 h
      · exact hb.2 h
  constructor
  · intro p hp hb
    apply pinsIn_pt
    intro v hv
    by_cases h1 : v ∈ (mvOf c Φ q p).map Mv.node
    · obtain ⟨mv, hmv, rfl⟩ := List.mem_map.1 h1
      rw [moveAll_mem _ hn mv (List.mem_flatMap.2 ⟨p, hp, hmv⟩), moveAll_mem _ (mvOf_ok hF hts q hΦ hp).nodup mv hmv]
    · rw [moveAll_other (mvOf c Φ q p) h1]
      by_cases h2 : v ∈ (ts.flatMap (mvOf c Φ q)).map Mv.node
      · obtain ⟨mv, hmv, rfl⟩ := List.mem_map.1 h2
        obtain ⟨p', hp', hmv⟩ := List.mem_flatMap.1 hmv
        have hne : p ≠ p' := by rintro rfl; exact h1 (List.mem_map.2 ⟨mv, hmv, rfl⟩)
        have hd := hpd p hp p' hp' hne
        have := key p' hp' (by rcases hb with rfl | rfl; exacts [⟨hd.1, hd.2.1⟩, ⟨hd.2.2.1, hd.2.2.2⟩]) mv hmv
        exact ⟨fun hh => absurd hh this.1, fun hh => absurd hh this.2⟩
      · rw [moveAll_other _ h2]
  · intro hb
    apply pinsIn_pt
    intro v hv
    by_cases h2 : v ∈ (ts.flatMap (mvOf c Φ q)).map Mv.node
    · obtain ⟨mv, hmv, rfl⟩ := List.mem_map.1 h2
      obtain ⟨p', hp', hmv⟩ := List.mem_flatMap.1 hmv
      have := key p' hp' (hb p' hp') mv hmv
      exact ⟨fun hh => absurd hh this.1, fun hh => absurd hh this.2⟩
    · rw [moveAll_other _ h2]

/-- every hyperedge between two blocks is listed; the weight of a pair is the sum over the listed hyperedges -/
structure QInv (c : Cfg) (Φ : Assign) (q : QG) : Prop where
  listed : ∀ e ∈ c.fc.H.edges, ∀ i j, i < j → j < c.fc.k → 0 < c.fc.H.pinsIn Φ e i → 0 < c.fc.H.pinsIn Φ e j → e ∈ q.cut i j
  weight : ∀ i j, q.weight i j = ((q.cut i j).map c.fc.H.ew).sum
  mem : ∀ i j, ∀ e ∈ q.cut i j, e ∈ c.fc.H.edges

theorem connSet_iff (E : Env c.fc m mx) {s : CSt σ} (hG : Good L c.fc.H s) {e : Nat} (he : e ∈ c.fc.H.edges) {b : Nat} :
    b ∈ C.connSet s.con e ↔ b < c.fc.k ∧ 0 < c.fc.H.pinsIn s.part e b := by
  obtain ⟨T, r1, r2⟩ := (quiescent_sim E.wf hG.inv hG.wt hG.quiet).con
  rw [L.connSet_mem r1 (E.fits e he).1 b]
  constructor
  · rintro ⟨h1, h2⟩
    exact ⟨h1, lt_of_lt_of_eq h2 (r2 e he b h1)⟩
  · rintro ⟨h1, h2⟩
    exact ⟨h1, lt_of_lt_of_eq h2 (r2 e he b h1).symm⟩

theorem QInv.start (E : Env c.fc m mx) {s : CSt σ} (hG : Good L c.fc.H s) (q0 : QG) (h0 : Sch) {order : List (Nat × Nat × Nat)}
    (ho : order.Perm (c.fc.H.edges.flatMap (initPushes C s.con))) : QInv c s.part (start C c s q0 h0 order).q := by
  refine ⟨fun e he i j hij hj hi' hj' => ?_, fun i j => ?_, fun i j e h => ?_⟩
  · show e ∈ (addAll _ _ _).cut i j
    rw [addAll_cut, List.mem_append]; right
    refine List.mem_map.2 ⟨(i, j, e), List.mem_filter.2 ⟨ho.mem_iff.2 (List.mem_flatMap.2 ⟨e, he, ?_⟩), ?_⟩, rfl⟩
    · unfold initPushes
      exact List.mem_flatMap.2 ⟨i, (connSet_iff E hG he).2 ⟨by omega, hi'⟩,
        List.mem_map.2 ⟨j, List.mem_filter.2 ⟨(connSet_iff E hG he).2 ⟨hj, hj'⟩, decide_eq_true hij⟩, rfl⟩⟩
    · simp only [decide_eq_true_eq]; omega
  · show (addAll _ _ _).weight i j = (((addAll _ _ _).cut i j).map _).sum
    rw [addAll_cut, addAll_weight]; simp [List.map_map, Function.comp_def]
  · change e ∈ (addAll _ _ _).cut i j at h
    rw [addAll_cut] at h
    simp only [List.nil_append, List.mem_map] at h
    obtain ⟨p, hp, rfl⟩ := h
    obtain ⟨e, he, h⟩ := List.mem_flatMap.1 (ho.mem_iff.1 (List.mem_filter.1 hp).1)
    unfold initPushes at h
    obtain ⟨_, _, h⟩ := List.mem_flatMap.1 h
    obtain ⟨_, _, rfl⟩ := List.mem_map.1 h
    exact he

theorem QInv.matching (E : Env c.fc m mx) (hF : FlowOK c) {x y : DSt σ} {ms : List (Nat × Nat)} {ch : Choice} (hG : Good L c.fc.H x.s)
    (hms : IsMatching c.fc.k ms) (h : QInv c x.s.part x.q) (M : MatchRes C c L x ms ch y) : QInv c y.s.part y.q := by
  have hts := hms.perm M.perm
  have hΦ : ∀ v ∈ c.fc.H.nodes, ∃ b, b < c.fc.k ∧ x.s.part v = some b := fun v hv => hG.inv.assigned v hv
  obtain ⟨a1, a2, _, _⟩ := report_fold ch.order (gainOf c x.s.part x.q) (sortCut x.q ch.order)
  have hcut : ∀ i j, y.q.cut i j = (sortCut x.q ch.order).cut i j ++
      (ch.pushes.filter (fun p => decide (i = min p.1 p.2.1 ∧ j = max p.1 p.2.1))).map (fun p => p.2.2) := by
    intro i j; rw [M.q, addAll_cut, a1]
  have hsort : ∀ i j, ((sortCut x.q ch.order).cut i j).Perm (x.q.cut i j) := by
    intro i j
    show (if (i, j) ∈ ch.order then (x.q.cut i j).insertionSort (· ≤ ·) else x.q.cut i j).Perm _
    split_ifs
    · exact List.perm_insertionSort _ _
    · exact List.Perm.refl _
  have hpe := pushList_he (C := C) E.wf (con := y.s.con) (q := x.q) (fun p hp mv hmv => (mvOf_ok hF hts x.q hΦ hp).mem mv hmv)
  have hborn : ∀ e ∈ c.fc.H.edges, ∀ b b', b < c.fc.k → b' < c.fc.k → b ≠ b' → 0 < c.fc.H.pinsIn y.s.part e b → 0 < c.fc.H.pinsIn y.s.part e b' →
      c.fc.H.pinsIn x.s.part e b = 0 → (b, b', e) ∈ ch.pushes := by
    intro e he b b' hb hb' hne h1 h2 h0
    rw [M.pushes.mem_iff, pushList]
    have h1' := h1
    rw [M.part] at h1'
    by_cases hex : ∃ p ∈ ch.order, b = p.1 ∨ b = p.2
    · obtain ⟨p, hp, hbp⟩ := hex
      rw [(pinsIn_own hF hts x.q hΦ).1 p hp hbp] at h1'
      have ok := mvOf_ok hF hts x.q hΦ hp
      have hmem := seqLog_born E.wf he _ ok.nodup ok.mem (fun mv hmv => (ok.src mv hmv).1) h0 h1'
      refine List.mem_flatMap.2 ⟨p, hp, List.mem_flatMap.2 ⟨(e, b), hmem, ?_⟩⟩
      unfold pushesOf
      exact List.mem_map.2 ⟨b', List.mem_filter.2 ⟨(connSet_iff E M.good he).2 ⟨hb', h2⟩, decide_eq_true (Ne.symm hne)⟩, rfl⟩
    · rw [(pinsIn_own hF hts x.q hΦ).2 (fun p hp => ⟨fun hh => hex ⟨p, hp, Or.inl hh⟩, fun hh => hex ⟨p, hp, Or.inr hh⟩⟩)] at h1'
      omega
  refine ⟨fun e he i j hij hj hi' hj' => ?_, fun i j => ?_, fun i j e hm => ?_⟩
  · rw [hcut, List.mem_append]
    by_cases hi0 : c.fc.H.pinsIn x.s.part e i = 0
    · right
      exact List.mem_map.2 ⟨_, List.mem_filter.2 ⟨hborn e he i j (by omega) hj (by omega) hi' hj' hi0, by simp only [decide_eq_true_eq]; omega⟩, rfl⟩
    · by_cases hj0 : c.fc.H.pinsIn x.s.part e j = 0
      · right
        exact List.mem_map.2 ⟨_, List.mem_filter.2 ⟨hborn e he j i hj (by omega) (by omega) hj' hi' hj0, by simp only [decide_eq_true_eq]; omega⟩, rfl⟩
      · left
        rw [(hsort i j).mem_iff]
        exact h.listed e he i j hij hj (by omega) (by omega)
  · rw [M.q, addAll_weight, addAll_cut, a1, a2, List.map_append, List.sum_append, ((hsort i j).map _).sum_eq, ← h.weight, List.map_map]
    rfl
  · rw [hcut, List.mem_append] at hm
    rcases hm with hm | hm
    · exact h.mem i j e ((hsort i j).mem_iff.1 hm)
    · obtain ⟨p, hp, rfl⟩ := List.mem_map.1 hm
      exact hpe p (M.pushes.mem_iff.1 (List.mem_filter.1 hp).1)

theorem QInv.round (E : Env c.fc m mx) (hF : FlowOK c) (hew : ∀ e ∈ c.fc.H.edges, 0 ≤ c.fc.H.ew e) (chs : List Choice) :
    ∀ {x y : DSt σ}, Good L c.fc.H x.s → RInv c x.h x.q → QInv c x.s.part x.q → roundExec C c x chs = some y → QInv c y.s.part y.q := by
  induction chs with
  | nil =>
    intro x y hG hI hQ he
    rw [roundExec] at he
    split_ifs at he with hn
    injection he with he; subst he
    exact hQ
  | cons ch chs ih =>
    intro x y hG hI hQ he
    rw [roundExec] at he
    split_ifs at he with hn
    obtain ⟨n1, n2⟩ := nextMatching_spec hI
    have hms : IsMatching c.fc.k (nextMatching c x.h x.q).2 := ⟨fun p hp => ⟨(n2.task p hp).1, (n2.task p hp).2.1⟩, n2.disj⟩
    cases hm : DFlow.matching C c { x with h := (nextMatching c x.h x.q).1 } (nextMatching c x.h x.q).2 ch with
    | none => rw [hm] at he; cases he
    | some z =>
      rw [hm] at he
      simp only [] at he
      have M := matching_spec (x := { x with h := (nextMatching c x.h x.q).1 }) E hF hG hms hm
      obtain ⟨w1, w2⟩ := MatchRes.mono (x := { x with h := (nextMatching c x.h x.q).1 }) E hF hew hG hms M
      obtain ⟨f, _, _, hh⟩ := M.h
      have hzI : RInv c z.h z.q := RInv.mono n1 (by rw [hh]) (by rw [hh]) (by rw [hh]) (by rw [hh]) (by rw [hh]) w1 w2
      exact ih M.good hzI (QInv.matching (x := { x with h := (nextMatching c x.h x.q).1 }) E hF hG hms hQ M) he

theorem QInv.reached (E : Env c.fc m mx) (hF : FlowOK c) (hew : ∀ e ∈ c.fc.H.edges, 0 ≤ c.fc.H.ew e) {x0 x : DSt σ} {n : Nat} (h : Fresh C c L x0)
    (hQ : QInv c x0.s.part x0.q) (hr : RoundStart C c x0 n x) : QInv c x.s.part x.q := by
  induction hr with
  | first => exact hQ
  | @next n x y r hr he ih =>
    have hf := h.reached E hF hew hr
    exact QInv.round E hF hew _ (x := { x with delta := 0 }) (y := y) hf.good hf.inv ih he

theorem sum_filter_le {β : Type} (l : List β) (P : β → Bool) (w : β → Int) (h : ∀ a ∈ l, 0 ≤ w a) : ((l.filter P).map w).sum ≤ (l.map w).sum := by
  induction l with
  | nil => simp
  | cons a l ih =>
    have := ih (fun b hb => h b (by simp [hb]))
    have ha := h a (by simp)
    rw [List.filter_cons]
    split_ifs <;> simp only [List.map_cons, List.sum_cons] <;> omega

theorem sum_subset_le (ed : List Nat) (w : Nat → Int) : ∀ (l : List Nat), ed.Nodup → (∀ e ∈ ed, e ∈ l) → (∀ e ∈ l, 0 ≤ w e) →
    (ed.map w).sum ≤ (l.map w).sum := by
  induction ed with
  | nil => intro l _ _ h; simp only [List.map_nil, List.sum_nil]
           exact List.sum_nonneg (fun a ha => by obtain ⟨e, he, rfl⟩ := List.mem_map.1 ha; exact h e he)
  | cons e ed ih =>
    intro l hn hs h
    have hn' := List.nodup_cons.1 hn
    have hp := (List.perm_cons_erase (hs e (by simp))).map w
    rw [hp.sum_eq, List.map_cons, List.sum_cons, List.map_cons, List.sum_cons]
    have := ih (l.erase e) hn'.2 (fun a ha => (List.mem_erase_of_ne (fun hh => by subst hh; exact hn'.1 ha)).2 (hs a (by simp [ha])))
      (fun a ha => h a (List.mem_of_mem_erase ha))
    omega

/-- the recorded weight of a pair is at least the weight of the hyperedges between the two blocks -/
theorem QInv.weight_ge (E : Env c.fc m mx) (hew : ∀ e ∈ c.fc.H.edges, 0 ≤ c.fc.H.ew e) {Φ : Assign} {q : QG} (h : QInv c Φ q) {i j : Nat} (hij : i < j) (hj : j < c.fc.k) :
    (c.fc.H.edges.map (fun e => if 0 < c.fc.H.pinsIn Φ e i ∧ 0 < c.fc.H.pinsIn Φ e j then c.fc.H.ew e else 0)).sum ≤ q.weight i j := by
  rw [h.weight]
  have e1 : ∀ l : List Nat, (l.map (fun e => if 0 < c.fc.H.pinsIn Φ e i ∧ 0 < c.fc.H.pinsIn Φ e j then c.fc.H.ew e else 0)).sum =
      ((l.filter (fun e => decide (0 < c.fc.H.pinsIn Φ e i ∧ 0 < c.fc.H.pinsIn Φ e j))).map c.fc.H.ew).sum := by
    intro l
    induction l with
    | nil => rfl
    | cons e l ih =>
      rw [List.map_cons, List.sum_cons, ih, List.filter_cons]
      by_cases hc : 0 < c.fc.H.pinsIn Φ e i ∧ 0 < c.fc.H.pinsIn Φ e j
      · rw [if_pos hc, if_pos (by simpa using hc)]; simp
      · rw [if_neg hc, if_neg (by simpa using hc)]; simp
  rw [e1]
  apply sum_subset_le
  · exact E.wf.edges_nodup.filter _
  · intro e he
    obtain ⟨h1, h2⟩ := List.mem_filter.1 he
    obtain ⟨h3, h4⟩ := of_decide_eq_true h2
    exact h.listed e h1 i j hij hj h3 h4
  · exact fun e he => hew e (h.mem i j e he)

end DFlow
end Verif
