import Verif.Lemmas.Jet3
/-!
# Lemmas on the deterministic Jet refiner: the whole run
-/
namespace Verif
namespace Jet
open DetLP (Mv Good Fit moveAll)
open GainComp CSt PHG
open DReb (Env Input Reached CleanAll)

variable {c : Cfg} {σ : Type} {C : ConInfo σ} {m mx : Nat}

/-- Specification: what the refiner may have made of the partition `Φ` -/
def Result (c : Cfg) (Φ Φ' : Assign) : Prop :=
  (∀ v ∈ c.H.nodes, Φ' v = Φ v) ∨
  (Balanced c Φ ∧ Balanced c Φ' ∧ c.H.objective Φ' c.o < c.H.objective Φ c.o) ∨
  (¬ Balanced c Φ ∧ (Balanced c Φ' ∨ imbOf c Φ' < imbOf c Φ))

/-- the best partition so far -/
def bestPart (st : St σ) : Assign := if st.isBest = true then st.x.s.part else fun v => some (st.best v)

structure Inv (L : C.Lawful m c.k mx) (Φ0 : Assign) (st : St σ) : Prop where
  good : Good L c.H st.x.s
  q : st.bestM.q = c.H.objective (bestPart st) c.o
  imb : st.bestM.imb = imbOf c (bestPart st)
  was : st.was = true ↔ Balanced c (bestPart st)
  range : st.isBest = false → ∀ v ∈ c.H.nodes, st.best v < c.k
  fixed : ∀ v, c.fixed v = true → st.x.s.part v = Φ0 v
  fixedBest : ∀ v ∈ c.H.nodes, c.fixed v = true → bestPart st v = Φ0 v
  prog : Result c Φ0 (bestPart st)

theorem Result.congr {Φ0 Φ Ψ : Assign} (hw : c.H.WF) (h : ∀ v ∈ c.H.nodes, Φ v = Ψ v) (hr : Result c Φ0 Φ) : Result c Φ0 Ψ := by
  rcases hr with h1 | h1 | h1
  · exact Or.inl (fun v hv => (h v hv).symm.trans (h1 v hv))
  · exact Or.inr (Or.inl ⟨h1.1, (balanced_congr h).1 h1.2.1, by rw [← objective_congr hw h]; exact h1.2.2⟩)
  · exact Or.inr (Or.inr ⟨h1.1, by rw [← balanced_congr h, ← imbOf_congr h]; exact h1.2⟩)

theorem Result.improve {Φ0 Φ Ψ : Assign} (hw : c.H.WF) (hr : Result c Φ0 Φ)
    (h : (Balanced c Φ ∧ Balanced c Ψ ∧ c.H.objective Ψ c.o < c.H.objective Φ c.o) ∨ (¬ Balanced c Φ ∧ imbOf c Ψ < imbOf c Φ)) : Result c Φ0 Ψ := by
  rcases hr with h1 | h1 | h1
  · rw [balanced_congr h1, objective_congr hw h1, imbOf_congr h1] at h
    rcases h with h | h
    · exact Or.inr (Or.inl h)
    · exact Or.inr (Or.inr ⟨h.1, Or.inr h.2⟩)
  · rcases h with h | h
    · exact Or.inr (Or.inl ⟨h1.1, h.2.1, by omega⟩)
    · exact absurd h1.2.1 h.1
  · rcases h with h | h
    · exact Or.inr (Or.inr ⟨h1.1, Or.inl h.2.1⟩)
    · refine Or.inr (Or.inr ⟨h1.1, Or.inr ?_⟩)
      rcases h1.2 with h2 | h2
      · exact absurd h2 h.1
      · omega

/-- the best partition as it is stored -/
theorem stored {L : C.Lawful m c.k mx} {st : St σ} (hG : Good L c.H st.x.s) : ∀ v ∈ c.H.nodes,
    some ((if st.isBest = true then blk st.x.s else st.best) v) = bestPart st v := by
  intro v hv
  unfold bestPart
  by_cases h : st.isBest = true
  · rw [if_pos h, if_pos h, (blk_some hG hv).1]
  · rw [if_neg h, if_neg h]

theorem finish_inv {L : C.Lawful m c.k mx} (E : Env c.toCfg m mx) {Φ0 : Assign} {st : St σ} (hI : Inv L Φ0 st) {x2 : DReb.St σ} (hG : Good L c.H x2.s)
    (hfix : ∀ v, c.fixed v = true → x2.s.part v = st.x.s.part v) (locks' : Nat → Bool) {q : Int} (hq : q = c.H.objective x2.s.part c.o) :
    Inv L Φ0 (finish c st x2 locks' (if st.isBest = true then blk st.x.s else st.best) q) ∧
      (finish c st x2 locks' (if st.isBest = true then blk st.x.s else st.best) q).cur = q := by
  have hs := stored (c := c) hI.good
  have hr : ∀ v ∈ c.H.nodes, (if st.isBest = true then blk st.x.s else st.best) v < c.k := by
    intro v hv
    by_cases h : st.isBest = true
    · rw [if_pos h]; exact (blk_some hI.good hv).2
    · rw [if_neg h]; exact hI.range (by simpa using h) v hv
  generalize (if st.isBest = true then blk st.x.s else st.best) = f at hs hr ⊢
  unfold finish
  dsimp only
  rw [weights_eq E.wf hG]
  have hb := balanced_iff E.wf hG
  by_cases hc : (q < st.bestM.q ∧ st.was = true ∧ balanced c x2.s.wt = true) ∨ (st.was = false ∧ imbOf c x2.s.part < st.bestM.imb)
  · rw [if_pos hc]
    refine ⟨⟨hG, hq, rfl, ?_, fun h => (by cases h), fun v hv => (hfix v hv).trans (hI.fixed v hv), fun v _ hf => (hfix v hf).trans (hI.fixed v hf), ?_⟩, rfl⟩
    · show (st.was || balanced c x2.s.wt) = true ↔ Balanced c x2.s.part
      rw [Bool.or_eq_true, hb]
      refine ⟨fun h => ?_, Or.inr⟩
      rcases h with h | h
      · rcases hc with hc | hc
        · exact hb.1 hc.2.2
        · rw [h] at hc; exact absurd hc.1 (by decide)
      · exact h
    · refine Result.improve E.wf hI.prog ?_
      show (_ ∧ Balanced c x2.s.part ∧ c.H.objective x2.s.part c.o < _) ∨ (_ ∧ imbOf c x2.s.part < _)
      rw [← hI.was, ← hI.q, ← hI.imb, ← hq]
      rcases hc with hc | hc
      · exact Or.inl ⟨hc.2.1, hb.1 hc.2.2, hc.1⟩
      · exact Or.inr ⟨by rw [hc.1]; decide, hc.2⟩
  · rw [if_neg hc]
    have hbp : ∀ v ∈ c.H.nodes, bestPart st v = bestPart (⟨x2, locks', f, q, st.bestM, false, st.was, st.fruitless + 1⟩ : St σ) v := fun v hv => (hs v hv).symm
    refine ⟨⟨hG, ?_, ?_, ?_, fun _ => hr, fun v hv => (hfix v hv).trans (hI.fixed v hv), fun v hv hf => ?_, Result.congr E.wf hbp hI.prog⟩, rfl⟩
    · rw [← objective_congr E.wf hbp]; exact hI.q
    · rw [← imbOf_congr hbp]; exact hI.imb
    · rw [← balanced_congr hbp]; exact hI.was
    · rw [← hbp v hv]; exact hI.fixedBest v hv hf

theorem round_inv {L : C.Lawful m c.k mx} (E : Env c.toCfg m mx) {d : Nat} {Φ0 : Assign} {st st' : St σ} (hI : Inv L Φ0 st)
    (hc : st.cur = c.H.objective st.x.s.part c.o) (h : Round C c d st st') : Inv L Φ0 st' ∧ st'.cur = c.H.objective st'.x.s.part c.o := by
  obtain ⟨s1, x2, locks', hC, rfl⟩ := round_core E hI.good h
  obtain ⟨h1, h2⟩ := finish_inv E hI hC.good2 hC.fixed locks' (q := st.cur + (c.H.objective x2.s.part c.o - c.H.objective st.x.s.part c.o)) (by rw [hc]; ring)
  refine ⟨h1, h2.trans ?_⟩
  have : (finish c st x2 locks' (if st.isBest = true then blk st.x.s else st.best) (st.cur + (c.H.objective x2.s.part c.o - c.H.objective st.x.s.part c.o))).x = x2 := by
    unfold finish
    dsimp only
    split_ifs <;> rfl
  rw [this, hc]
  ring

theorem rounds_inv {L : C.Lawful m c.k mx} (E : Env c.toCfg m mx) {d : Nat} {Φ0 : Assign} {st st' : St σ} (h : Rounds C c d st st') (hI : Inv L Φ0 st)
    (hc : st.cur = c.H.objective st.x.s.part c.o) : Inv L Φ0 st' := by
  induction h with
  | done st _ => exact hI
  | step st st1 st2 _ h _ ih =>
    obtain ⟨h1, h2⟩ := round_inv E hI hc h
    exact ih h1 h2

/-- the state in which the loop of a dynamic round starts -/
def entry (st : St σ) : St σ := ⟨st.x, fun _ => false, st.best, st.bestM.q, st.bestM, st.isBest, st.was, 0⟩

theorem entry_inv {L : C.Lawful m c.k mx} {Φ0 : Assign} {st : St σ} (hI : Inv L Φ0 st) (hb : st.isBest = true) :
    Inv L Φ0 (entry st) ∧ (entry st).cur = c.H.objective (entry st).x.s.part c.o := by
  refine ⟨⟨hI.good, hI.q, hI.imb, hI.was, hI.range, hI.fixed, hI.fixedBest, hI.prog⟩, ?_⟩
  have := hI.q
  unfold bestPart at this
  rw [if_pos hb] at this
  exact this

theorem rollback_fit {L : C.Lawful m c.k mx} (E : Env c.toCfg m mx) {Φ0 : Assign} {st : St σ} (hI : Inv L Φ0 st) (hb : st.isBest = false) :
    Fit c.H c.k st.x.s.part ((c.H.nodes.filter (fun u => decide (blk st.x.s u ≠ st.best u))).map (fun u => (⟨u, blk st.x.s u, st.best u, 0⟩ : Mv))) :=
  moves_fit E.wf hI.good (fun u hu hp => ⟨hI.range hb u hu, Ne.symm (by simpa using hp)⟩)

theorem rollback_inv {L : C.Lawful m c.k mx} (E : Env c.toCfg m mx) {Φ0 : Assign} {st st' : St σ} (hI : Inv L Φ0 st) (h : Rollback' C c st st') :
    Inv L Φ0 st' ∧ st'.isBest = true := by
  unfold Rollback' at h
  by_cases hb : st.isBest = true
  · rw [if_pos hb] at h
    subst h
    exact ⟨hI, hb⟩
  · rw [if_neg hb] at h
    obtain ⟨s', g, hA, rfl⟩ := h
    have hb' : st.isBest = false := by simpa using hb
    obtain ⟨hG, hp, _⟩ := apply_spec E hI.good (rollback_fit E hI hb') hA
    have hpart : ∀ v, s'.part v = if v ∈ c.H.nodes ∧ decide (blk st.x.s v ≠ st.best v) = true then some (st.best v) else st.x.s.part v := by
      intro v
      rw [hp]
      exact moves_part E.wf v
    have hbp : ∀ v ∈ c.H.nodes, bestPart st v = s'.part v := by
      intro v hv
      rw [hpart]
      unfold bestPart
      rw [if_neg hb]
      by_cases hne : blk st.x.s v = st.best v
      · rw [if_neg (by simp [hne]), (blk_some hI.good hv).1, hne]
      · rw [if_pos ⟨hv, by simpa using hne⟩]
    refine ⟨⟨hG, ?_, ?_, ?_, fun h => (by cases h), fun v hv => ?_, fun v hv hf => ?_, ?_⟩, rfl⟩
    · exact hI.q.trans (objective_congr E.wf hbp)
    · exact hI.imb.trans (imbOf_congr hbp)
    · exact hI.was.trans (balanced_congr hbp)
    · by_cases hn : v ∈ c.H.nodes
      · show s'.part v = _
        rw [← hbp v hn]
        exact hI.fixedBest v hn hv
      · show s'.part v = _
        rw [hpart, if_neg (fun hh => hn hh.1)]
        exact hI.fixed v hv
    · exact (hbp v hv).symm.trans (hI.fixedBest v hv hf)
    · exact Result.congr E.wf hbp hI.prog

theorem dyn_inv {L : C.Lawful m c.k mx} (E : Env c.toCfg m mx) {Φ0 : Assign} : ∀ (ds : List Nat) {st st' : St σ}, Inv L Φ0 st → st.isBest = true → Dyn C c ds st st' →
    Inv L Φ0 st' ∧ st'.isBest = true := by
  intro ds
  induction ds with
  | nil =>
    intro st st' hI hb h
    have : st' = st := h
    subst this
    exact ⟨hI, hb⟩
  | cons d ds ih =>
    intro st st' hI hb h
    obtain ⟨a, b, h1, h2, h3⟩ := h
    obtain ⟨e1, e2⟩ := entry_inv hI hb
    obtain ⟨r1, r2⟩ := rollback_inv E (rounds_inv E h1 e1 e2) h2
    exact ih r1 r2 h3

/-- the state in which the loop over the dynamic rounds starts -/
def initial (c : Cfg) (x : DReb.St σ) (q : Met) (old : Nat → Nat) (locks : Nat → Bool) : St σ := ⟨x, locks, old, q.q, q, true, balanced c x.s.wt, 0⟩

theorem initial_inv {L : C.Lawful m c.k mx} (E : Env c.toCfg m mx) {x : DReb.St σ} (hG : Good L c.H x.s) {q : Met} (hq : q.q = c.H.objective x.s.part c.o)
    (hi : q.imb = imbOf c x.s.part) (old : Nat → Nat) (locks : Nat → Bool) : Inv L x.s.part (initial c x q old locks) :=
  ⟨hG, hq, hi, balanced_iff E.wf hG, fun h => (by cases h), fun _ _ => rfl, fun _ _ _ => rfl, Or.inl (fun _ _ => rfl)⟩

/-! ### The order of the rounds -/

theorem sum_ge {f g : Nat → Int} : ∀ (l : List Nat), (∀ e ∈ l, - g e ≤ f e) → - (l.map g).sum ≤ (l.map f).sum := by
  intro l
  induction l with
  | nil => intro _; simp
  | cons e l ih =>
    intro h
    have h1 := h e List.mem_cons_self
    have h2 := ih (fun x hx => h x (List.mem_cons_of_mem _ hx))
    rw [List.map_cons, List.map_cons, List.sum_cons, List.sum_cons]
    omega

theorem objective_ge {H : HG} (hew : ∀ e ∈ H.edges, 0 ≤ H.ew e) (Φ : Assign) (o : Metrics.Obj) : - (H.edges.map H.ew).sum ≤ H.objective Φ o := by
  rw [Rollback.objective_terms]
  refine sum_ge _ (fun e he => ?_)
  have := hew e he
  cases o with
  | cut =>
    unfold HG.term
    dsimp only
    split_ifs <;> omega
  | km1 =>
    unfold HG.term
    dsimp only
    have h2 : (0 : Int) ≤ (H.lam Φ e : Int) * H.ew e := mul_nonneg (by omega) this
    rw [sub_mul]
    omega
  | soed =>
    unfold HG.term
    dsimp only
    split_ifs
    · have h2 : (0 : Int) ≤ (H.lam Φ e : Int) * H.ew e := mul_nonneg (by omega) this
      omega
    · omega

/-- decreases with every iteration -/
def pot (c : Cfg) (st : St σ) : Nat × Nat × Nat :=
  (if st.was = true then 0 else 1, if st.was = true then (st.bestM.q + (c.H.edges.map c.H.ew).sum).toNat else st.bestM.imb, c.iters - st.fruitless)

abbrev lex : Nat × Nat × Nat → Nat × Nat × Nat → Prop := Prod.Lex (· < ·) (Prod.Lex (· < ·) (· < ·))

theorem lex_wf : WellFounded lex := WellFounded.prod_lex Nat.lt_wfRel.wf (WellFounded.prod_lex Nat.lt_wfRel.wf Nat.lt_wfRel.wf)

theorem round_pot {L : C.Lawful m c.k mx} (E : Env c.toCfg m mx) {d : Nat} {Φ0 : Assign} {st st' : St σ} (hI : Inv L Φ0 st)
    (hc : st.cur = c.H.objective st.x.s.part c.o) (hf : st.fruitless < c.iters) (h : Round C c d st st') : lex (pot c st') (pot c st) := by
  obtain ⟨s1, x2, locks', hC, rfl⟩ := round_core E hI.good h
  have hq : st.cur + (c.H.objective x2.s.part c.o - c.H.objective st.x.s.part c.o) = c.H.objective x2.s.part c.o := by rw [hc]; ring
  rw [hq]
  have hge := objective_ge E.ew x2.s.part c.o
  generalize (if st.isBest = true then blk st.x.s else st.best) = f
  unfold finish
  dsimp only
  rw [weights_eq E.wf hC.good2]
  by_cases hcd : (c.H.objective x2.s.part c.o < st.bestM.q ∧ st.was = true ∧ balanced c x2.s.wt = true) ∨ (st.was = false ∧ imbOf c x2.s.part < st.bestM.imb)
  · rw [if_pos hcd]
    unfold pot
    dsimp only
    rcases hcd with ⟨h1, h2, h3⟩ | ⟨h1, h2⟩
    · rw [h2, Bool.true_or, if_pos rfl, if_pos rfl, if_pos rfl]
      refine Prod.Lex.right _ (Prod.Lex.left _ _ ?_)
      have h5 : (c.H.edges.map c.H.ew).sum = ((c.H.edges.map c.H.ew).sum) := rfl
      revert h1 hge
      generalize (c.H.edges.map c.H.ew).sum = S
      generalize c.H.objective x2.s.part c.o = q
      intro h1 hge
      show (q + S).toNat < (st.bestM.q + S).toNat
      omega
    · rw [h1, Bool.false_or]
      by_cases hb : balanced c x2.s.wt = true
      · rw [hb]
        exact Prod.Lex.left _ _ (by simp)
      · rw [show balanced c x2.s.wt = false by simpa using hb]
        exact Prod.Lex.right _ (Prod.Lex.left _ _ h2)
  · rw [if_neg hcd]
    unfold pot
    dsimp only
    refine Prod.Lex.right _ (Prod.Lex.right _ ?_)
    omega

theorem rounds_exists {L : C.Lawful m c.k mx} (E : Env c.toCfg m mx) (d : Nat) {Φ0 : Assign} (st : St σ) (hI : Inv L Φ0 st)
    (hc : st.cur = c.H.objective st.x.s.part c.o) : ∃ st', Rounds C c d st st' := by
  have hwf : WellFounded (fun a b : St σ => lex (pot c a) (pot c b)) := InvImage.wf (pot c) lex_wf
  induction st using hwf.induction with
  | _ st ih =>
    by_cases hf : st.fruitless < c.iters
    · obtain ⟨st1, h1⟩ := round_exists (C := C) E d hI.good
      obtain ⟨i1, i2⟩ := round_inv E hI hc h1
      obtain ⟨st2, h2⟩ := ih st1 (round_pot E hI hc hf h1) i1 i2
      exact ⟨st2, Rounds.step _ _ _ hf h1 h2⟩
    · exact ⟨st, Rounds.done st hf⟩

theorem rounds_finite {L : C.Lawful m c.k mx} (E : Env c.toCfg m mx) {d : Nat} {Φ0 : Assign} (f : Nat → St σ) (hI : Inv L Φ0 (f 0))
    (hc : (f 0).cur = c.H.objective (f 0).x.s.part c.o) (h : ∀ n, (f n).fruitless < c.iters ∧ Round C c d (f n) (f (n + 1))) : False := by
  have hall : ∀ n, Inv L Φ0 (f n) ∧ (f n).cur = c.H.objective (f n).x.s.part c.o := by
    intro n
    induction n with
    | zero => exact ⟨hI, hc⟩
    | succ n ih => exact round_inv E ih.1 ih.2 (h n).2
  have hd : ∀ n, lex (pot c (f (n + 1))) (pot c (f n)) := fun n => round_pot E (hall n).1 (hall n).2 (h n).1 (h n).2
  exact (wellFounded_iff_isEmpty_descending_chain.1 lex_wf).false ⟨fun n => pot c (f n), hd⟩

theorem rollback_exists {L : C.Lawful m c.k mx} (E : Env c.toCfg m mx) {Φ0 : Assign} {st : St σ} (hI : Inv L Φ0 st) : ∃ st', Rollback' C c st st' := by
  by_cases hb : st.isBest = true
  · exact ⟨st, by unfold Rollback'; rw [if_pos hb]⟩
  · obtain ⟨s', g, hA⟩ := apply_exists E hI.good (rollback_fit E hI (by simpa using hb))
    exact ⟨_, by unfold Rollback'; rw [if_neg hb]; exact ⟨s', g, hA, rfl⟩⟩

theorem dyn_exists {L : C.Lawful m c.k mx} (E : Env c.toCfg m mx) {Φ0 : Assign} : ∀ (ds : List Nat) {st : St σ}, Inv L Φ0 st → st.isBest = true → ∃ st', Dyn C c ds st st' := by
  intro ds
  induction ds with
  | nil => intro st _ _; exact ⟨st, rfl⟩
  | cons d ds ih =>
    intro st hI hb
    obtain ⟨e1, e2⟩ := entry_inv hI hb
    obtain ⟨a, h1⟩ := rounds_exists (C := C) E d _ e1 e2
    have i1 := rounds_inv E h1 e1 e2
    obtain ⟨b, h2⟩ := rollback_exists (C := C) E i1
    obtain ⟨r1, r2⟩ := rollback_inv E i1 h2
    obtain ⟨st', h3⟩ := ih r1 r2
    exact ⟨st', a, b, h1, h2, h3⟩

/-! ### Determinism -/

theorem rounds_det (E : Env c.toCfg m mx) {d : Nat} {Φ0 Φ0' : Assign} {a a' : St (Packed × ConnSets)} (h : Rounds denseCon c d a a') :
    ∀ {b b' : St (Packed × ConnSets)}, Inv (denseLawful m c.k mx) Φ0 a → a.cur = c.H.objective a.x.s.part c.o → Inv (denseLawful m c.k mx) Φ0' b →
    b.cur = c.H.objective b.x.s.part c.o → Same' c a b → Rounds denseCon c d b b' → Same' c a' b' := by
  induction h with
  | done a hn =>
    intro b b' _ _ _ _ hS h'
    cases h' with
    | done _ _ => exact hS
    | step _ _ _ hf _ _ => rw [← hS.fruitless] at hf; exact absurd hf hn
  | step a a1 a2 hf hr _ ih =>
    intro b b' hI hc hI' hc' hS h'
    cases h' with
    | done _ hn => rw [← hS.fruitless] at hn; exact absurd hf hn
    | step _ b1 _ hf' hr' hrest =>
      obtain ⟨i1, i2⟩ := round_inv E hI hc hr
      obtain ⟨i1', i2'⟩ := round_inv E hI' hc' hr'
      exact ih i1 i2 i1' i2' (round_det E hI.good hI'.good hS hr hr') hrest

/-- agreement at the start of a dynamic round -/
structure Pre (c : Cfg) (a b : St σ) : Prop where
  part : a.x.s.part = b.x.s.part
  heavy : ∀ i < c.k, a.x.heavy i = b.x.heavy i
  bestM : a.bestM = b.bestM
  was : a.was = b.was

theorem rollback_det (E : Env c.toCfg m mx) {Φ0 Φ0' : Assign} {a a' b b' : St (Packed × ConnSets)} (hI : Inv (denseLawful m c.k mx) Φ0 a)
    (hI' : Inv (denseLawful m c.k mx) Φ0' b) (hS : Same' c a b) (h : Rollback' denseCon c a a') (h' : Rollback' denseCon c b b') : Pre c a' b' := by
  unfold Rollback' at h h'
  by_cases hb : a.isBest = true
  · rw [if_pos hb] at h
    rw [if_pos (hS.isBest ▸ hb)] at h'
    subst h h'
    exact ⟨hS.part, hS.heavy, hS.bestM, hS.was⟩
  · rw [if_neg hb] at h
    rw [if_neg (hS.isBest ▸ hb)] at h'
    obtain ⟨s, g, hA, rfl⟩ := h
    obtain ⟨s', g', hA', rfl⟩ := h'
    have hb1 : a.isBest = false := by simpa using hb
    have hb2 : b.isBest = false := by rw [← hS.isBest]; exact hb1
    obtain ⟨_, hp, _⟩ := apply_spec E hI.good (rollback_fit E hI hb1) hA
    obtain ⟨_, hp', _⟩ := apply_spec E hI'.good (rollback_fit E hI' hb2) hA'
    refine ⟨?_, hS.heavy, hS.bestM, hS.was⟩
    show s.part = s'.part
    rw [hp, hp']
    funext v
    rw [moves_part E.wf v, moves_part E.wf v]
    have hblk : blk a.x.s = blk b.x.s := by funext u; unfold blk; rw [hS.part]
    by_cases hv : v ∈ c.H.nodes
    · rw [hblk, hS.best hb1 v hv, hS.part]
    · rw [if_neg (fun hh => hv hh.1), if_neg (fun hh => hv hh.1), hS.part]

theorem dyn_det (E : Env c.toCfg m mx) {Φ0 Φ0' : Assign} : ∀ (ds : List Nat) {a a' b b' : St (Packed × ConnSets)}, Inv (denseLawful m c.k mx) Φ0 a →
    Inv (denseLawful m c.k mx) Φ0' b → a.isBest = true → b.isBest = true → Pre c a b → Dyn denseCon c ds a a' → Dyn denseCon c ds b b' → Pre c a' b' := by
  intro ds
  induction ds with
  | nil =>
    intro a a' b b' _ _ _ _ hP h h'
    have h1 : a' = a := h
    have h2 : b' = b := h'
    subst h1 h2
    exact hP
  | cons d ds ih =>
    intro a a' b b' hI hI' hb hb' hP h h'
    obtain ⟨a1, a2, h1, h2, h3⟩ := h
    obtain ⟨b1, b2, h1', h2', h3'⟩ := h'
    obtain ⟨e1, e2⟩ := entry_inv hI hb
    obtain ⟨e1', e2'⟩ := entry_inv hI' hb'
    have hS : Same' c (entry a) (entry b) := ⟨hP.part, hP.heavy, fun _ _ => rfl, fun h => (by rw [show (entry a).isBest = true from hb] at h; cases h),
      by show a.bestM.q = b.bestM.q; rw [hP.bestM], hP.bestM, by show a.isBest = b.isBest; rw [hb, hb'], hP.was, rfl⟩
    have i1 := rounds_inv E h1 e1 e2
    have i1' := rounds_inv E h1' e1' e2'
    have hP2 := rollback_det E i1 i1' (rounds_det E h1 e1 e2 e1' e2' hS h1') h2 h2'
    obtain ⟨r1, r2⟩ := rollback_inv E i1 h2
    obtain ⟨r1', r2'⟩ := rollback_inv E i1' h2'
    exact ih r1 r1' r2 r2' hP2 h3 h3'

end Jet
end Verif
