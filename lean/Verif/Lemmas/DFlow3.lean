import Verif.Lemmas.DFlow2
namespace Verif
namespace DFlow
open DetLP (Mv moveAll moveAll_other moveAll_mem Fit Good)
open Flow (eff eff_append Env exec_snoc startsOf_snoc step_other)
open CSt Rollback PHG

/-- the tasks of a matching -/
structure Tasks (H : HG) (k : Nat) (Φ : Assign) (n : Nat) (P : Nat → Nat × Nat) (A : Nat → List Mv) : Prop where
  ok : ∀ t, t < n → TaskOK H Φ (P t).1 (P t).2 (A t)
  lt : ∀ t, t < n → (P t).1 < k ∧ (P t).2 < k
  disj : ∀ t t', t < n → t' < n → t ≠ t' → (P t).1 ≠ (P t').1 ∧ (P t).1 ≠ (P t').2 ∧ (P t).2 ≠ (P t').1 ∧ (P t).2 ≠ (P t').2
  out : ∀ t, ¬ t < n → A t = []

section
variable {σ : Type} {C : ConInfo σ} {c : Cfg} {m mx : Nat} {P : Nat → Nat × Nat} {A : Nat → List Mv} {n : Nat}

theorem Tasks.node_disj {H : HG} {k : Nat} {Φ : Assign} (T : Tasks H k Φ n P A) {t t' : Nat} (ht : t < n) (ht' : t' < n) (hne : t ≠ t') {v : Nat}
    (h : v ∈ (A t).map Mv.node) : v ∉ (A t').map Mv.node := by
  intro h'
  obtain ⟨m1, h1, rfl⟩ := List.mem_map.1 h
  obtain ⟨m2, h2, he⟩ := List.mem_map.1 h'
  obtain ⟨a1, a2⟩ := (T.ok t ht).src m1 h1
  obtain ⟨b1, b2⟩ := (T.ok t' ht').src m2 h2
  rw [he, a1] at b1
  injection b1 with b1
  obtain ⟨d1, d2, d3, d4⟩ := T.disj t t' ht ht' hne
  rcases a2 with a2 | a2 <;> rcases b2 with b2 | b2 <;> rw [← b1, a2] at b2 <;> first | exact d1 b2 | exact d2 b2 | exact d3 b2 | exact d4 b2

/-- state of a task -/
inductive TaskSt (H : HG) (Φ : Assign) (s : CSt σ) (A todo : List Mv) (log : List EdgeUpdate) : Option Nat → Prop
  | idle (D : List Mv) (hA : A = D ++ todo) (hl : log = seqLog H Φ D) (hD : ∀ mv ∈ D, s.proc mv.node = .idle ∧ s.part mv.node = some mv.dst)
      (hT : ∀ mv ∈ todo, s.proc mv.node = .idle ∧ s.part mv.node = some mv.src) : TaskSt H Φ s A todo log none
  | busy (D : List Mv) (mv : Mv) (pr : List Nat) (hA : A = D ++ mv :: todo) (hne : mv.src ≠ mv.dst)
      (hl : log = seqLog H Φ D ++ pr.map (fun e => H.mkUpdate (moveAll Φ D) e mv.node mv.src mv.dst))
      (hD : ∀ mv ∈ D, s.proc mv.node = .idle ∧ s.part mv.node = some mv.dst)
      (hT : ∀ mv ∈ todo, s.proc mv.node = .idle ∧ s.part mv.node = some mv.src) (hR : Running H s mv pr) : TaskSt H Φ s A todo log (some mv.node)

/-- invariant while the moves of a matching are applied -/
structure TInv (C : ConInfo σ) (c : Cfg) (L : C.Lawful m c.fc.k mx) (s0 : CSt σ) (n : Nat) (A : Nat → List Mv) (x : TSt σ) : Prop where
  hist : ∃ as, CSt.exec C c.fc.H c.fc.k c.fc.o s0 as = some x.s
  inv : Inv L c.fc.H x.s
  wt : WtInv c.fc.H c.fc.k x.s
  noRej : NoReject x.s
  out : ∀ v, (∀ t, t < n → v ∉ (A t).map Mv.node) → x.s.proc v = .idle ∧ x.s.part v = s0.part v
  task : ∀ t, t < n → TaskSt c.fc.H s0.part x.s (A t) (x.todo t) (x.logs t) (x.cur t)
  rest : ∀ t, ¬ t < n → x.todo t = [] ∧ x.cur t = none
  base : s0.log.length ≤ x.s.log.length
  sum : ((x.s.log.drop s0.log.length).map (attrGain c.fc.o)).sum = ((List.range n).map (fun t => ((x.logs t).map (attrGain c.fc.o)).sum)).sum

/-- the view of a hyperedge in the blocks of a task does not depend on the other tasks -/
theorem TInv.view_eq {L : C.Lawful m c.fc.k mx} {s0 : CSt σ} (T : Tasks c.fc.H c.fc.k s0.part n P A) {x : TSt σ} (h : TInv C c L s0 n A x) {t : Nat} (ht : t < n)
    {D todo : List Mv} {mv : Mv} (hA : A t = D ++ mv :: todo) (hD : ∀ mv ∈ D, x.s.proc mv.node = .idle ∧ x.s.part mv.node = some mv.dst)
    (hT : ∀ mv ∈ todo, x.s.proc mv.node = .idle ∧ x.s.part mv.node = some mv.src) {e b : Nat} (hb : b = (P t).1 ∨ b = (P t).2) :
    c.fc.H.pinsIn ((x.s.view e).put mv.node mv.dst) e b = c.fc.H.pinsIn ((moveAll s0.part D).put mv.node mv.dst) e b := by
  apply pinsIn_pt
  intro v _
  have hnd := (T.ok t ht).nodup
  by_cases hv : v = mv.node
  · subst hv; simp [Assign.put]
  · have e1 : ∀ Ψ : Assign, Ψ.put mv.node mv.dst v = Ψ v := fun Ψ => by simp [Assign.put, hv]
    rw [e1, e1]
    have hidle : x.s.proc v = .idle → x.s.view e v = x.s.part v := by
      intro hi; unfold CSt.view; rw [hi]; rfl
    rw [hA, List.map_append, List.map_cons] at hnd
    by_cases h1 : v ∈ (A t).map Mv.node
    · obtain ⟨m', hm', rfl⟩ := List.mem_map.1 h1
      rw [hA] at hm'
      rcases List.mem_append.1 hm' with hm1 | hm1
      · rw [hidle (hD m' hm1).1, (hD m' hm1).2, moveAll_mem D (List.Nodup.of_append_left hnd) m' hm1]
      · rcases List.mem_cons.1 hm1 with rfl | hm1
        · exact absurd rfl hv
        · rw [hidle (hT m' hm1).1, (hT m' hm1).2, moveAll_other D, ((T.ok t ht).src m' (by rw [hA]; simp [hm1])).1]
          intro hc
          exact (List.disjoint_of_nodup_append hnd) hc (List.mem_cons_of_mem _ (List.mem_map.2 ⟨m', hm1, rfl⟩))
    · have h1' : v ∉ D.map Mv.node := fun hh => h1 (by rw [hA, List.map_append]; exact List.mem_append_left _ hh)
      rw [moveAll_other D h1']
      by_cases h2 : ∀ t', t' < n → v ∉ (A t').map Mv.node
      · obtain ⟨h3, h4⟩ := h.out v h2
        rw [hidle h3, h4]
      · push Not at h2
        obtain ⟨t', ht', h3⟩ := h2
        have htt : t ≠ t' := fun hh => h1 (hh ▸ h3)
        obtain ⟨d1, d2, d3, d4⟩ := T.disj t t' ht ht' htt
        obtain ⟨m', hm', rfl⟩ := List.mem_map.1 h3
        obtain ⟨s1, s2⟩ := (T.ok t' ht').src m' hm'
        have s3 := (T.ok t' ht').dst m' hm'
        have hno : ∀ b', (b' = (P t').1 ∨ b' = (P t').2) → some b' ≠ some b := by
          intro b' h hh
          injection hh with hh
          rcases h with h | h <;> rcases hb with hb | hb <;> rw [hh, hb] at h <;> first | exact d1 h | exact d2 h | exact d3 h | exact d4 h
        have hview : x.s.view e m'.node = some m'.src ∨ x.s.view e m'.node = some m'.dst := by
          have h4 := h.task t' ht'
          have hnd' := (T.ok t' ht').nodup
          generalize hcur : x.cur t' = cur at h4
          cases h4 with
          | idle D' hA' _ hD' hT' =>
            rw [hA'] at hm'
            rcases List.mem_append.1 hm' with hm' | hm'
            · rw [hidle (hD' m' hm').1, (hD' m' hm').2]; exact Or.inr rfl
            · rw [hidle (hT' m' hm').1, (hT' m' hm').2]; exact Or.inl rfl
          | busy D' mv' pr' hA' _ _ hD' hT' hR' =>
            rw [hA'] at hm'
            rcases List.mem_append.1 hm' with hm' | hm'
            · rw [hidle (hD' m' hm').1, (hD' m' hm').2]; exact Or.inr rfl
            · rcases List.mem_cons.1 hm' with rfl | hm'
              · exact hR'.view e
              · rw [hidle (hT' m' hm').1, (hT' m' hm').2]; exact Or.inl rfl
        constructor
        · intro hh
          rcases hview with hv' | hv' <;> rw [hv'] at hh
          · exact absurd hh (hno _ s2)
          · exact absurd hh (hno _ s3)
        · intro hh
          rw [s1] at hh
          exact absurd hh (hno _ s2)

/-- other tasks are not touched -/
theorem TaskSt.frame {H : HG} {Φ : Assign} {s s' : CSt σ} {A todo : List Mv} {log : List EdgeUpdate} {cur : Option Nat} (h : TaskSt H Φ s A todo log cur)
    (h1 : ∀ v ∈ A.map Mv.node, s'.proc v = s.proc v) (h2 : ∀ v ∈ A.map Mv.node, s'.part v = s.part v) : TaskSt H Φ s' A todo log cur := by
  have hmem : ∀ {mv}, mv ∈ A → mv.node ∈ A.map Mv.node := fun hh => List.mem_map.2 ⟨_, hh, rfl⟩
  cases h with
  | idle D hA hl hD hT =>
    refine .idle D hA hl (fun mv hm => ?_) (fun mv hm => ?_)
    · have := hmem (show mv ∈ A by rw [hA]; simp [hm])
      rw [h1 _ this, h2 _ this]; exact hD mv hm
    · have := hmem (show mv ∈ A by rw [hA]; simp [hm])
      rw [h1 _ this, h2 _ this]; exact hT mv hm
  | busy D mv pr hA hne hl hD hT hR =>
    refine .busy D mv pr hA hne hl (fun mv hm => ?_) (fun mv hm => ?_) ?_
    · have := hmem (show mv ∈ A by rw [hA]; simp [hm])
      rw [h1 _ this, h2 _ this]; exact hD mv hm
    · have := hmem (show mv ∈ A by rw [hA]; simp [hm])
      rw [h1 _ this, h2 _ this]; exact hT mv hm
    · have := hmem (show mv ∈ A by rw [hA]; simp)
      unfold Running
      rw [h1 _ this, h2 _ this]; exact hR

theorem sum_range_set {n t : Nat} (ht : t < n) {f g : Nat → Int} (h : ∀ u, u ≠ t → g u = f u) :
    ((List.range n).map g).sum = ((List.range n).map f).sum + (g t - f t) :=
  sum_map_upd List.nodup_range (List.mem_range.2 ht) h

theorem TInv.step {L : C.Lawful m c.fc.k mx} (E : Env c.fc m mx) {s0 : CSt σ} (T : Tasks c.fc.H c.fc.k s0.part n P A) {x y : TSt σ} (h : TInv C c L s0 n A x)
    {t : Nat} (hst : tstep C c x t = some y) : TInv C c L s0 n A y := by
  have htn : t < n := by
    by_contra hh
    obtain ⟨h1, h2⟩ := h.rest t hh
    unfold tstep at hst
    rw [h2, h1] at hst
    cases hst
  have htask := h.task t htn
  obtain ⟨as, hex⟩ := h.hist
  unfold tstep at hst
  generalize hcur : x.cur t = cur at htask hst
  cases htask with
  | idle D hA hl hD hT =>
    cases htodo : x.todo t with
    | nil => simp [htodo] at hst
    | cons mv rest =>
      simp only [htodo] at hst
      rw [htodo] at hA hT
      have hsrc := (T.ok t htn).src mv (by rw [hA]; simp)
      by_cases hsd : mv.src = mv.dst
      · rw [if_pos hsd] at hst
        injection hst with hst
        subst hst
        refine ⟨⟨as, hex⟩, h.inv, h.wt, h.noRej, h.out, fun t' ht' => ?_, fun t' ht' => ?_, h.base, h.sum⟩
        · by_cases htt : t' = t
          · subst htt
            simp only [hcur]
            rw [set_same]
            refine .idle (D ++ [mv]) (by simp [hA]) ?_ ?_ (fun m' hm' => hT m' (by simp [hm']))
            · rw [hl, seqLog_snoc, if_pos hsd, List.append_nil]
            · intro m' hm'
              rcases List.mem_append.1 hm' with hm' | hm'
              · exact hD m' hm'
              · rw [List.mem_singleton] at hm'
                subst hm'
                rw [← hsd]; exact hT m' (by simp)
          · simp only []
            rw [set_other _ _ htt]
            exact h.task t' ht'
        · have : t' ≠ t := fun hh => ht' (hh ▸ htn)
          simp only []
          rw [set_other _ _ this]
          exact h.rest t' ht'
      · rw [if_neg hsd] at hst
        cases hs : CSt.step C c.fc.H c.fc.k c.fc.o x.s (.start mv.node mv.dst maxHNW) with
        | none => simp [hs] at hst
        | some s' =>
          simp only [hs] at hst
          injection hst with hst
          subst hst
          obtain ⟨hI', heff⟩ := h.inv.step E.wf E.fits (step_Step hs)
          have hW' := h.wt.step E.wf h.inv (step_Step hs)
          have hN' := (noReject_step E.wf E.nw E.tot (fun u d l h => by simp at h; exact h.2.2) h.inv h.wt h.noRej hs).1
          obtain ⟨hR, hlog⟩ := running_start E.wf E.nw E.tot h.inv h.wt h.noRej (hT mv (by simp)).2 hs
          have ho := step_other (Or.inr ⟨_, _, rfl⟩) hs
          have hop := step_part_other (Or.inr ⟨_, _, rfl⟩) hs
          have hmvA : mv.node ∈ (A t).map Mv.node := List.mem_map.2 ⟨mv, by rw [hA]; simp, rfl⟩
          have hnd := (T.ok t htn).nodup
          rw [hA, List.map_append, List.map_cons] at hnd
          have hDne : ∀ m' ∈ D, m'.node ≠ mv.node := fun m' hm' hh =>
            (List.disjoint_of_nodup_append hnd) (List.mem_map.2 ⟨m', hm', rfl⟩) (by rw [hh]; simp)
          have hTne : ∀ m' ∈ rest, m'.node ≠ mv.node := fun m' hm' hh =>
            (List.nodup_cons.1 (List.Nodup.of_append_right hnd)).1 (by rw [← hh]; exact List.mem_map.2 ⟨m', hm', rfl⟩)
          refine ⟨⟨as ++ [_], exec_snoc hex hs⟩, hI', hW', hN', fun v hv => ?_, fun t' ht' => ?_, fun t' ht' => ?_, by simp only [hlog]; exact h.base, ?_⟩
          · have : v ≠ mv.node := fun hh => hv t htn (hh ▸ hmvA)
            simp only []
            rw [ho v this, hop v this]
            exact h.out v hv
          · by_cases htt : t' = t
            · subst htt
              simp only []
              rw [set_same, set_same]
              refine .busy D mv [] hA hsd (by simp [hl]) ?_ ?_ hR
              · intro m' hm'; rw [ho _ (hDne m' hm'), hop _ (hDne m' hm')]; exact hD m' hm'
              · intro m' hm'; rw [ho _ (hTne m' hm'), hop _ (hTne m' hm')]; exact hT m' (by simp [hm'])
            · simp only []
              rw [set_other _ _ htt, set_other _ _ htt]
              refine (h.task t' ht').frame (fun v hv => ho v ?_) (fun v hv => hop v ?_)
              · rintro rfl; exact T.node_disj ht' htn htt hv hmvA
              · rintro rfl; exact T.node_disj ht' htn htt hv hmvA
          · have : t' ≠ t := fun hh => ht' (hh ▸ htn)
            simp only []
            rw [set_other _ _ this, set_other _ _ this]
            exact h.rest t' ht'
          · simp only [hlog]; exact h.sum
  | busy D mv pr hA hne hl hD hT hR =>
    simp only [] at hst
    cases hs : CSt.step C c.fc.H c.fc.k c.fc.o x.s (.tick mv.node) with
    | none => simp [hs] at hst
    | some s' =>
      simp only [hs] at hst
      injection hst with hst
      subst hst
      obtain ⟨hI', heff⟩ := h.inv.step E.wf E.fits (step_Step hs)
      have hW' := h.wt.step E.wf h.inv (step_Step hs)
      have hN' := (noReject_step E.wf E.nw E.tot (fun u d l h => by simp at h) h.inv h.wt h.noRej hs).1
      have ho := step_other (Or.inl rfl) hs
      have hop := step_part_other (Or.inl rfl) hs
      have hmvA : mv.node ∈ (A t).map Mv.node := List.mem_map.2 ⟨mv, by rw [hA]; simp, rfl⟩
      have hnd := (T.ok t htn).nodup
      rw [hA, List.map_append, List.map_cons] at hnd
      have hDne : ∀ m' ∈ D, m'.node ≠ mv.node := fun m' hm' hh =>
        (List.disjoint_of_nodup_append hnd) (List.mem_map.2 ⟨m', hm', rfl⟩) (by rw [hh]; simp)
      have hTne : ∀ m' ∈ x.todo t, m'.node ≠ mv.node := fun m' hm' hh =>
        (List.nodup_cons.1 (List.Nodup.of_append_right hnd)).1 (by rw [← hh]; exact List.mem_map.2 ⟨m', hm', rfl⟩)
      have hD' : ∀ m' ∈ D, s'.proc m'.node = .idle ∧ s'.part m'.node = some m'.dst := fun m' hm' => by
        rw [ho _ (hDne m' hm'), hop _ (hDne m' hm')]; exact hD m' hm'
      have hT' : ∀ m' ∈ x.todo t, s'.proc m'.node = .idle ∧ s'.part m'.node = some m'.src := fun m' hm' => by
        rw [ho _ (hTne m' hm'), hop _ (hTne m' hm')]; exact hT m' hm'
      have hmove : ∃ l, s'.log = x.s.log ++ l ∧ TaskSt c.fc.H s0.part s' (A t) (x.todo t) (x.logs t ++ l) (if s'.isIdle mv.node then none else some mv.node) := by
        rcases running_tick E.wf E.fits h.inv hR hs with ⟨r1, r2, r3, r4⟩ | ⟨r1, r2⟩ | ⟨e, r1, r2, r3⟩
        · refine ⟨[], by simp [r4], ?_⟩
          rw [if_pos ((isIdle_iff s' mv.node).2 r1), List.append_nil]
          refine .idle (D ++ [mv]) (by simp [hA]) ?_ ?_ hT'
          · rw [hl, seqLog_snoc, if_neg hne, r2]
          · intro m' hm'
            rcases List.mem_append.1 hm' with hm' | hm'
            · exact hD' m' hm'
            · rw [List.mem_singleton] at hm'; subst hm'; exact ⟨r1, r3⟩
        · refine ⟨[], by simp [r2], ?_⟩
          rw [if_neg (fun hh => r1.not_idle ((isIdle_iff s' mv.node).1 hh)), List.append_nil]
          exact .busy D mv pr hA hne hl hD' hT' r1
        · refine ⟨_, r2, ?_⟩
          rw [if_neg (fun hh => r1.not_idle ((isIdle_iff s' mv.node).1 hh))]
          refine .busy D mv (pr ++ [e]) hA hne ?_ hD' hT' r1
          rw [hl, List.map_append, List.append_assoc]
          congr 2
          simp only [List.map_cons, List.map_nil, List.cons.injEq, and_true]
          unfold HG.mkUpdate
          have hmem : mv ∈ A t := by rw [hA]; simp
          rw [h.view_eq T htn hA hD hT ((T.ok t htn).src mv hmem).2, h.view_eq T htn hA hD hT ((T.ok t htn).dst mv hmem)]
      obtain ⟨l, hlog, htask'⟩ := hmove
      have hdrop : s'.log.drop x.s.log.length = l := by rw [hlog]; simp
      refine ⟨⟨as ++ [_], exec_snoc hex hs⟩, hI', hW', hN', fun v hv => ?_, fun t' ht' => ?_, fun t' ht' => ?_, ?_, ?_⟩
      · have : v ≠ mv.node := fun hh => hv t htn (hh ▸ hmvA)
        simp only []
        rw [ho v this, hop v this]
        exact h.out v hv
      · by_cases htt : t' = t
        · subst htt
          simp only []
          rw [set_same, set_same, hdrop]
          exact htask'
        · simp only []
          rw [set_other _ _ htt, set_other _ _ htt]
          refine (h.task t' ht').frame (fun v hv => ho v ?_) (fun v hv => hop v ?_)
          · rintro rfl; exact T.node_disj ht' htn htt hv hmvA
          · rintro rfl; exact T.node_disj ht' htn htt hv hmvA
      · have : t' ≠ t := fun hh => ht' (hh ▸ htn)
        simp only []
        rw [set_other _ _ this]
        exact h.rest t' ht'
      · simp only [hlog, List.length_append]; have := h.base; omega
      · simp only []
        rw [sum_range_set htn (f := fun u => ((x.logs u).map (attrGain c.fc.o)).sum), ← h.sum, set_same, hdrop, hlog, List.drop_append_of_le_length h.base]
        · rw [List.map_append, List.sum_append, List.map_append, List.sum_append]; omega
        · intro u hu
          rw [set_other _ _ hu]

theorem TInv.exec {L : C.Lawful m c.fc.k mx} (E : Env c.fc m mx) {s0 : CSt σ} (T : Tasks c.fc.H c.fc.k s0.part n P A) (ts : List Nat) : ∀ {x y : TSt σ},
    TInv C c L s0 n A x → texec C c x ts = some y → TInv C c L s0 n A y := by
  induction ts with
  | nil => intro x y h he; simp only [texec] at he; cases he; exact h
  | cons t ts ih =>
    intro x y h he
    rw [texec] at he
    cases hs : tstep C c x t with
    | none => rw [hs] at he; cases he
    | some z => rw [hs] at he; exact ih (h.step E T hs) he

theorem noReject_quiet {L : C.Lawful m c.fc.k mx} {s : CSt σ} (hG : Good L c.fc.H s) : NoReject s := by
  intro v d hh
  by_cases hv : v ∈ c.fc.H.nodes
  · rw [(quiescent_iff s).1 hG.quiet v hv] at hh; cases hh
  · rw [hG.inv.outside v hv] at hh; cases hh

theorem idle_quiet {L : C.Lawful m c.fc.k mx} {s : CSt σ} (hG : Good L c.fc.H s) (v : Nat) : s.proc v = .idle := by
  by_cases hv : v ∈ c.fc.H.nodes
  · exact (quiescent_iff s).1 hG.quiet v hv
  · exact hG.inv.outside v hv

theorem TInv.start {L : C.Lawful m c.fc.k mx} {s0 : CSt σ} (hG : Good L c.fc.H s0) (T : Tasks c.fc.H c.fc.k s0.part n P A) :
    TInv C c L s0 n A ⟨s0, A, fun _ => none, fun _ => []⟩ := by
  refine ⟨⟨[], rfl⟩, hG.inv, hG.wt, noReject_quiet hG, fun v _ => ⟨idle_quiet hG v, rfl⟩, fun t ht => ?_, fun t ht => ⟨T.out t ht, rfl⟩, le_refl _, by simp⟩
  exact .idle [] rfl rfl (by simp) (fun mv hm => ⟨idle_quiet hG _, ((T.ok t ht).src mv hm).1⟩)

/-- all moves of all tasks -/
def allMoves (A : Nat → List Mv) (n : Nat) : List Mv := (List.range n).flatMap A

theorem allMoves_nodup {H : HG} {k : Nat} {Φ : Assign} (T : Tasks H k Φ n P A) : ((allMoves A n).map Mv.node).Nodup := by
  unfold allMoves
  rw [List.map_flatMap, List.nodup_flatMap]
  refine ⟨fun t ht => (T.ok t (List.mem_range.1 ht)).nodup, ?_⟩
  refine List.Pairwise.imp_of_mem ?_ (List.nodup_range (n := n))
  intro a b ha hb hne v hv
  exact T.node_disj (List.mem_range.1 ha) (List.mem_range.1 hb) hne hv

/-- **Result of applying a matching**, for every interleaving of the tasks. -/
theorem TInv.done {L : C.Lawful m c.fc.k mx} (E : Env c.fc m mx) {s0 : CSt σ} (hG : Good L c.fc.H s0) (T : Tasks c.fc.H c.fc.k s0.part n P A) {x : TSt σ}
    (h : TInv C c L s0 n A x) (hf : x.finished n = true) :
    Good L c.fc.H x.s ∧ x.s.part = moveAll s0.part (allMoves A n) ∧ (∀ t, t < n → x.logs t = seqLog c.fc.H s0.part (A t)) ∧
    (∀ t, t < n → imp c.fc.o (x.logs t) = c.fc.H.objective s0.part c.fc.o - c.fc.H.objective (moveAll s0.part (A t)) c.fc.o) ∧
    c.fc.H.objective s0.part c.fc.o - c.fc.H.objective x.s.part c.fc.o = ((List.range n).map (fun t => imp c.fc.o (x.logs t))).sum := by
  have hfin : ∀ t, t < n → x.todo t = [] ∧ x.cur t = none := by
    intro t ht
    unfold TSt.finished at hf
    rw [List.all_eq_true] at hf
    have := hf t (List.mem_range.2 ht)
    simpa using this
  have hall : ∀ t, t < n → x.logs t = seqLog c.fc.H s0.part (A t) ∧ ∀ mv ∈ A t, x.s.proc mv.node = .idle ∧ x.s.part mv.node = some mv.dst := by
    intro t ht
    have h1 := h.task t ht
    obtain ⟨h2, h3⟩ := hfin t ht
    rw [h2, h3] at h1
    cases h1 with
    | idle D hA hl hD hT =>
      rw [List.append_nil] at hA
      rw [hA]; exact ⟨hl, hD⟩
  have hidle : ∀ v, x.s.proc v = .idle := by
    intro v
    by_cases hv : ∀ t, t < n → v ∉ (A t).map Mv.node
    · exact (h.out v hv).1
    · push Not at hv
      obtain ⟨t, ht, hv⟩ := hv
      obtain ⟨mv, hm, rfl⟩ := List.mem_map.1 hv
      exact ((hall t ht).2 mv hm).1
  have hq : x.s.quiescent c.fc.H = true := (quiescent_iff x.s).2 (fun v _ => hidle v)
  have hpart : x.s.part = moveAll s0.part (allMoves A n) := by
    funext v
    have hnd := allMoves_nodup T
    by_cases hv : ∀ t, t < n → v ∉ (A t).map Mv.node
    · rw [moveAll_other, (h.out v hv).2]
      unfold allMoves
      rw [List.map_flatMap, List.mem_flatMap]
      rintro ⟨t, ht, hh⟩
      exact hv t (List.mem_range.1 ht) hh
    · push Not at hv
      obtain ⟨t, ht, hv⟩ := hv
      obtain ⟨mv, hm, rfl⟩ := List.mem_map.1 hv
      rw [((hall t ht).2 mv hm).2, moveAll_mem _ hnd mv (List.mem_flatMap.2 ⟨t, List.mem_range.2 ht, hm⟩)]
  have hassigned : ∀ v ∈ c.fc.H.nodes, s0.part v ≠ none := by
    intro v hv
    obtain ⟨b, _, hb⟩ := hG.inv.assigned v hv
    rw [hb]; simp
  refine ⟨⟨h.inv, h.wt, hq⟩, hpart, fun t ht => (hall t ht).1, fun t ht => ?_, ?_⟩
  · unfold imp
    rw [(hall t ht).1, attr_seq E.wf (A t) hassigned (T.ok t ht).nodup (T.ok t ht).mem (fun mv hm => ((T.ok t ht).src mv hm).1)]
    omega
  · obtain ⟨as, hex⟩ := h.hist
    have := attr_exec E.wf E.fits hG.inv hG.quiet hex hq
    rw [h.sum] at this
    have hneg : ∀ l : List Nat, (l.map (fun t => imp c.fc.o (x.logs t))).sum = -(l.map (fun t => ((x.logs t).map (attrGain c.fc.o)).sum)).sum := by
      intro l
      induction l with
      | nil => simp
      | cons a l ih => simp only [List.map_cons, List.sum_cons, ih]; unfold imp; omega
    rw [hneg, this]
    omega

/-- A task that has work left can make a step. -/
theorem TInv.ready {L : C.Lawful m c.fc.k mx} (E : Env c.fc m mx) {s0 : CSt σ} (T : Tasks c.fc.H c.fc.k s0.part n P A) {x : TSt σ}
    (h : TInv C c L s0 n A x) {t : Nat} (hw : x.todo t ≠ [] ∨ x.cur t ≠ none) : ∃ y, tstep C c x t = some y := by
  have htn : t < n := by
    by_contra hh
    obtain ⟨h1, h2⟩ := h.rest t hh
    rcases hw with hw | hw
    · exact hw h1
    · exact hw h2
  have htask := h.task t htn
  unfold tstep
  generalize hcur : x.cur t = cur at htask hw
  cases htask with
  | idle D hA hl hD hT =>
    cases htodo : x.todo t with
    | nil => simp [htodo] at hw
    | cons mv rest =>
      simp only []
      rw [htodo] at hA hT
      by_cases hsd : mv.src = mv.dst
      · rw [if_pos hsd]; exact ⟨_, rfl⟩
      · rw [if_neg hsd]
        have hm : mv ∈ A t := by rw [hA]; simp
        have hidle := hT mv (by simp)
        have hdst : mv.dst < c.fc.k := by
          rcases (T.ok t htn).dst mv hm with hd | hd <;> rw [hd]
          · exact (T.lt t htn).1
          · exact (T.lt t htn).2
        simp only [CSt.step]
        rw [if_pos ⟨(T.ok t htn).mem mv hm, hdst, (isIdle_iff _ _).2 hidle.1⟩, hidle.2]
        simp only [ne_eq, hsd, not_false_eq_true, if_true]
        split_ifs <;> exact ⟨_, rfl⟩
  | busy D mv pr hA hne hl hD hT hR =>
    simp only []
    have : ∃ s', CSt.step C c.fc.H c.fc.k c.fc.o x.s (.tick mv.node) = some s' := by
      rcases hR with ⟨h, _, _⟩ | ⟨h, _, _⟩ | ⟨tl, h, _, _⟩
      · simp only [CSt.step]; rw [h]; exact ⟨_, rfl⟩
      · simp only [CSt.step]; rw [h]; exact ⟨_, rfl⟩
      · simp only [CSt.step]; rw [h]
        cases tl with
        | nil => exact ⟨_, rfl⟩
        | cons a tl =>
          cases a with
          | edge e => exact ⟨_, rfl⟩
          | cache op => cases op <;> exact ⟨_, rfl⟩
    obtain ⟨s', hs⟩ := this
    rw [hs]; exact ⟨_, rfl⟩

end
end DFlow
end Verif
