import Verif.Lemmas.Flow2
namespace Verif
namespace Flow
open DetLP (Mv moveAll Fit Good)
open CSt Rollback PHG

variable {σ : Type} {C : ConInfo σ} {c : Cfg} {m mx : Nat}

/-! ### One call -/

/-- state while the call that started in `s0` with the moves `A` is active, and after it -/
def CallInv (L : C.Lawful m c.k mx) (s0 : CSt σ) (A : List Mv) (y : FSt σ) : Prop :=
  (∃ j, y.job = some j ∧ j.all = A ∧ JobInv (c := c) L s0 y j) ∨
  (y.job = none ∧ (y.s.part = s0.part ∨ (y.s.part = moveAll s0.part (eff A) ∧ c.H.objective y.s.part c.o ≤ c.H.objective s0.part c.o)))

theorem JobInv.congr {L : C.Lawful m c.k mx} {s0 : CSt σ} {x y : FSt σ} {j : Job} (h : JobInv (c := c) L s0 x j) (h1 : y.s = x.s) (h2 : y.pw = x.pw) :
    JobInv (c := c) L s0 y j :=
  ⟨h.good, h.base, h.nodup, h.mem, h.bound, by rw [h1, h2]; exact h.forward, by rw [h1, h2]; exact h.backward⟩

def FAct.isBegin : FAct → Bool
  | .begin _ _ => true
  | _ => false

theorem CallInv.step {L : C.Lawful m c.k mx} (E : Env c m mx) {s0 : CSt σ} {A : List Mv} {x y : FSt σ} {a : FAct} (h : CallInv (c := c) L s0 A x)
    (ha : a.isBegin = false) (hst : step C c x a = some y) : CallInv (c := c) L s0 A y := by
  cases a with
  | begin t ms => simp [FAct.isBegin] at ha
  | read t =>
    obtain ⟨h1, h2, h3, h4, h5, _⟩ := read_same hst
    rcases h with ⟨j, hj, hA, hJ⟩ | ⟨hj, h⟩
    · exact Or.inl ⟨j, by rw [h3]; exact hj, hA, hJ.congr h1 h2⟩
    · exact Or.inr ⟨by rw [h3]; exact hj, by rw [h1]; exact h⟩
  | run =>
    rcases h with ⟨j, hj, hA, hJ⟩ | ⟨hj, h⟩
    · cases hJ.step E hj hst with
      | goes j' h1 h2 _ _ _ h4 => exact Or.inl ⟨j', h1, by rw [h2]; exact hA, h4⟩
      | success h1 h2 h3 h4 h5 h6 h7 => exact Or.inr ⟨h1, Or.inr ⟨by rw [← hA]; exact h4, h6⟩⟩
      | back h1 h2 h3 h4 h5 h6 => exact Or.inr ⟨h1, Or.inl h4⟩
    · unfold Flow.step at hst; rw [hj] at hst; simp at hst

theorem exec_induct' {Q : FSt σ → Prop} {P : FAct → Prop} (hstep : ∀ x a y, Q x → P a → step C c x a = some y → Q y) (as : List FAct) :
    ∀ {x y : FSt σ}, Q x → (∀ a ∈ as, P a) → exec C c x as = some y → Q y := by
  induction as with
  | nil => intro x y h _ he; simp only [exec, Option.some.injEq] at he; exact he ▸ h
  | cons a as ih =>
    intro x y h hP he
    simp only [exec] at he
    cases hs : Flow.step C c x a with
    | none => rw [hs] at he; simp at he
    | some z =>
      rw [hs] at he
      exact ih (hstep x a z h (hP a (by simp)) hs) (fun b hb => hP b (by simp [hb])) he

theorem call_spec {L : C.Lawful m c.k mx} (E : Env c m mx) {sI : CSt σ} {x y : FSt σ} {t : Nat} {ms : List (Nat × Nat)} {as : List FAct}
    (h : FInv C c L sI x) (hb : ∀ a ∈ as, a.isBegin = false) (he : exec C c x (.begin t ms :: as) = some y) (hj : y.job = none) :
    y.s.part = x.s.part ∨ ((∀ p ∈ ms, y.s.part p.1 = some p.2) ∧ (∀ v, v ∉ ms.map Prod.fst → y.s.part v = x.s.part v) ∧
      c.H.objective y.s.part c.o ≤ c.H.objective x.s.part c.o) := by
  simp only [exec] at he
  cases hs : Flow.step C c x (.begin t ms) with
  | none => rw [hs] at he; simp at he
  | some z =>
    rw [hs] at he
    obtain ⟨h1, h2, _, _, _, _, _, h7, h8⟩ := begin_spec h.free hs
    have hFr := h.free h1
    have hmem : ∀ p ∈ ms, p.1 ∈ c.H.nodes ∧ p.2 < c.k := by
      unfold Flow.step at hs
      dsimp only at hs
      split_ifs at hs with hg <;> first | exact hg.2.2.2 | simp at hs
    have hC : CallInv (c := c) L x.s (ms.map (fun m => (⟨m.1, (x.s.part m.1).getD 0, m.2, 0⟩ : Mv))) z := by
      rcases h8 with ⟨h9, _⟩ | ⟨j, hj', _, hA, _, _, hJ⟩
      · exact Or.inr ⟨h9, Or.inl (by rw [h2])⟩
      · exact Or.inl ⟨j, hj', hA, hJ⟩
    have hC' := exec_induct' (Q := CallInv (c := c) L x.s _) (P := fun a => a.isBegin = false) (fun _ _ _ q p s => q.step E p s) as hC hb he
    rcases hC' with ⟨j, hj', _⟩ | ⟨_, hh | ⟨hh, ho⟩⟩
    · rw [hj] at hj'; simp at hj'
    · exact Or.inl hh
    · refine Or.inr ⟨fun p hp => ?_, fun v hv => ?_, ho⟩
      · rw [hh]
        have hn : ((eff (ms.map (fun m => (⟨m.1, (x.s.part m.1).getD 0, m.2, 0⟩ : Mv)))).map Mv.node).Nodup := by
          unfold eff
          refine List.Nodup.sublist (List.Sublist.map _ List.filter_sublist) ?_
          rw [List.map_map]; exact h7
        by_cases hd : (x.s.part p.1).getD 0 = p.2
        · rw [DetLP.moveAll_other]
          · obtain ⟨b, _, hb⟩ := hFr.good.inv.assigned p.1 (hmem p hp).1
            rw [hb] at hd ⊢
            simpa using hd
          · intro hin
            obtain ⟨mv, hmv, he⟩ := List.mem_map.1 hin
            unfold eff at hmv
            obtain ⟨hmv1, hmv2⟩ := List.mem_filter.1 hmv
            obtain ⟨q, hq, rfl⟩ := List.mem_map.1 hmv1
            have : q = p := List.inj_on_of_nodup_map h7 hq hp he
            subst this
            simp [hd] at hmv2
        · have := DetLP.moveAll_mem (eff (ms.map (fun m => (⟨m.1, (x.s.part m.1).getD 0, m.2, 0⟩ : Mv)))) (Φ := x.s.part) hn
            ⟨p.1, (x.s.part p.1).getD 0, p.2, 0⟩ (by
              unfold eff
              exact List.mem_filter.2 ⟨List.mem_map.2 ⟨p, hp, rfl⟩, by simpa using hd⟩)
          exact this
      · rw [hh, DetLP.moveAll_other]
        intro hin
        obtain ⟨mv, hmv, he⟩ := List.mem_map.1 hin
        unfold eff at hmv
        obtain ⟨hmv1, _⟩ := List.mem_filter.1 hmv
        obtain ⟨q, hq, rfl⟩ := List.mem_map.1 hmv1
        exact hv (List.mem_map.2 ⟨q, hq, he⟩)

/-! ### The owner of the lock is never stuck -/

/-- the running call of `changeNodePart` is active -/
def Live (x : FSt σ) : Prop := ∀ j u, x.job = some j → j.cur = some u → x.s.proc u ≠ .idle

theorem Live.step {x y : FSt σ} {a : FAct} (h : Live x) (hst : step C c x a = some y) : Live y := by
  cases a with
  | begin t ms =>
    unfold Flow.step at hst
    dsimp only at hst
    split_ifs at hst with hg hok
    · simp only [Option.some.injEq] at hst; subst hst
      intro j u hj hu
      simp only [Option.some.injEq] at hj; subst hj; simp at hu
    · simp only [Option.some.injEq] at hst; subst hst
      intro j u hj hu
      have := hg.1
      have hj' : x.job = some j := hj
      rw [hj'] at this; simp at this
  | read t =>
    obtain ⟨h1, _, h3, _⟩ := read_same hst
    intro j u hj hu
    rw [h1]; exact h j u (by rw [← h3]; exact hj) hu
  | run =>
    unfold Flow.step at hst
    cases hj : x.job with
    | none => rw [hj] at hst; simp at hst
    | some j =>
      rw [hj] at hst
      dsimp only at hst
      cases hc : j.cur with
      | some u =>
        rw [hc] at hst
        dsimp only at hst
        cases hs : CSt.step C c.H c.k c.o x.s (.tick u) with
        | none => rw [hs] at hst; simp at hst
        | some s' =>
          rw [hs] at hst
          simp only [Option.some.injEq] at hst
          subst hst
          intro j' v hj' hv
          simp only [Option.some.injEq] at hj'
          subst hj'
          dsimp only at hv ⊢
          intro hid
          by_cases hi : s'.isIdle u
          · rw [if_pos hi] at hv; simp at hv
          · rw [if_neg hi] at hv
            simp only [Option.some.injEq] at hv
            subst hv
            exact hi ((isIdle_iff _ _).2 hid)
      | none =>
        rw [hc] at hst
        dsimp only at hst
        cases ht : j.todo with
        | cons a rest =>
          rw [ht] at hst
          dsimp only at hst
          by_cases hab : a.src = a.dst
          · rw [if_pos hab] at hst
            simp only [Option.some.injEq] at hst
            subst hst
            intro j' v hj' hv
            simp only [Option.some.injEq] at hj'
            subst hj'
            simp [hc] at hv
          · rw [if_neg hab] at hst
            cases hs : CSt.step C c.H c.k c.o x.s (.start a.node a.dst maxHNW) with
            | none => rw [hs] at hst; simp at hst
            | some s' =>
              rw [hs] at hst
              simp only [Option.some.injEq] at hst
              subst hst
              intro j' v hj' hv
              simp only [Option.some.injEq] at hj'
              subst hj'
              simp only [Option.some.injEq] at hv
              subst hv
              cases step_Step hs with
              | accept hu hd hi hp hne hle => simp [setProc_same]
              | reject hu hd hi hp hne => simp [setProc_same]
        | nil =>
          rw [ht] at hst
          dsimp only at hst
          split_ifs at hst <;>
            (simp only [Option.some.injEq] at hst; subst hst; intro j' v hj' hv; simp at hj')
          subst hj'; simp [hc] at hv

theorem Phase.cut {s0 s : CSt σ} {A todo : List Mv} {cur : Option Nat} {H : HG} {k : Nat} {o : Metrics.Obj} (h : Phase C H k o s0 A todo cur s) :
    ∃ D, A = D ++ todo ∧ Phase C H k o s0 D [] cur s := by
  obtain ⟨D, as, h1, h2, h3⟩ := h.run
  exact ⟨D, h1, ⟨⟨D, as, by simp, h2, h3⟩, h.quiet, h.alone⟩⟩

/-- the next move can be started -/
theorem Phase.ready {L : C.Lawful m c.k mx} (E : Env c m mx) {s0 s : CSt σ} {A rest : List Mv} {a : Mv} (hG : Good L c.H s0) (hA : (A.map Mv.node).Nodup)
    (hm : ∀ mv ∈ A, mv.node ∈ c.H.nodes ∧ mv.dst < c.k ∧ (mv.src ≠ mv.dst → s0.part mv.node = some mv.src)) (h : Phase C c.H c.k c.o s0 A (a :: rest) none s)
    (hab : a.src ≠ a.dst) : CSt.step C c.H c.k c.o s (.start a.node a.dst maxHNW) ≠ none := by
  obtain ⟨D, hD, hP⟩ := h.cut
  have hn : (D.map Mv.node).Nodup := by
    rw [hD, List.map_append] at hA
    exact (List.nodup_append.1 hA).1
  obtain ⟨g, e, _⟩ := hP.done E.wf E.fits E.nw E.tot hG hn
  have haA : a ∈ A := by rw [hD]; simp
  obtain ⟨m1, m2, m3⟩ := hm a haA
  have hpa : s.part a.node = some a.src := by
    rw [e, DetLP.moveAll_other]
    · exact m3 hab
    · intro hin
      obtain ⟨mv, hmv, he⟩ := List.mem_map.1 hin
      unfold eff at hmv
      have hmD := (List.mem_filter.1 hmv).1
      rw [hD, List.map_append, List.map_cons] at hA
      have := (List.nodup_append.1 hA).2.2 mv.node (List.mem_map.2 ⟨mv, hmD, rfl⟩) a.node (by simp)
      exact this he
  have hid : s.isIdle a.node := (isIdle_iff _ _).2 ((quiescent_iff s).1 g.quiet a.node m1)
  unfold CSt.step
  dsimp only
  rw [if_pos ⟨m1, m2, hid⟩, hpa]
  dsimp only
  rw [if_pos hab]
  split_ifs <;> simp

theorem not_stuck {L : C.Lawful m c.k mx} (E : Env c m mx) {s0 : CSt σ} {x : FSt σ} {j : Job} (hj : x.job = some j) (h : JobInv (c := c) L s0 x j) (hL : Live x) :
    step C c x .run ≠ none := by
  have hfit : Fit c.H c.k s0.part (eff j.all) := fit_eff h.nodup h.mem
  unfold Flow.step
  rw [hj]
  dsimp only
  cases hc : j.cur with
  | some u =>
    dsimp only
    have hp := hL j u hj hc
    have : CSt.step C c.H c.k c.o x.s (.tick u) ≠ none := by
      unfold CSt.step
      dsimp only
      split <;> simp_all
    cases hs : CSt.step C c.H c.k c.o x.s (.tick u) with
    | none => exact absurd hs this
    | some s' => simp
  | none =>
    dsimp only
    cases ht : j.todo with
    | cons a rest =>
      dsimp only
      by_cases hab : a.src = a.dst
      · rw [if_pos hab]; simp
      · rw [if_neg hab]
        have : CSt.step C c.H c.k c.o x.s (.start a.node a.dst maxHNW) ≠ none := by
          by_cases hb : j.back = true
          · obtain ⟨s1, p, q, _⟩ := h.backward hb
            obtain ⟨g1, e1, _⟩ := p.done E.wf E.fits E.nw E.tot h.good h.nodup
            rw [hc, ht] at q
            refine q.ready E g1 (by rw [List.map_map]; exact h.nodup) ?_ hab
            intro mv hmv
            obtain ⟨mv', hmv', rfl⟩ := List.mem_map.1 hmv
            obtain ⟨m1, m2, m3⟩ := h.mem mv' hmv'
            refine ⟨m1, h.good.inv.range _ _ m3, fun hne => ?_⟩
            rw [e1]
            exact DetLP.moveAll_mem _ hfit.nodup mv' (by
              unfold eff
              refine List.mem_filter.2 ⟨hmv', ?_⟩
              have : mv'.dst ≠ mv'.src := hne
              simpa using this.symm)
          · obtain ⟨p, _, _⟩ := h.forward (by simpa using hb)
            rw [hc, ht] at p
            exact p.ready E h.good h.nodup (fun mv hmv => ⟨(h.mem mv hmv).1, (h.mem mv hmv).2.1, fun _ => (h.mem mv hmv).2.2⟩) hab
        cases hs : CSt.step C c.H c.k c.o x.s (.start a.node a.dst maxHNW) with
        | none => exact absurd hs this
        | some s' => simp
    | nil =>
      dsimp only
      split_ifs <;> simp

end Flow
end Verif
