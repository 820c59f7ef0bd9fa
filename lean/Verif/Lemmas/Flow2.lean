import Verif.Lemmas.Flow1
namespace Verif
namespace Flow
open DetLP (Mv moveAll Fit Good)
open CSt Rollback PHG

variable {σ : Type} {C : ConInfo σ} {c : Cfg} {m mx : Nat}

/-- Input: a hypergraph that fits into the data structures and whose total weight fits into 32 bits. -/
structure Env (c : Cfg) (m mx : Nat) : Prop where
  wf : c.H.WF
  fits : c.H.Fits m mx
  nw : ∀ u ∈ c.H.nodes, 0 ≤ c.H.nw u
  tot : (c.H.nodes.map c.H.nw).sum ≤ maxHNW

/-- an active call that started in `s0` -/
structure JobInv (L : C.Lawful m c.k mx) (s0 : CSt σ) (x : FSt σ) (j : Job) : Prop where
  good : Good L c.H s0
  base : j.base = s0.log.length
  nodup : (j.all.map Mv.node).Nodup
  mem : ∀ mv ∈ j.all, mv.node ∈ c.H.nodes ∧ mv.dst < c.k ∧ s0.part mv.node = some mv.src
  bound : ∀ b, b < c.k → s0.wt b ≤ c.mx b
  forward : j.back = false → Phase C c.H c.k c.o s0 j.all j.todo j.cur x.s ∧ (∀ b, b < c.k → x.pw b = s0.wt b + deltas c.H.nw j.all b) ∧
    ∀ b, b < c.k → x.pw b ≤ c.mx b
  backward : j.back = true → ∃ s1, Phase C c.H c.k c.o s0 j.all [] none s1 ∧ Phase C c.H c.k c.o s1 (j.all.map Mv.swap) j.todo j.cur x.s ∧
    ∀ b, b < c.k → x.pw b = s0.wt b

/-- no call is active -/
structure FreeInv (L : C.Lawful m c.k mx) (obj0 : Int) (x : FSt σ) : Prop where
  good : Good L c.H x.s
  wt : ∀ b, b < c.k → x.pw b = x.s.wt b
  bound : ∀ b, b < c.k → x.s.wt b ≤ c.mx b
  obj : c.H.objective x.s.part c.o = obj0 - x.total

/-- effect of one step of an active call that started in `s0` with `total = tot0` -/
inductive JobStep (L : C.Lawful m c.k mx) (s0 : CSt σ) (j : Job) (x y : FSt σ) : Prop
  | goes (j' : Job) (h : y.job = some j') (hall : j'.all = j.all) (ht : j'.thread = j.thread) (htot : y.total = x.total) (hk : y.kept = x.kept)
      (hJ : JobInv (c := c) L s0 y j')
  | success (h : y.job = none) (hk : y.kept = x.kept) (hG : Good L c.H y.s) (hp : y.s.part = moveAll s0.part (eff j.all))
      (htot : y.total = x.total + (c.H.objective s0.part c.o - c.H.objective y.s.part c.o)) (hn : c.H.objective y.s.part c.o ≤ c.H.objective s0.part c.o)
      (hw : ∀ b, b < c.k → y.pw b = y.s.wt b ∧ y.s.wt b ≤ c.mx b)
  | back (h : y.job = none) (hk : y.kept = x.kept) (hG : Good L c.H y.s) (hp : y.s.part = s0.part) (htot : y.total = x.total)
      (hw : ∀ b, b < c.k → y.pw b = y.s.wt b ∧ y.s.wt b ≤ c.mx b)

theorem weights_after {L : C.Lawful m c.k mx} (E : Env c m mx) {s0 s1 : CSt σ} {A : List Mv} (hG : Good L c.H s0) (hG1 : Good L c.H s1)
    (hF : Fit c.H c.k s0.part (eff A)) (hp : s1.part = moveAll s0.part (eff A)) {b : Nat} (hb : b < c.k) : s1.wt b = s0.wt b + deltas c.H.nw A b := by
  rw [hG1.weight E.wf hb, hG.weight E.wf hb, hp, blockWeight_moves E.wf _ b hF, deltas_eq]

theorem JobInv.step {L : C.Lawful m c.k mx} (E : Env c m mx) {s0 : CSt σ} {x y : FSt σ} {j : Job} (hj : x.job = some j) (h : JobInv (c := c) L s0 x j)
    (hst : step C c x .run = some y) : JobStep (c := c) L s0 j x y := by
  unfold Flow.step at hst
  rw [hj] at hst
  dsimp only at hst
  have hfit : Fit c.H c.k s0.part (eff j.all) := fit_eff h.nodup h.mem
  cases hc : j.cur with
  | some u =>
    rw [hc] at hst
    dsimp only at hst
    cases hs : CSt.step C c.H c.k c.o x.s (.tick u) with
    | none => rw [hs] at hst; simp at hst
    | some s' =>
      rw [hs] at hst
      simp only [Option.some.injEq] at hst
      subst hst
      refine .goes _ rfl rfl rfl rfl rfl ⟨h.good, h.base, h.nodup, h.mem, h.bound, fun hb => ?_, fun hb => ?_⟩
      · obtain ⟨p, q, r⟩ := h.forward hb
        rw [hc] at p
        exact ⟨p.tick hs, q, r⟩
      · obtain ⟨s1, p, q, r⟩ := h.backward hb
        rw [hc] at q
        exact ⟨s1, p, q.tick hs, r⟩
  | none =>
    rw [hc] at hst
    dsimp only at hst
    cases htd : j.todo with
    | cons a rest =>
      rw [htd] at hst
      dsimp only at hst
      by_cases hab : a.src = a.dst
      · rw [if_pos hab] at hst
        simp only [Option.some.injEq] at hst
        subst hst
        refine .goes _ rfl rfl rfl rfl rfl ⟨h.good, h.base, h.nodup, h.mem, h.bound, fun hb => ?_, fun hb => ?_⟩
        · obtain ⟨p, q, r⟩ := h.forward hb
          rw [hc, htd] at p
          exact ⟨by simpa [hc] using p.skip hab, q, r⟩
        · obtain ⟨s1, p, q, r⟩ := h.backward hb
          rw [hc, htd] at q
          exact ⟨s1, p, by simpa [hc] using q.skip hab, r⟩
      · rw [if_neg hab] at hst
        cases hs : CSt.step C c.H c.k c.o x.s (.start a.node a.dst maxHNW) with
        | none => rw [hs] at hst; simp at hst
        | some s' =>
          rw [hs] at hst
          simp only [Option.some.injEq] at hst
          subst hst
          refine .goes _ rfl rfl rfl rfl rfl ⟨h.good, h.base, h.nodup, h.mem, h.bound, fun hb => ?_, fun hb => ?_⟩
          · obtain ⟨p, q, r⟩ := h.forward hb
            rw [hc, htd] at p
            exact ⟨p.start hab hs, q, r⟩
          · obtain ⟨s1, p, q, r⟩ := h.backward hb
            rw [hc, htd] at q
            exact ⟨s1, p, q.start hab hs, r⟩
    | nil =>
      rw [htd] at hst
      dsimp only at hst
      by_cases hbk : j.back = true
      · obtain ⟨s1, p, q, r⟩ := h.backward hbk
        rw [if_pos hbk] at hst
        simp only [Option.some.injEq] at hst
        subst hst
        rw [hc, htd] at q
        obtain ⟨g1, e1, a1⟩ := p.done E.wf E.fits E.nw E.tot h.good h.nodup
        have hn2 : ((j.all.map Mv.swap).map Mv.node).Nodup := by
          rw [List.map_map]; exact h.nodup
        obtain ⟨g2, e2, a2⟩ := q.done E.wf E.fits E.nw E.tot g1 hn2
        have hpart : x.s.part = s0.part := by
          rw [e2, e1, eff_swap]
          exact DetLP.moveAll_swap hfit
        have himp : improvement c.o x.s.log j.base = 0 := by
          obtain ⟨as1, ex1⟩ := p.exec
          obtain ⟨as2, ex2⟩ := q.exec
          have := attr_exec (o := c.o) E.wf E.fits h.good.inv h.good.quiet (as := as1 ++ as2) (s' := x.s) (by rw [exec_append, ex1]; exact ex2) g2.quiet
          unfold improvement
          rw [h.base, this, hpart]
          omega
        have hwt : ∀ b, b < c.k → x.s.wt b = s0.wt b := fun b hb => by
          rw [g2.weight E.wf hb, h.good.weight E.wf hb, hpart]
        refine .back rfl rfl g2 hpart (by show x.total + _ = _; rw [himp]; omega) (fun b hb => ⟨?_, ?_⟩)
        · show x.pw b = x.s.wt b
          rw [r b hb, hwt b hb]
        · show x.s.wt b ≤ _
          rw [hwt b hb]; exact h.bound b hb
      · have hbf : j.back = false := by simpa using hbk
        obtain ⟨p, q, r⟩ := h.forward hbf
        rw [if_neg hbk] at hst
        have p' := p
        rw [hc, htd] at p'
        obtain ⟨g1, e1, a1⟩ := p'.done E.wf E.fits E.nw E.tot h.good h.nodup
        have himp : improvement c.o x.s.log j.base = c.H.objective s0.part c.o - c.H.objective x.s.part c.o := by
          unfold improvement
          rw [h.base, a1]
          omega
        have hwt : ∀ b, b < c.k → x.s.wt b = s0.wt b + deltas c.H.nw j.all b := fun b hb => weights_after E h.good g1 hfit e1 hb
        by_cases hi : improvement c.o x.s.log j.base < 0
        · rw [if_pos hi] at hst
          obtain ⟨u1, u2⟩ := partWeightUpdate_spec c.k c.mx (fun b => -deltas c.H.nw j.all b) x.pw
          have hok : (partWeightUpdate c.k c.mx (fun b => -deltas c.H.nw j.all b) x.pw).1 = true := by
            rw [u1]
            intro b hb
            rw [q b hb]
            have := h.bound b hb
            omega
          rw [if_pos hok] at hst
          simp only [Option.some.injEq] at hst
          subst hst
          refine .goes _ rfl rfl rfl rfl rfl ⟨h.good, h.base, h.nodup, h.mem, h.bound, fun hb => by simp at hb, fun hb => ?_⟩
          refine ⟨x.s, p', by simpa [hc] using Phase.begin g1.quiet _, fun b hb => ?_⟩
          show (partWeightUpdate c.k c.mx (fun b => -deltas c.H.nw j.all b) x.pw).2 b = _
          rw [u2 b, if_pos ⟨hok, hb⟩, q b hb]
          omega
        · rw [if_neg hi] at hst
          simp only [Option.some.injEq] at hst
          subst hst
          refine .success rfl rfl g1 e1 (by show x.total + _ = _; rw [himp]) (by show c.H.objective x.s.part c.o ≤ _; omega) (fun b hb => ⟨?_, ?_⟩)
          · show x.pw b = x.s.wt b
            rw [q b hb, hwt b hb]
          · show x.s.wt b ≤ _
            rw [hwt b hb, ← q b hb]; exact r b hb

/-- everything about an execution from `sI` -/
structure FInv (C : ConInfo σ) (c : Cfg) (L : C.Lawful m c.k mx) (sI : CSt σ) (x : FSt σ) : Prop where
  hist : ∃ as, CSt.exec C c.H c.k c.o sI as = some x.s
  kept : x.kept = 0
  total : 0 ≤ x.total
  free : x.job = none → FreeInv (c := c) L (c.H.objective sI.part c.o) x
  busy : ∀ j, x.job = some j → ∃ s0, JobInv (c := c) L s0 x j ∧ c.H.objective s0.part c.o = c.H.objective sI.part c.o - x.total

/-- a call of `changeNodePart` is executed by `run` -/
theorem run_hist {x y : FSt σ} (h : step C c x .run = some y) : ∃ as, CSt.exec C c.H c.k c.o x.s as = some y.s := by
  unfold step at h
  cases hj : x.job with
  | none => rw [hj] at h; simp at h
  | some j =>
    rw [hj] at h
    dsimp only at h
    cases hc : j.cur with
    | some u =>
      rw [hc] at h
      dsimp only at h
      cases hs : CSt.step C c.H c.k c.o x.s (.tick u) with
      | none => rw [hs] at h; simp at h
      | some s' =>
        rw [hs] at h
        simp only [Option.some.injEq] at h
        subst h
        exact ⟨[.tick u], by simp [CSt.exec, hs]⟩
    | none =>
      rw [hc] at h
      dsimp only at h
      cases ht : j.todo with
      | cons a rest =>
        rw [ht] at h
        dsimp only at h
        by_cases hab : a.src = a.dst
        · rw [if_pos hab] at h
          simp only [Option.some.injEq] at h
          subst h
          exact ⟨[], rfl⟩
        · rw [if_neg hab] at h
          cases hs : CSt.step C c.H c.k c.o x.s (.start a.node a.dst maxHNW) with
          | none => rw [hs] at h; simp at h
          | some s' =>
            rw [hs] at h
            simp only [Option.some.injEq] at h
            subst h
            exact ⟨[.start a.node a.dst maxHNW], by simp only [CSt.exec, hs]⟩
      | nil =>
        rw [ht] at h
        dsimp only at h
        split_ifs at h <;> (simp only [Option.some.injEq] at h; subst h; exact ⟨[], rfl⟩)

/-- the start of a call -/
theorem begin_spec {L : C.Lawful m c.k mx} {obj0 : Int} {x y : FSt σ} {t : Nat} {ms : List (Nat × Nat)} (hF : x.job = none → FreeInv (c := c) L obj0 x)
    (h : step C c x (.begin t ms) = some y) :
    x.job = none ∧ y.s = x.s ∧ y.total = x.total ∧ y.kept = x.kept ∧ y.pend = x.pend ∧ y.qg = x.qg ∧ y.reverted = x.reverted ∧ (ms.map Prod.fst).Nodup ∧
    ((y.job = none ∧ ∀ b, b < c.k → y.pw b = x.pw b) ∨
     ∃ j, y.job = some j ∧ j.thread = t ∧ j.all = ms.map (fun m => (⟨m.1, (x.s.part m.1).getD 0, m.2, 0⟩ : Mv)) ∧ j.back = false ∧ j.base = x.s.log.length ∧
       JobInv (c := c) L x.s y j) := by
  unfold step at h
  dsimp only at h
  by_cases hg : x.job.isNone ∧ x.pend t = [] ∧ (ms.map Prod.fst).Nodup ∧ (∀ m ∈ ms, m.1 ∈ c.H.nodes ∧ m.2 < c.k)
  · rw [if_pos hg] at h
    obtain ⟨g1, g2, g3, g4⟩ := hg
    have hjn : x.job = none := by simpa using g1
    have hFr := hF hjn
    obtain ⟨u1, u2⟩ := partWeightUpdate_spec c.k c.mx (deltas c.H.nw (ms.map (fun m => (⟨m.1, (x.s.part m.1).getD 0, m.2, 0⟩ : Mv)))) x.pw
    split_ifs at h with hok
    · simp only [Option.some.injEq] at h
      subst h
      refine ⟨hjn, rfl, rfl, rfl, rfl, rfl, rfl, g3, Or.inr ⟨_, rfl, rfl, rfl, rfl, rfl, ⟨hFr.good, rfl, ?_, ?_, hFr.bound, fun _ => ⟨Phase.begin hFr.good.quiet _, ?_, ?_⟩, ?_⟩⟩⟩
      · simp only [List.map_map]
        exact g3
      · intro mv hmv
        obtain ⟨p, hp, rfl⟩ := List.mem_map.1 hmv
        obtain ⟨b, hb, hpb⟩ := hFr.good.inv.assigned p.1 (g4 p hp).1
        refine ⟨(g4 p hp).1, (g4 p hp).2, ?_⟩
        show x.s.part p.1 = some ((x.s.part p.1).getD 0)
        rw [hpb]; rfl
      · intro b hb
        show (partWeightUpdate c.k c.mx _ x.pw).2 b = _
        rw [u2 b, if_pos ⟨hok, hb⟩, hFr.wt b hb]
      · intro b hb
        show (partWeightUpdate c.k c.mx _ x.pw).2 b ≤ _
        rw [u2 b, if_pos ⟨hok, hb⟩]
        exact u1.1 hok b hb
      · intro hb
        simp at hb
    · simp only [Option.some.injEq] at h
      subst h
      refine ⟨hjn, rfl, rfl, rfl, rfl, rfl, rfl, g3, Or.inl ⟨hjn, fun b hb => ?_⟩⟩
      show (partWeightUpdate c.k c.mx _ x.pw).2 b = _
      rw [u2 b, if_neg (fun hh => hok hh.1)]
      omega
  · rw [if_neg hg] at h
    simp at h

theorem read_same {x y : FSt σ} {t : Nat} (h : step C c x (.read t) = some y) :
    y.s = x.s ∧ y.pw = x.pw ∧ y.job = x.job ∧ y.total = x.total ∧ y.kept = x.kept ∧ y.reverted = x.reverted := by
  unfold step at h
  dsimp only at h
  cases hp : x.pend t with
  | nil => rw [hp] at h; simp at h
  | cons a rest =>
    obtain ⟨e, b, i⟩ := a
    rw [hp] at h
    dsimp only at h
    split_ifs at h <;> (simp only [Option.some.injEq] at h; subst h; exact ⟨rfl, rfl, rfl, rfl, rfl, rfl⟩)

theorem FInv.step {L : C.Lawful m c.k mx} (E : Env c m mx) {sI : CSt σ} {x y : FSt σ} {a : FAct} (h : FInv C c L sI x) (hst : step C c x a = some y) :
    FInv C c L sI y := by
  cases a with
  | begin t ms =>
    obtain ⟨h1, h2, h3, h4, _, _, _, _, h8⟩ := begin_spec h.free hst
    have hFr := h.free h1
    refine ⟨by rw [h2]; exact h.hist, by rw [h4]; exact h.kept, by rw [h3]; exact h.total, ?_, ?_⟩
    · intro hn
      rcases h8 with ⟨_, h9⟩ | ⟨j, hj, _⟩
      · refine ⟨by rw [h2]; exact hFr.good, fun b hb => ?_, by rw [h2]; exact hFr.bound, by rw [h2, h3]; exact hFr.obj⟩
        rw [h9 b hb, h2]; exact hFr.wt b hb
      · rw [hj] at hn; simp at hn
    · intro j' hj'
      rcases h8 with ⟨h9, _⟩ | ⟨j, hj, _, _, _, _, hJ⟩
      · rw [h9] at hj'; simp at hj'
      · rw [hj] at hj'
        simp only [Option.some.injEq] at hj'
        subst hj'
        exact ⟨x.s, hJ, by rw [h3]; exact hFr.obj⟩
  | read t =>
    obtain ⟨h1, h2, h3, h4, h5, _⟩ := read_same hst
    refine ⟨by rw [h1]; exact h.hist, by rw [h5]; exact h.kept, by rw [h4]; exact h.total, ?_, ?_⟩
    · intro hn
      have := h.free (by rw [← h3]; exact hn)
      exact ⟨by rw [h1]; exact this.good, by rw [h1, h2]; exact this.wt, by rw [h1]; exact this.bound, by rw [h1, h4]; exact this.obj⟩
    · intro j hj
      obtain ⟨s0, hJ, ho⟩ := h.busy j (by rw [← h3]; exact hj)
      refine ⟨s0, ⟨hJ.good, hJ.base, hJ.nodup, hJ.mem, hJ.bound, ?_, ?_⟩, by rw [h4]; exact ho⟩
      · rw [h1, h2]; exact hJ.forward
      · rw [h1, h2]; exact hJ.backward
  | run =>
    have hh : ∃ as, CSt.exec C c.H c.k c.o sI as = some y.s := by
      obtain ⟨as, h1⟩ := h.hist
      obtain ⟨as', h2⟩ := run_hist hst
      exact ⟨as ++ as', by rw [exec_append, h1]; exact h2⟩
    cases hj : x.job with
    | none => unfold Flow.step at hst; rw [hj] at hst; simp at hst
    | some j =>
      obtain ⟨s0, hJ, ho⟩ := h.busy j hj
      cases hJ.step E hj hst with
      | goes j' h1 _ _ h2 h3 h4 =>
        refine ⟨hh, by rw [h3]; exact h.kept, by rw [h2]; exact h.total, fun hn => by rw [h1] at hn; simp at hn, ?_⟩
        intro j2 hj2
        rw [h1] at hj2
        simp only [Option.some.injEq] at hj2
        subst hj2
        exact ⟨s0, h4, by rw [h2]; exact ho⟩
      | success h1 h2 h3 h4 h5 h6 h7 =>
        have ht := h.total
        refine ⟨hh, by rw [h2]; exact h.kept, by rw [h5]; omega, fun _ => ⟨h3, fun b hb => (h7 b hb).1, fun b hb => (h7 b hb).2, by rw [h5]; omega⟩, ?_⟩
        intro j2 hj2
        rw [h1] at hj2
        simp at hj2
      | back h1 h2 h3 h4 h5 h6 =>
        refine ⟨hh, by rw [h2]; exact h.kept, by rw [h5]; exact h.total, fun _ => ⟨h3, fun b hb => (h6 b hb).1, fun b hb => (h6 b hb).2, by rw [h5, h4]; exact ho⟩, ?_⟩
        intro j2 hj2
        rw [h1] at hj2
        simp at hj2

theorem exec_induct {Q : FSt σ → Prop} (hstep : ∀ x a y, Q x → step C c x a = some y → Q y) (as : List FAct) :
    ∀ {x y : FSt σ}, Q x → exec C c x as = some y → Q y := by
  induction as with
  | nil => intro x y h he; simp only [exec, Option.some.injEq] at he; exact he ▸ h
  | cons a as ih =>
    intro x y h he
    simp only [exec] at he
    cases hs : Flow.step C c x a with
    | none => rw [hs] at he; simp at he
    | some z => rw [hs] at he; exact ih (hstep x a z h hs) he

theorem FInv.exec {L : C.Lawful m c.k mx} (E : Env c m mx) {sI : CSt σ} {x y : FSt σ} {as : List FAct} (h : FInv C c L sI x) (he : exec C c x as = some y) :
    FInv C c L sI y :=
  exec_induct (fun _ _ _ h hst => h.step E hst) as h he

theorem FInv.start {L : C.Lawful m c.k mx} {s : CSt σ} (hG : Good L c.H s) (hb : ∀ b, b < c.k → s.wt b ≤ c.mx b) (order : List Nat) :
    FInv C c L s (start C s order) :=
  ⟨⟨[], rfl⟩, rfl, le_refl _, fun _ => ⟨hG, fun _ _ => rfl, hb, by simp [Flow.start]⟩, fun j hj => by simp [Flow.start] at hj⟩

end Flow
end Verif
