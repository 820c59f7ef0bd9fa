import Verif.Lemmas.DetC8
/-!
# Lemmas: a round has one result; every round can be completed
-/
namespace Verif
namespace DetC
open SMap (wr)
variable {α : Type} {c : Cfg α}

/-- states that differ only in the order of the shared vectors -/
structure Same (a b : DC) : Prop where
  cl : a.cl = b.cl
  cw : a.cw = b.cw
  opp : a.opp = b.opp
  prop : a.prop = b.prop
  fv : a.fv = b.fv

theorem comp_asymm {p : Nat → Nat} {a b : Nat} (h : comp c p a b) : ¬ comp c p b a := by
  unfold comp at *; omega

theorem comp_trans {p : Nat → Nat} {a b d : Nat} (h : comp c p a b) (h' : comp c p b d) : comp c p a d := by
  unfold comp at *; omega

theorem comp_total {p : Nat → Nat} {a b : Nat} (h : a ≠ b) : comp c p a b ∨ comp c p b a := by
  unfold comp; omega

theorem rd_det {us : List Nat} {s r s2 r2 s' r' : DC} {mv mv' : Nat → Prop} (hS : Same s r)
    (h : Rd c us s s2 s' mv) (h' : Rd c us r r2 r' mv') (e1 : s2.prop = r2.prop) (e2 : s2.opp = r2.opp) (em : mv = mv') (hf : c.hasFixed = false) :
    Same s' r' ∧ s'.cnt = r'.cnt := by
  subst em
  have ecw : s'.cw = r'.cw := by funext t; rw [h.cw, h'.cw, hS.cw, e1, e2]
  refine ⟨⟨?_, ecw, ?_, by rw [h.prop, h'.prop, e1], by rw [h.fvE hf, h'.fvE hf, hS.fv]⟩, ?_⟩
  · funext v
    by_cases hv : mv v
    · rw [h.cl v hv, h'.cl v hv, e1]
    · rw [h.clN v hv, h'.clN v hv, hS.cl]
  · funext t; rw [h.opp, h'.opp, ecw]
  · have := h.cnt; have := h'.cnt
    rw [e2] at *
    omega

theorem Same.rinv {rest : List Nat} {s r : DC} (hS : Same s r) (h : RInv c rest s) : RInv c rest r := by
  obtain ⟨h1, h2, h3, h4, h5⟩ := h
  obtain ⟨e1, e2, e3, e4, e5⟩ := hS
  rw [e3, e2] at h1
  rw [e1] at h2
  rw [e4] at h3 h5
  rw [e2] at h4 h5
  exact ⟨h1, h2, h3, h4, h5⟩

theorem round_det {us rest : List Nat} {s r s' r' : DC} (hn : (us ++ rest).Nodup) (hnn : ∀ v, 0 ≤ c.nw v) (hI : RInv c (us ++ rest) s)
    (hS : Same s r) (hf : c.hasFixed = false) (h : Round c us s s') (h' : Round c us r r') : Same s' r' ∧ s'.cnt = r'.cnt := by
  have hu : us.Nodup := (List.nodup_append.1 hn).1
  have hI' := hS.rinv hI
  cases h with
  | mk s1 s2 s3 s4 s5 hv fx h1 h2 h3 hp hs h4 hfx h5 =>
  cases h' with
  | mk r1 r2 r3 r4 r5 hv' fx' h1' h2' h3' hp' hs' h4' hfx' h5' =>
  obtain ⟨e1, e2⟩ := half_det hu (fun u hu => hI.prop u (List.mem_append_left _ hu)) hS.cl hS.cw hS.opp hS.prop hS.fv ⟨h1, h2⟩ ⟨h1', h2'⟩
  have hP := half_props hn hnn hI ⟨h1, h2⟩
  have hP' := half_props hn hnn hI' ⟨h1', h2'⟩
  have hM := mid_of hu hP h3 hp hs
  have hM' := mid_of hu hP' h3' hp' hs'
  have hOk : Ok c s2 = Ok c r2 := by funext u; unfold Ok; rw [e1, e2]
  have hBad : Bad c s2 = Bad c r2 := by funext u; unfold Bad; rw [e1, e2]
  have ehv : hv = hv' := by
    have hperm : hv.Perm hv' := (List.perm_ext_iff_of_nodup hM.nd hM'.nd).2 fun v => by rw [hM.mem, hM'.mem, hBad]
    have hs2 := hM'.sorted
    rw [← e1] at hs2
    exact List.Perm.eq_of_pairwise (fun a b _ _ hab hba => absurd hba (comp_asymm hab)) hM.sorted hs2 hperm
  subst ehv
  have ecw : s3.cw = r3.cw := by
    funext t
    by_cases hex : ∃ u ∈ us, Ok c s2 u ∧ s2.prop u = t
    · rw [hM.cwOk t hex, hM'.cwOk t (by rw [hOk, e1] at hex; exact hex), e2]
    · rw [hM.cwN t hex, hM'.cwN t (by rw [hOk, e1] at hex; exact hex), hS.cw]
  have ep3 : s3.prop = r3.prop := by rw [hM.prop, hM'.prop, e1]
  have hAcc : Acc c s3 hv = Acc c r3 hv := by
    funext v
    unfold Acc nAcc; rw [ep3, ecw]
  refine rd_det hS (round_rd hn hnn hI ⟨h1, h2⟩ h3 hp hs h4 hfx h5) (round_rd hn hnn hI' ⟨h1', h2'⟩ h3' hp' hs' h4' hfx' h5') e1 e2 ?_ hf
  rw [hOk, hAcc]

/-! ### Completion -/

def rank1 : Pc1 → Nat
  | .start => 3
  | .put _ => 2
  | .add _ => 1
  | .fin => 0

theorem exists1 (us : List Nat) (s : DC) : ∃ s', Par.For (next1 c) us .start .fin s s' := by
  refine Par.For.exists (I := fun _ => True) rank1 trivial (fun _ _ _ _ _ _ _ => trivial) (fun x u p s' _ _ h => ?_) (fun x u _ _ hne => ?_)
  · generalize x.pc u = q at h
    cases q <;> simp only [next1] at h
    · split at h
      · split at h <;> (simp only [Option.some.injEq, Prod.mk.injEq] at h; obtain ⟨rfl, _⟩ := h; simp [rank1])
      · simp only [Option.some.injEq, Prod.mk.injEq] at h; obtain ⟨rfl, _⟩ := h; simp [rank1]
    · simp only [Option.some.injEq, Prod.mk.injEq] at h; obtain ⟨rfl, _⟩ := h; simp [rank1]
    · simp only [Option.some.injEq, Prod.mk.injEq] at h; obtain ⟨rfl, _⟩ := h; simp [rank1]
    · cases h
  · generalize x.pc u = q at hne
    cases q <;> simp only [next1]
    · split; split <;> simp
      simp
    · simp
    · simp
    · exact absurd rfl hne

def rank2 : Pc2 → Nat
  | .start => 8
  | .test _ => 7
  | .rd1 _ => 6
  | .rd2 _ _ => 5
  | .put1 _ _ => 4
  | .put2 _ _ => 3
  | .rd3 _ _ => 2
  | .put3 _ _ _ => 1
  | .fin => 0

theorem exists2 (us : List Nat) (s : DC) : ∃ s', Par.For (next2 c) us .start .fin s s' := by
  refine Par.For.exists (I := fun _ => True) rank2 trivial (fun _ _ _ _ _ _ _ => trivial) (fun x u p s' _ _ h => ?_) (fun x u _ _ hne => ?_)
  · generalize x.pc u = q at h
    cases q <;> simp only [next2] at h
    case start => split at h <;> (simp only [Option.some.injEq, Prod.mk.injEq] at h; obtain ⟨rfl, _⟩ := h; simp [rank2])
    case test => split at h <;> (simp only [Option.some.injEq, Prod.mk.injEq] at h; obtain ⟨rfl, _⟩ := h; simp [rank2])
    case fin => cases h
    all_goals (simp only [Option.some.injEq, Prod.mk.injEq] at h; obtain ⟨rfl, _⟩ := h; simp [rank2])
  · generalize x.pc u = q at hne
    cases q <;> simp only [next2]
    case start => split <;> simp
    case test => split <;> simp
    case fin => exact absurd rfl hne
    all_goals simp

def rank3 : Pc3 → Nat
  | .start => 20
  | .rd _ => 19
  | .own _ => 18
  | .own2 => 18
  | .fixed _ p => rankF p + 10
  | .put _ => 9
  | .rd2 _ => 8
  | .put2 _ _ => 7
  | .push => 6
  | .fin => 0

theorem exists3 (us : List Nat) (s : DC) : ∃ s', Par.For (next3 c) us .start .fin s s' := by
  refine Par.For.exists (I := fun _ => True) rank3 trivial (fun _ _ _ _ _ _ _ => trivial) (fun x u p s' _ _ h => ?_) (fun x u _ _ hne => ?_)
  · generalize x.pc u = q at h
    cases q <;> simp only [next3] at h
    case start => split at h <;> (simp only [Option.some.injEq, Prod.mk.injEq] at h; obtain ⟨rfl, _⟩ := h; simp [rank3])
    case rd => split at h <;> (simp only [Option.some.injEq, Prod.mk.injEq] at h; obtain ⟨rfl, _⟩ := h; simp [rank3])
    case own => simp only [Option.some.injEq, Prod.mk.injEq] at h; obtain ⟨rfl, _⟩ := h; split <;> simp [rank3, rankF]
    case fixed t p =>
      split at h
      · next p' f hF =>
        have := rankF_step hF
        simp only [Option.some.injEq, Prod.mk.injEq] at h; obtain ⟨rfl, _⟩ := h; simp only [rank3]; omega
      · simp only [Option.some.injEq, Prod.mk.injEq] at h; obtain ⟨rfl, _⟩ := h; simp only [rank3]; omega
    case fin => cases h
    all_goals (simp only [Option.some.injEq, Prod.mk.injEq] at h; obtain ⟨rfl, _⟩ := h; simp [rank3])
  · generalize x.pc u = q at hne
    cases q <;> simp only [next3]
    case start => split <;> simp
    case rd => split <;> simp
    case fixed => split <;> simp
    case fin => exact absurd rfl hne
    all_goals simp

def rank5 : Pc5 → Nat
  | .start => 4
  | .put1 _ _ => 3
  | .rd2 _ => 2
  | .put2 _ _ => 1
  | .fin => 0

theorem exists5 (fx : List Nat) (s : DC) : ∃ s', Par.For (next5 c fx) (List.range fx.length) .start .fin s s' := by
  refine Par.For.exists (I := fun _ => True) rank5 trivial (fun _ _ _ _ _ _ _ => trivial) (fun x u p s' _ _ h => ?_) (fun x u hu _ hne => ?_)
  · generalize x.pc u = q at h
    cases q <;> simp only [next5] at h
    case start =>
      split at h
      · cases h
      · split at h <;> (simp only [Option.some.injEq, Prod.mk.injEq] at h; obtain ⟨rfl, _⟩ := h; simp [rank5])
    case fin => cases h
    all_goals (simp only [Option.some.injEq, Prod.mk.injEq] at h; obtain ⟨rfl, _⟩ := h; simp [rank5])
  · generalize x.pc u = q at hne
    have hget := List.getElem?_eq_getElem (List.mem_range.1 hu)
    cases q <;> simp only [next5]
    case start => rw [hget]; simp only; split <;> simp
    case fin => exact absurd rfl hne
    all_goals simp

theorem exists_sorted (l : List Nat) (hn : l.Nodup) (p : Nat → Nat) : ∃ hv : List Nat, hv.Perm l ∧ hv.Pairwise (comp c p) := by
  classical
  refine ⟨l.mergeSort (fun a b => decide (¬ comp c p b a)), List.mergeSort_perm _ _, ?_⟩
  have hs := List.pairwise_mergeSort (le := fun a b => decide (¬ comp c p b a)) (fun a b d h1 h2 => by
    simp only [decide_eq_true_eq] at *; unfold comp at *; omega) (fun a b => by
    simp only [Bool.or_eq_true, decide_eq_true_eq]; by_cases h : comp c p b a
    · exact .inr (comp_asymm h)
    · exact .inl h) l
  have hnd : (l.mergeSort (fun a b => decide (¬ comp c p b a))).Nodup := ((List.mergeSort_perm _ _).nodup_iff).2 hn
  refine (hs.and hnd).imp ?_
  rintro a b ⟨h1, h2⟩
  simp only [decide_eq_true_eq] at h1
  rcases comp_total (c := c) (p := p) h2 with h | h
  · exact h
  · exact absurd h h1

theorem exists4 {us rest hv : List Nat} {s s2 s3 : DC} (hn : us.Nodup) (hnn : ∀ v, 0 ≤ c.nw v) (hI : RInv c (us ++ rest) s) (hP : Props c us s s2) (hM : Mid c us s s2 s3 hv) :
    (∃ s', Par.For (next4 c hv) (List.range hv.length) .start .fin s3 s') ∧
    ∀ x, Par.Reach (next4 c hv) (List.range hv.length) .start s3 x → ∀ pos < hv.length, x.pc pos ≠ .fin → next4 c hv pos (x.pc pos) x.s ≠ none := by
  have hfx : c.hasFixed = true → ∀ u ∈ hv, (s3.fv.data (s3.prop u)).block = none → (s3.fv.data u).block = none := by
    intro hf u hu' hb
    obtain ⟨b1, b2, b3⟩ := (hM.mem u).1 hu'
    have := (hP.feas b1 b2).2.2.fixed hf
    rw [hM.fvB] at hb ⊢
    rw [hM.prop] at hb
    exact accept_fixed this hb
  have hstep : ∀ x pos p s', pos ∈ List.range hv.length → Inv4 c hv s3 x → next4 c hv pos (x.pc pos) x.s = some (p, s') → Inv4 c hv s3 ⟨s', wr x.pc pos p⟩ :=
    fun x pos p s' hu hI' hx => hI'.step hM.sortedP hM.nd (List.mem_range.1 hu) hfx (fun t => hM.hlen hn hnn hP) (hM.hopp hn hnn hI hP) hx
  have hprog : ∀ x pos, pos < hv.length → Inv4 c hv s3 x → x.pc pos ≠ .fin → next4 c hv pos (x.pc pos) x.s ≠ none :=
    fun x pos hu hI' hne => next4_ne_none hM.sortedP (fun t => hM.hlen hn hnn hP) hu hI' hne
  constructor
  · exact Par.For.exists (I := Inv4 c hv s3) (rank4 hv.length) (inv4_init c hv s3) hstep (fun x u p s' _ _ h => rank4_step h)
      (fun x u hu hI' hne => hprog x u (List.mem_range.1 hu) hI' hne)
  · intro x hx pos hpos hne
    exact hprog x pos hpos (Par.Reach.induction (inv4_init c hv s3) hstep hx) hne

theorem round_exists {us rest : List Nat} {s : DC} (hn : (us ++ rest).Nodup) (hnn : ∀ v, 0 ≤ c.nw v) (hI : RInv c (us ++ rest) s) : ∃ s', Round c us s s' := by
  have hu : us.Nodup := (List.nodup_append.1 hn).1
  obtain ⟨s1, h1⟩ := exists1 (c := c) us s
  obtain ⟨s2, h2⟩ : ∃ s2, if c.swaps then Par.For (next2 c) us .start .fin s1 s2 else s2 = s1 := by
    by_cases h : c.swaps = true
    · simp only [h, if_true]; exact exists2 us s1
    · simp [h]
  have hP := half_props hn hnn hI ⟨h1, h2⟩
  obtain ⟨s3, h3⟩ := exists3 (c := c) us { s2 with cnt := 0, fix := [], heavy := [] }
  have hM0 := loop3 hu rfl rfl rfl (by
    intro hf u hu hne hb
    have := (hP.feas hu hne).2.2.fixed hf
    simp only [hP.fv] at hb ⊢
    exact accept_fixed this hb) h3
  obtain ⟨hv, hp, hs⟩ := exists_sorted (c := c) s3.heavy hM0.2.2.2.2.2.2.2.2.2.2.1 s3.prop
  have hM := mid_of hu hP h3 hp hs
  obtain ⟨s4, h4⟩ := (exists4 hu hnn hI hP hM).1
  obtain ⟨s5, h5⟩ := exists5 (c := c) s4.fix s4
  exact ⟨s5, .mk s1 s2 s3 s4 s5 hv s4.fix h1 h2 h3 hp hs h4 (List.Perm.refl _) h5⟩

end DetC
end Verif
