import Verif.Lemmas.DetC1
/-!
# Lemmas: second loop of the deterministic coarsener (node swaps)
-/
namespace Verif
namespace DetC
open SMap (wr)
variable {α : Type} {c : Cfg α}

/-- `u` and its proposition propose each other, and `u` is the smaller one -/
def Sw (us : List Nat) (p : Nat → Nat) (u : Nat) : Prop := u ∈ us ∧ u < p u ∧ p (p u) = u

/-- the node that stays -/
def swT (p : Nat → Nat) (o : Nat → Int) (u : Nat) : Nat := if o u > o (p u) then u else p u

/-- the node that moves -/
def swS (p : Nat → Nat) (o : Nat → Int) (u : Nat) : Nat := if swT p o u = u then p u else u

theorem Sw.disj {us : List Nat} {p : Nat → Nat} {u v : Nat} (hu : Sw us p u) (hv : Sw us p v) (h : u ≠ v) : p u ≠ v ∧ p u ≠ p v ∧ u ≠ p v := by
  obtain ⟨_, h1, h2⟩ := hu
  obtain ⟨_, h3, h4⟩ := hv
  refine ⟨fun e => ?_, fun e => ?_, fun e => ?_⟩
  · subst e; omega
  · rw [e] at h2; omega
  · subst e; omega

theorem swT_cases (p : Nat → Nat) (o : Nat → Int) (u : Nat) : (swT p o u = u ∧ swS p o u = p u) ∨ (swT p o u = p u ∧ (u ≠ p u → swS p o u = u)) := by
  unfold swS swT; grind

def past1 : Pc2 → Bool
  | .put2 _ _ => true
  | .rd3 _ _ => true
  | .put3 _ _ _ => true
  | .fin => true
  | _ => false

def past2 : Pc2 → Bool
  | .rd3 _ _ => true
  | .put3 _ _ _ => true
  | .fin => true
  | _ => false

/-- state during the second loop -/
structure Inv2 (c : Cfg α) (us : List Nat) (s : DC) (x : Par.PSt DC Pc2) : Prop where
  cl : x.s.cl = s.cl
  cw : x.s.cw = s.cw
  fv : x.s.fv = s.fv
  pcS : ∀ u, Sw us s.prop u → x.pc u = .start ∨ x.pc u = .test (s.prop u) ∨ x.pc u = .rd1 (s.prop u) ∨ x.pc u = .rd2 (s.prop u) (s.opp u) ∨
    x.pc u = .put1 (s.prop u) (swT s.prop s.opp u) ∨ x.pc u = .put2 (s.prop u) (swT s.prop s.opp u) ∨ x.pc u = .rd3 (s.prop u) (swT s.prop s.opp u) ∨
    x.pc u = .put3 (s.prop u) (swT s.prop s.opp u) (s.opp (swS s.prop s.opp u)) ∨ x.pc u = .fin
  pcN : ∀ u ∈ us, ¬ Sw us s.prop u → x.pc u = .start ∨ (x.pc u = .test (s.prop u) ∧ u < s.prop u) ∨ x.pc u = .fin
  propS : ∀ u, Sw us s.prop u → x.s.prop u = if past1 (x.pc u) then swT s.prop s.opp u else s.prop u
  propP : ∀ u, Sw us s.prop u → x.s.prop (s.prop u) = if past2 (x.pc u) then swT s.prop s.opp u else u
  propO : ∀ v, ¬ Sw us s.prop v → (∀ u, Sw us s.prop u → s.prop u ≠ v) → x.s.prop v = s.prop v
  oppS : ∀ u, Sw us s.prop u → x.s.opp (swS s.prop s.opp u) = if x.pc u = .fin then s.opp (swS s.prop s.opp u) - c.nw (swT s.prop s.opp u) else s.opp (swS s.prop s.opp u)
  oppO : ∀ y, (∀ u, Sw us s.prop u → swS s.prop s.opp u ≠ y) → x.s.opp y = s.opp y

theorem swS_ne {us : List Nat} {p : Nat → Nat} {o : Nat → Int} {u v : Nat} (hu : Sw us p u) (hv : Sw us p v) (h : u ≠ v) : swS p o u ≠ swS p o v ∧ swS p o u ≠ v ∧ swS p o u ≠ p v := by
  have := hu.disj hv h
  unfold swS
  split <;> split <;> grind

theorem Inv2.step {us : List Nat} {s : DC} {x : Par.PSt DC Pc2} {u : Nat} {q : Pc2} {s2 : DC} (hu : u ∈ us) (hI : Inv2 c us s x)
    (hx : next2 c u (x.pc u) x.s = some (q, s2)) : Inv2 c us s ⟨s2, wr x.pc u q⟩ := by
  obtain ⟨hcl, hcw, hfv, hS, hN, hps, hpp, hpo, hos, hoo⟩ := hI
  by_cases hsw : Sw us s.prop u
  · have hd : ∀ v, Sw us s.prop v → v ≠ u → s.prop v ≠ u ∧ s.prop v ≠ s.prop u ∧ v ≠ s.prop u ∧ swS s.prop s.opp v ≠ swS s.prop s.opp u ∧ swS s.prop s.opp v ≠ u ∧ swS s.prop s.opp v ≠ s.prop u :=
      fun v hv hne => ⟨(hv.disj hsw hne).1, (hv.disj hsw hne).2.1, (hv.disj hsw hne).2.2, swS_ne hv hsw hne⟩
    have hne : u ≠ s.prop u := by have := hsw.2.1; omega
    have hps1 := hps u hsw
    have hpp1 := hpp u hsw
    have hos1 := hos u hsw
    -- how a new state is checked
    have fin : ∀ s3 : DC, s3.cl = s.cl → s3.cw = s.cw → s3.fv = s.fv →
        (q = .start ∨ q = .test (s.prop u) ∨ q = .rd1 (s.prop u) ∨ q = .rd2 (s.prop u) (s.opp u) ∨
          q = .put1 (s.prop u) (swT s.prop s.opp u) ∨ q = .put2 (s.prop u) (swT s.prop s.opp u) ∨ q = .rd3 (s.prop u) (swT s.prop s.opp u) ∨
          q = .put3 (s.prop u) (swT s.prop s.opp u) (s.opp (swS s.prop s.opp u)) ∨ q = .fin) →
        s3.prop u = (if past1 q then swT s.prop s.opp u else s.prop u) → s3.prop (s.prop u) = (if past2 q then swT s.prop s.opp u else u) →
        (∀ v, v ≠ u → v ≠ s.prop u → s3.prop v = x.s.prop v) →
        s3.opp (swS s.prop s.opp u) = (if q = .fin then s.opp (swS s.prop s.opp u) - c.nw (swT s.prop s.opp u) else s.opp (swS s.prop s.opp u)) →
        (∀ y, y ≠ swS s.prop s.opp u → s3.opp y = x.s.opp y) → Inv2 c us s ⟨s3, wr x.pc u q⟩ := by
      intro s3 a1 a2 a3 a4 a5 a6 a7 a8 a9
      refine ⟨a1, a2, a3, fun v hv => ?_, fun v hv hnv => ?_, fun v hv => ?_, fun v hv => ?_, fun v hv hv' => ?_, fun v hv => ?_, fun y hy => ?_⟩
      · by_cases h : v = u
        · subst h; simpa only [wr_same] using a4
        · simp only [wr_other _ _ h]; exact hS v hv
      · have h : v ≠ u := by rintro rfl; exact hnv hsw
        simp only [wr_other _ _ h]; exact hN v hv hnv
      · by_cases h : v = u
        · subst h; simpa only [wr_same] using a5
        · simp only [wr_other _ _ h]; rw [a7 v h (hd v hv h).2.2.1]; exact hps v hv
      · by_cases h : v = u
        · subst h; simpa only [wr_same] using a6
        · simp only [wr_other _ _ h]; rw [a7 _ (hd v hv h).1 (hd v hv h).2.1]; exact hpp v hv
      · have h : v ≠ u := by rintro rfl; exact hv hsw
        simp only; rw [a7 v h (fun e => hv' u hsw e.symm)]; exact hpo v hv hv'
      · by_cases h : v = u
        · subst h; simpa only [wr_same] using a8
        · simp only [wr_other _ _ h]; rw [a9 _ (hd v hv h).2.2.2.1]; exact hos v hv
      · simp only; rw [a9 y (fun e => hy u hsw e.symm)]; exact hoo y hy
    have hoU : x.s.opp u = s.opp u ∨ x.pc u = .fin := by
      by_cases h : swS s.prop s.opp u = u
      · rw [h] at hos1; grind
      · refine .inl (hoo u fun v hv => ?_)
        by_cases hvu : v = u
        · subst hvu; exact h
        · exact (hd v hv hvu).2.2.2.2.1
    have hoV : x.s.opp (s.prop u) = s.opp (s.prop u) ∨ x.pc u = .fin := by
      by_cases h : swS s.prop s.opp u = s.prop u
      · rw [h] at hos1; grind
      · refine .inl (hoo _ fun v hv => ?_)
        by_cases hvu : v = u
        · subst hvu; exact h
        · exact (hd v hv hvu).2.2.2.2.2
    have hc := swT_cases s.prop s.opp u
    have hsrc : (if swT s.prop s.opp u = u then s.prop u else u) = swS s.prop s.opp u := rfl
    rcases hS u hsw with h | h | h | h | h | h | h | h | h <;> rw [h] at hx hps1 hpp1 hos1 hoU hoV <;> simp only [next2, past1, past2] at hx hps1 hpp1 <;>
      simp only [reduceCtorEq, if_false, if_true, or_false, Bool.false_eq_true] at hps1 hpp1 hos1 hoU hoV
    · rw [hps1, if_pos hsw.2.1] at hx
      simp only [Option.some.injEq, Prod.mk.injEq] at hx
      obtain ⟨rfl, rfl⟩ := hx
      exact fin _ hcl hcw hfv (by simp) hps1 hpp1 (fun _ _ _ => rfl) hos1 (fun _ _ => rfl)
    · rw [hpp1, if_pos rfl] at hx
      simp only [Option.some.injEq, Prod.mk.injEq] at hx
      obtain ⟨rfl, rfl⟩ := hx
      exact fin _ hcl hcw hfv (by simp) hps1 hpp1 (fun _ _ _ => rfl) hos1 (fun _ _ => rfl)
    · simp only [Option.some.injEq, Prod.mk.injEq] at hx
      obtain ⟨rfl, rfl⟩ := hx
      exact fin _ hcl hcw hfv (by simp [hoU]) hps1 hpp1 (fun _ _ _ => rfl) hos1 (fun _ _ => rfl)
    · simp only [Option.some.injEq, Prod.mk.injEq] at hx
      obtain ⟨rfl, rfl⟩ := hx
      exact fin _ hcl hcw hfv (by simp [hoV, swT]) hps1 hpp1 (fun _ _ _ => rfl) hos1 (fun _ _ => rfl)
    · simp only [Option.some.injEq, Prod.mk.injEq] at hx
      obtain ⟨rfl, rfl⟩ := hx
      exact fin _ hcl hcw hfv (by simp) (by simp [past1, wr_same]) (by simp [past2, wr_other _ _ hne.symm, hpp1]) (fun v hv _ => wr_other _ _ hv) hos1 (fun _ _ => rfl)
    · simp only [Option.some.injEq, Prod.mk.injEq] at hx
      obtain ⟨rfl, rfl⟩ := hx
      exact fin _ hcl hcw hfv (by simp) (by simp [past1, wr_other _ _ hne, hps1]) (by simp [past2, wr_same]) (fun v _ hv => wr_other _ _ hv) hos1 (fun _ _ => rfl)
    · simp only [Option.some.injEq, Prod.mk.injEq] at hx
      obtain ⟨rfl, rfl⟩ := hx
      exact fin _ hcl hcw hfv (by simp [hsrc, hos1]) hps1 hpp1 (fun _ _ _ => rfl) hos1 (fun _ _ => rfl)
    · simp only [Option.some.injEq, Prod.mk.injEq] at hx
      obtain ⟨rfl, rfl⟩ := hx
      rw [hsrc]
      exact fin _ hcl hcw hfv (by simp) hps1 hpp1 (fun _ _ _ => rfl) (by simp [wr_same]) (fun y hy => wr_other _ _ hy)
    · simp at hx
  · -- a node that is not the smaller one of a pair
    have hself : x.s.prop u = s.prop u ∨ ¬ u < x.s.prop u := by
      by_cases hex : ∃ v, Sw us s.prop v ∧ s.prop v = u
      · obtain ⟨v, hv, rfl⟩ := hex
        right
        rw [hpp v hv]
        have := swT_cases s.prop s.opp v
        have := hv.2.1
        split <;> omega
      · push Not at hex; exact .inl (hpo u hsw hex)
    have hq : s2 = x.s ∧ ((q = .test (s.prop u) ∧ u < s.prop u) ∨ q = .fin) := by
      rcases hN u hu hsw with h | ⟨h, hlt⟩ | h <;> rw [h] at hx <;> simp only [next2] at hx
      · grind
      · have : x.s.prop (s.prop u) ≠ u := by
          have hnn : s.prop (s.prop u) ≠ u := fun e => hsw ⟨hu, hlt, e⟩
          by_cases hex : ∃ v, Sw us s.prop v ∧ s.prop v = s.prop u
          · obtain ⟨v, hv, he⟩ := hex
            have h1 := hv.2.2
            rw [he] at h1
            have h2 := hpp v hv
            rw [he] at h2
            have := swT_cases s.prop s.opp v
            rw [h2]; split <;> grind
          · push Not at hex
            by_cases hv : Sw us s.prop (s.prop u)
            · rw [hps _ hv]
              have := swT_cases s.prop s.opp (s.prop u)
              split <;> grind
            · rw [hpo _ hv hex]; exact hnn
        grind
      · simp at hx
    obtain ⟨rfl, hq⟩ := hq
    have hne : ∀ v, Sw us s.prop v → v ≠ u := by rintro v hv rfl; exact hsw hv
    refine ⟨hcl, hcw, hfv, fun v hv => ?_, fun v hv hnv => ?_, fun v hv => ?_, fun v hv => ?_, hpo, fun v hv => ?_, hoo⟩
    · simp only [wr_other _ _ (hne v hv)]; exact hS v hv
    · by_cases h : v = u
      · subst h; simp only [wr_same]; exact .inr hq
      · simp only [wr_other _ _ h]; exact hN v hv hnv
    · simp only [wr_other _ _ (hne v hv)]; exact hps v hv
    · simp only [wr_other _ _ (hne v hv)]; exact hpp v hv
    · simp only [wr_other _ _ (hne v hv)]; exact hos v hv

/-- effect of the second loop -/
theorem loop2 {us : List Nat} {s s' : DC} (h : Par.For (next2 c) us .start .fin s s') :
    s'.cl = s.cl ∧ s'.cw = s.cw ∧ s'.fv = s.fv ∧
    (∀ u, Sw us s.prop u → s'.prop u = swT s.prop s.opp u ∧ s'.prop (s.prop u) = swT s.prop s.opp u ∧
      s'.opp (swS s.prop s.opp u) = s.opp (swS s.prop s.opp u) - c.nw (swT s.prop s.opp u)) ∧
    (∀ v, ¬ Sw us s.prop v → (∀ u, Sw us s.prop u → s.prop u ≠ v) → s'.prop v = s.prop v) ∧
    ∀ y, (∀ u, Sw us s.prop u → swS s.prop s.opp u ≠ y) → s'.opp y = s.opp y := by
  have i0 : Inv2 c us s ⟨s, fun _ => .start⟩ :=
    ⟨rfl, rfl, rfl, fun _ _ => .inl rfl, fun _ _ _ => .inl rfl, fun _ _ => rfl, fun u hu => hu.2.2, fun _ _ _ => rfl, fun _ _ => rfl, fun _ _ => rfl⟩
  obtain ⟨pc, hI, hf⟩ := h.of_inv i0 (fun x u p s2 hu hI hx => hI.step hu hx)
  refine ⟨hI.cl, hI.cw, hI.fv, fun u hu => ?_, hI.propO, hI.oppO⟩
  have h1 := hI.propS u hu
  have h2 := hI.propP u hu
  have h3 := hI.oppS u hu
  have h4 : pc u = .fin := hf u hu.1
  simp only [h4, past1, past2, if_true] at h1 h2 h3
  exact ⟨h1, h2, h3⟩

end DetC
end Verif
