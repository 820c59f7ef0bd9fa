import Verif.Model.InitialPool
import Mathlib.Data.Prod.Lex
/-!
# Lemmas for C47: the order of the results
-/
namespace Verif
namespace Pool

variable {ι : Type} [LinearOrder ι] {α : Type}

/-- sort key of a result -/
def key (eps : ι) (r : Res ι) : Bool ×ₗ Int ×ₗ ι ×ₗ Int ×ₗ Nat ×ₗ Nat :=
  toLex (decide (¬ r.imb ≤ eps), toLex ((if r.imb ≤ eps then r.obj else 0), toLex (r.imb, toLex (r.obj, toLex (r.rtag, r.dtag)))))

theorem key_inj {eps : ι} {r o : Res ι} (h : key eps r = key eps o) : r = o := by
  unfold key at h
  have h := toLex.injective h
  simp only [Prod.mk.injEq] at h
  obtain ⟨_, h⟩ := h
  have h := toLex.injective h
  simp only [Prod.mk.injEq] at h
  obtain ⟨_, h⟩ := h
  have h := toLex.injective h
  simp only [Prod.mk.injEq] at h
  obtain ⟨h1, h⟩ := h
  have h := toLex.injective h
  simp only [Prod.mk.injEq] at h
  obtain ⟨h2, h⟩ := h
  have h := toLex.injective h
  simp only [Prod.mk.injEq] at h
  cases r; cases o; simp_all

/-- two results that the code can compare: not both infeasible with the same imbalance and different objectives -/
def Comparable (eps : ι) (r o : Res ι) : Prop := ¬ r.imb ≤ eps → ¬ o.imb ≤ eps → r.imb = o.imb → r.obj = o.obj

theorem better_iff {eps : ι} {r o : Res ι} (h : Comparable eps r o) : r.better eps o = true ↔ key eps o < key eps r := by
  unfold Res.better key Comparable at *
  simp only [Prod.Lex.toLex_lt_toLex, Bool.or_eq_true, Bool.and_eq_true, decide_eq_true_eq, Bool.not_eq_true', decide_eq_false_iff_not,
    decide_eq_decide]
  by_cases hr : r.imb ≤ eps <;> by_cases ho : o.imb ≤ eps
  · simp only [hr, ho]
    rcases lt_trichotomy o.imb r.imb with hi | hi | hi
    · simp [hi, hi.ne']
    · simp [hi]
      omega
    · simp [hi.not_gt, hi.ne', hi.ne]
  · have hlt : r.imb < o.imb := lt_of_le_of_lt hr (not_le.1 ho)
    simp [hr, ho, hlt.not_gt, hlt.ne]
  · simp [hr, ho]
  · have := h hr ho
    simp only [hr, ho]
    rcases lt_trichotomy o.imb r.imb with hi | hi | hi
    · simp [hi]
    · have h2 := this hi.symm
      simp [hi, h2]
    · simp [hi.not_gt, hi.ne', hi.ne]

/-- `r` is at least as good as `o`: feasible results are compared by objective, then by imbalance; infeasible ones are worse and are
compared by imbalance -/
def AsGood (eps : ι) (r o : Res ι) : Prop :=
  (o.imb ≤ eps → r.imb ≤ eps ∧ (r.obj < o.obj ∨ (r.obj = o.obj ∧ r.imb ≤ o.imb))) ∧
  (¬ o.imb ≤ eps → r.imb ≤ eps ∨ r.imb ≤ o.imb)

theorem AsGood.refl (eps : ι) (r : Res ι) : AsGood eps r r := ⟨fun h => ⟨h, Or.inr ⟨rfl, le_refl _⟩⟩, fun _ => Or.inr (le_refl _)⟩

theorem AsGood.trans {eps : ι} {a b c : Res ι} (h : AsGood eps a b) (h' : AsGood eps b c) : AsGood eps a c := by
  refine ⟨fun hc => ?_, fun hc => ?_⟩
  · obtain ⟨h1, h2⟩ := h'.1 hc
    obtain ⟨h3, h4⟩ := h.1 h1
    refine ⟨h3, ?_⟩
    rcases h2 with h2 | ⟨h2, h2'⟩
    · rcases h4 with h4 | ⟨h4, _⟩
      · left; omega
      · left; omega
    · rcases h4 with h4 | ⟨h4, h4'⟩
      · left; omega
      · right; exact ⟨by omega, le_trans h4' h2'⟩
  · by_cases hb : b.imb ≤ eps
    · exact Or.inl (h.1 hb).1
    · rcases h.2 hb with h1 | h1
      · exact Or.inl h1
      · rcases h'.2 hc with h2 | h2
        · exact absurd h2 hb
        · exact Or.inr (le_trans h1 h2)

theorem asGood_of_better {eps : ι} {r o : Res ι} (h : r.better eps o = true) : AsGood eps o r := by
  unfold Res.better at h
  simp only [Bool.or_eq_true, Bool.and_eq_true, decide_eq_true_eq, Bool.not_eq_true', decide_eq_false_iff_not] at h
  refine ⟨fun hr => ?_, fun hr => ?_⟩
  · rcases h with (((⟨h1, h2⟩ | ⟨h1, h2⟩) | ⟨_, h2⟩) | ⟨_, h2⟩) | ⟨⟨h1, h2⟩, h3⟩
    · exact ⟨h2.elim id (fun x => le_trans x.le hr), Or.inl h1⟩
    · exact ⟨le_trans h2.le hr, Or.inr ⟨h1, h2.le⟩⟩
    · exact absurd hr h2
    · exact absurd hr h2
    · exact ⟨h2 ▸ hr, Or.inr ⟨h1, h2.ge⟩⟩
  · rcases h with (((⟨h1, h2⟩ | ⟨h1, h2⟩) | ⟨h1, h2⟩) | ⟨h1, h2⟩) | ⟨⟨h1, h2⟩, h3⟩
    · exact h2.imp id (fun x => x.le)
    · exact Or.inr h2.le
    · exact Or.inl h1
    · exact Or.inr h1.1.le
    · exact Or.inr h2.ge

theorem asGood_of_not_better {eps : ι} {r o : Res ι} (h : r.better eps o = false) : AsGood eps r o := by
  unfold Res.better at h
  simp only [Bool.or_eq_false_iff, Bool.and_eq_false_iff, decide_eq_false_iff_not, Bool.not_eq_false', decide_eq_true_eq] at h
  obtain ⟨⟨⟨⟨h1, h2⟩, h3⟩, h4⟩, _⟩ := h
  refine ⟨fun ho => ?_, fun ho => ?_⟩
  · have hr : r.imb ≤ eps := h3.resolve_left (fun x => x ho)
    refine ⟨hr, ?_⟩
    have h1' : ¬ o.obj < r.obj := h1.resolve_right (fun x => x.1 ho)
    by_cases he : o.obj = r.obj
    · exact Or.inr ⟨he.symm, not_lt.1 (h2.resolve_left (fun x => x he))⟩
    · left; omega
  · by_cases hr : r.imb ≤ eps
    · exact Or.inl hr
    · right
      rcases h4 with (h4 | h4) | h4
      · exact not_lt.1 h4
      · exact absurd h4 ho
      · exact absurd h4 hr

theorem bestOf_mem (eps : ι) : ∀ (l : List (Entry ι α)) (x : Entry ι α), bestOf eps x l ∈ x :: l := by
  intro l
  induction l with
  | nil => intro x; simp [bestOf]
  | cons y l ih =>
    intro x
    have := ih (if x.1.better eps y.1 then y else x)
    unfold bestOf at this ⊢
    rw [List.foldl_cons]
    rcases List.mem_cons.1 this with h | h
    · rw [h]; split_ifs <;> simp
    · simp [h]

theorem bestOf_asGood (eps : ι) : ∀ (l : List (Entry ι α)) (x : Entry ι α), ∀ y ∈ x :: l, AsGood eps (bestOf eps x l).1 y.1 := by
  intro l
  induction l with
  | nil => intro x y hy; simp at hy; subst hy; exact AsGood.refl _ _
  | cons z l ih =>
    intro x y hy
    have hstep : AsGood eps (if x.1.better eps z.1 then z else x).1 x.1 ∧ AsGood eps (if x.1.better eps z.1 then z else x).1 z.1 := by
      split_ifs with h
      · exact ⟨asGood_of_better h, AsGood.refl _ _⟩
      · exact ⟨AsGood.refl _ _, asGood_of_not_better (by simpa using h)⟩
    have h0 := ih (if x.1.better eps z.1 then z else x) _ List.mem_cons_self
    have hb : bestOf eps x (z :: l) = bestOf eps (if x.1.better eps z.1 then z else x) l := rfl
    rw [hb]
    rcases List.mem_cons.1 hy with rfl | hy
    · exact h0.trans hstep.1
    · rcases List.mem_cons.1 hy with rfl | hy
      · exact h0.trans hstep.2
      · exact ih _ y (by simp [hy])

/-- the result of the scan has the smallest key if all results are comparable -/
theorem bestOf_key (eps : ι) : ∀ (l : List (Entry ι α)) (x : Entry ι α), (∀ a ∈ x :: l, ∀ b ∈ x :: l, Comparable eps a.1 b.1) →
    ∀ y ∈ x :: l, key eps (bestOf eps x l).1 ≤ key eps y.1 := by
  intro l
  induction l with
  | nil => intro x _ y hy; simp at hy; subst hy; exact le_refl _
  | cons z l ih =>
    intro x hc y hy
    have hstep : key eps (if x.1.better eps z.1 then z else x).1 ≤ key eps x.1 ∧ key eps (if x.1.better eps z.1 then z else x).1 ≤ key eps z.1 := by
      split_ifs with h
      · exact ⟨((better_iff (hc x (by simp) z (by simp))).1 h).le, le_refl _⟩
      · exact ⟨le_refl _, not_lt.1 (fun hh => h ((better_iff (hc x (by simp) z (by simp))).2 hh))⟩
    have hmem : ∀ a, a ∈ (if x.1.better eps z.1 then z else x) :: l → a ∈ x :: z :: l := by
      intro a ha
      rcases List.mem_cons.1 ha with rfl | ha
      · split_ifs <;> simp
      · simp [ha]
    have hi := ih (if x.1.better eps z.1 then z else x) (fun a ha b hb => hc a (hmem a ha) b (hmem b hb))
    have hb : bestOf eps x (z :: l) = bestOf eps (if x.1.better eps z.1 then z else x) l := rfl
    rw [hb]
    rcases List.mem_cons.1 hy with rfl | hy
    · exact le_trans (hi _ (by simp)) hstep.1
    · rcases List.mem_cons.1 hy with rfl | hy
      · exact le_trans (hi _ (by simp)) hstep.2
      · exact hi y (by simp [hy])

end Pool
end Verif
