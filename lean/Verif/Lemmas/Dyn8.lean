import Verif.Lemmas.Dyn7
import Mathlib.Algebra.BigOperators.Group.List.Basic
/-!
# How often a net occurs in the lists of a ring
-/
namespace Verif
namespace Dyn
open SMap (wr)

/-- Node `x` is (or was, before it was contracted) a pin of the net: it was one in the beginning, or
it replaced a node that was contracted onto it. -/
def InN (orig : Nat → Prop) (par : Nat → Nat) (two : Nat → Bool) (x : Nat) : Prop :=
  orig x ∨ ∃ w, par w = x ∧ w ≠ x ∧ two w = true

/-- Log of the contractions in a net: `one v` if `v` was removed, `two v` if it was replaced by the
node onto which it was contracted. -/
structure LogOK (orig : Nat → Prop) (par : Nat → Nat) (one two : Nat → Bool) : Prop where
  excl : ∀ v, one v = true → two v = false
  uniq1 : ∀ v, two v = true → ¬ orig (par v)
  uniq2 : ∀ v w, two v = true → two w = true → par v = par w → v = w
  inn : ∀ v, one v = true ∨ two v = true → InN orig par two v ∧ par v ≠ v

variable {n : Nat} {mg : Nat → Bool} {par : Nat → Nat} {kids sg : Nat → List Nat} {orig : Nat → Prop} {one two : Nat → Bool}

open Classical in
theorem sum_unique {f : Nat → Bool} : ∀ {l : List Nat}, l.Nodup → (∀ v ∈ l, ∀ w ∈ l, f v = true → f w = true → v = w) →
    (l.map (fun v => if f v = true then 1 else 0)).sum = if ∃ v ∈ l, f v = true then 1 else 0 := by
  intro l
  induction l with
  | nil => intro _ _; simp
  | cons x l ih =>
    intro hnd hu
    rw [List.nodup_cons] at hnd
    rw [List.map_cons, List.sum_cons, ih hnd.2 (fun v hv w hw => hu v (List.mem_cons_of_mem _ hv) w (List.mem_cons_of_mem _ hw))]
    by_cases hx : f x = true
    · have h1 : ¬ ∃ v ∈ l, f v = true := by
        rintro ⟨v, hv, hf⟩
        have := hu v (List.mem_cons_of_mem _ hv) x (by simp) hf hx
        subst this
        exact hnd.1 hv
      have h2 : ∃ v ∈ x :: l, f v = true := ⟨x, by simp, hx⟩
      rw [if_pos hx, if_pos h2, if_neg h1]
    · rw [if_neg hx]
      by_cases he : ∃ v ∈ l, f v = true
      · obtain ⟨v, hv, hf⟩ := he
        rw [if_pos ⟨v, hv, hf⟩, if_pos ⟨v, List.mem_cons_of_mem _ hv, hf⟩]
      · rw [if_neg he, if_neg]
        rintro ⟨v, hv, hf⟩
        rw [List.mem_cons] at hv
        rcases hv with rfl | hv
        · exact hx hf
        · exact he ⟨v, hv, hf⟩

open Classical in
theorem Tree.count (t : Tree n mg par kids sg) (hl : LogOK orig par one two) {x : Nat} (hx : x < n)
    (hc : ∀ y ∈ sg x, ∀ w, par w = y → w ≠ y → two w = true → w ∈ kids y)
    (hcomp : ∀ y ∈ sg x, ∀ w ∈ kids y, InN orig par two w → one w = true ∨ two w = true) :
    ((sg x).map (fun y => if orig y ∧ ∀ z ∈ sg x, z ≠ x → y ∈ sg z → one z = false then 1 else 0)).sum =
      if InN orig par two x then 1 else 0 := by
  revert hx hc hcomp
  refine t.induct (P := fun x => x < n → (∀ y ∈ sg x, ∀ w, par w = y → w ≠ y → two w = true → w ∈ kids y) →
    (∀ y ∈ sg x, ∀ w ∈ kids y, InN orig par two w → one w = true ∨ two w = true) →
    ((sg x).map (fun y => if orig y ∧ ∀ z ∈ sg x, z ≠ x → y ∈ sg z → one z = false then 1 else 0)).sum =
      if InN orig par two x then 1 else 0) ?_ x
  intro x ih hx hc hcomp
  have hkx : ∀ w ∈ kids x, w ∈ sg x := fun w hw => (t.mem_iff x w).2 (Or.inr ⟨w, ((t.kid w x).1 hw).1, ((t.kid w x).1 hw).2, t.self w⟩)
  have e1 : ((sg x).map (fun y => if orig y ∧ ∀ z ∈ sg x, z ≠ x → y ∈ sg z → one z = false then 1 else 0)).sum =
      (if orig x then 1 else 0) + ((kids x).map (fun w =>
        ((sg w).map (fun y => if orig y ∧ ∀ z ∈ sg x, z ≠ x → y ∈ sg z → one z = false then 1 else 0)).sum)).sum := by
    have hs : ∀ f : Nat → Nat, ((sg x).map f).sum = f x + ((kids x).map (fun w => ((sg w).map f).sum)).sum := by
      intro f
      conv_lhs => rw [t.seg x]
      rw [List.map_cons, List.sum_cons, List.map_flatMap]
      congr 1
      induction kids x with
      | nil => rfl
      | cons a k ihk => rw [List.flatMap_cons, List.sum_append, List.map_cons, List.sum_cons, ihk]
    rw [hs]
    congr 1
    · have : (∀ z ∈ sg x, z ≠ x → x ∈ sg z → one z = false) := by
        intro z hz hne hxz
        rcases (t.mem_iff x z).1 hz with h | ⟨w, hw1, hw2, hw⟩
        · exact absurd h hne
        · exact absurd (t.sub hw hxz) (t.self_notin hx ((t.kid w x).2 ⟨hw1, hw2⟩))
      by_cases ho : orig x
      · rw [if_pos ⟨ho, this⟩, if_pos ho]
      · rw [if_neg (fun h => ho h.1), if_neg ho]
  have e2 : ∀ w ∈ kids x, ((sg w).map (fun y => if orig y ∧ ∀ z ∈ sg x, z ≠ x → y ∈ sg z → one z = false then 1 else 0)).sum =
      if two w = true then 1 else 0 := by
    intro w hw
    have hwn : w < n := (t.lt w ((t.kid w x).1 hw).1).1
    have hwx : w ≠ x := by rintro rfl; exact t.self_notin hx hw (t.self w)
    have hsub : ∀ y ∈ sg w, y ∈ sg x := fun y hy => t.sub (hkx w hw) hy
    have h1 := ih w hw hwn (fun y hy => hc y (hsub y hy)) (fun y hy => hcomp y (hsub y hy))
    have hcond : ∀ y ∈ sg w, (∀ z ∈ sg x, z ≠ x → y ∈ sg z → one z = false) ↔
        (one w = false ∧ ∀ z ∈ sg w, z ≠ w → y ∈ sg z → one z = false) := by
      intro y hy
      constructor
      · intro h
        exact ⟨h w (hkx w hw) hwx hy, fun z hz _ hyz => h z (hsub z hz)
          (by rintro rfl; exact t.self_notin hx hw hz) hyz⟩
      · rintro ⟨h1, h2⟩ z hz hzx hyz
        rcases (t.mem_iff x z).1 hz with h | ⟨w', hw1, hw2, hw'⟩
        · exact absurd h hzx
        · have := t.kid_dis hx hw ((t.kid w' x).2 ⟨hw1, hw2⟩) hy (t.sub hw' hyz)
          subst this
          by_cases hzw : z = w
          · rw [hzw]; exact h1
          · exact h2 z hw' hzw hyz
    by_cases ho : one w = true
    · rw [if_neg (by rw [hl.excl w ho]; simp)]
      refine List.sum_eq_zero ?_
      intro k hk
      rw [List.mem_map] at hk
      obtain ⟨y, hy, rfl⟩ := hk
      rw [if_neg]
      rintro ⟨_, h⟩
      have := ((hcond y hy).1 h).1
      rw [ho] at this; cases this
    · have ho' : one w = false := by simpa using ho
      have : ((sg w).map (fun y => if orig y ∧ ∀ z ∈ sg x, z ≠ x → y ∈ sg z → one z = false then 1 else 0)).sum =
          ((sg w).map (fun y => if orig y ∧ ∀ z ∈ sg w, z ≠ w → y ∈ sg z → one z = false then 1 else 0)).sum := by
        congr 1
        refine List.map_congr_left ?_
        intro y hy
        have := hcond y hy
        simp only [this, ho', true_and]
      rw [this, h1]
      by_cases ht : two w = true
      · rw [if_pos ht, if_pos (hl.inn w (Or.inr ht)).1]
      · rw [if_neg ht, if_neg]
        intro hin
        rcases hcomp x (t.self x) w hw hin with h | h
        · exact ho h
        · exact ht h
  have e3 : ((kids x).map (fun w => ((sg w).map (fun y => if orig y ∧ ∀ z ∈ sg x, z ≠ x → y ∈ sg z → one z = false then 1 else 0)).sum)).sum =
      if ∃ w ∈ kids x, two w = true then 1 else 0 := by
    rw [← sum_unique (t.knd x)]
    · congr 1
      exact List.map_congr_left e2
    · intro v hv w hw h1 h2
      exact hl.uniq2 v w h1 h2 (by rw [((t.kid v x).1 hv).2, ((t.kid w x).1 hw).2])
  rw [e1, e3]
  have hiff : (∃ w, par w = x ∧ w ≠ x ∧ two w = true) ↔ ∃ w ∈ kids x, two w = true := by
    constructor
    · rintro ⟨w, h1, h2, h3⟩; exact ⟨w, hc x (t.self x) w h1 h2 h3, h3⟩
    · rintro ⟨w, hw, h3⟩
      have := (t.kid w x).1 hw
      exact ⟨w, this.2, by rintro rfl; exact t.par_ne this.1 this.2, h3⟩
  by_cases ho : orig x
  · rw [if_pos ho, if_neg, if_pos (show InN orig par two x from Or.inl ho)]
    rintro ⟨w, hw, h3⟩
    exact hl.uniq1 w h3 (by rw [((t.kid w x).1 hw).2]; exact ho)
  · rw [if_neg ho, Nat.zero_add]
    by_cases he : ∃ w ∈ kids x, two w = true
    · rw [if_pos he, if_pos (show InN orig par two x from Or.inr (hiff.2 he))]
    · rw [if_neg he, if_neg]
      rintro (h | h)
      · exact ho h
      · exact he (hiff.1 h)

open Classical in
/-- The nets found in the lists of a ring: each net in which the head is a pin, once. -/
theorem Tree.nets (t : Tree n mg par kids sg) {orig : Nat → Nat → Prop} {one two : Nat → Nat → Bool} {base act : Nat → List Nat} {Q : Nat → Prop}
    (hl : ∀ e, LogOK (fun x => orig x e) par (fun v => one v e) (fun v => two v e)) {x : Nat} (hx : x < n)
    (hc : ∀ e, Q e → ∀ y ∈ sg x, ∀ w, par w = y → w ≠ y → two w e = true → w ∈ kids y)
    (hcomp : ∀ e, Q e → ∀ y ∈ sg x, ∀ w ∈ kids y, InN (fun x => orig x e) par (fun v => two v e) w → one w e = true ∨ two w e = true)
    (hb : ∀ y, y < n → (base y).Nodup ∧ ∀ e, e ∈ base y ↔ orig y e)
    (ha : ∀ y ∈ sg x, (act y).Nodup ∧ ∀ e, e ∈ act y ↔ e ∈ base y ∧ (∀ z ∈ sg x, z ≠ x → y ∈ sg z → one z e = false) ∧ Q e) :
    ((sg x).flatMap act).Nodup ∧ ∀ e, e ∈ (sg x).flatMap act ↔ InN (fun x => orig x e) par (fun v => two v e) x ∧ Q e := by
  have key : ∀ e, ((sg x).flatMap act).count e = if InN (fun x => orig x e) par (fun v => two v e) x ∧ Q e then 1 else 0 := by
    intro e
    rw [List.count_flatMap]
    by_cases hq : Q e
    · have := t.count (hl e) hx (hc e hq) (hcomp e hq)
      simp only [hq, and_true]
      rw [← this]
      congr 1
      refine List.map_congr_left ?_
      intro y hy
      show (act y).count e = _
      have h1 := (ha y hy).2 e
      by_cases hm : e ∈ act y
      · rw [List.count_eq_one_of_mem (ha y hy).1 hm, if_pos]
        exact ⟨((hb y (t.mem_lt hx hy)).2 e).1 (h1.1 hm).1, (h1.1 hm).2.1⟩
      · rw [List.count_eq_zero_of_not_mem hm, if_neg]
        rintro ⟨h2, h3⟩
        exact hm (h1.2 ⟨((hb y (t.mem_lt hx hy)).2 e).2 h2, h3, hq⟩)
    · rw [if_neg (fun h => hq h.2)]
      refine List.sum_eq_zero ?_
      intro k hk
      rw [List.mem_map] at hk
      obtain ⟨y, hy, rfl⟩ := hk
      refine List.count_eq_zero_of_not_mem ?_
      intro hm
      exact hq (((ha y hy).2 e).1 hm).2.2
  refine ⟨?_, ?_⟩
  · rw [List.nodup_iff_count_le_one]
    intro e
    rw [key e]
    split <;> omega
  · intro e
    rw [← List.count_pos_iff, key e]
    split
    · rename_i h; simp [h]
    · rename_i h; simp [h]

end Dyn
end Verif
