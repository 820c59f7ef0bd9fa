import Verif.Model.DetCoarsening
import Verif.Lemmas.Maps
import Mathlib.Algebra.BigOperators.Group.List.Basic
import Mathlib.Algebra.Order.BigOperators.Group.List
import Mathlib.Data.List.Dedup
/-!
# Lemmas: parallel loops; first loop of the deterministic coarsener
-/
namespace Verif
namespace Par
open SMap (wr)
variable {σ π : Type} {next : Nat → π → σ → Option (π × σ)} {us : List Nat} {start fin : π} {s s' : σ}

theorem Reach.induction {I : PSt σ π → Prop} (h0 : I ⟨s, fun _ => start⟩)
    (hs : ∀ x u p s', u ∈ us → I x → next u (x.pc u) x.s = some (p, s') → I ⟨s', wr x.pc u p⟩) {x : PSt σ π} (h : Reach next us start s x) : I x := by
  induction h with
  | refl => exact h0
  | tail _ hst ih =>
    cases hst with
    | mk u hu p s'' hn => exact hs _ u p s'' hu ih hn

theorem For.of_inv {I : PSt σ π → Prop} (h0 : I ⟨s, fun _ => start⟩)
    (hs : ∀ x u p s', u ∈ us → I x → next u (x.pc u) x.s = some (p, s') → I ⟨s', wr x.pc u p⟩) (h : For next us start fin s s') :
    ∃ pc : Nat → π, I ⟨s', pc⟩ ∧ ∀ u ∈ us, pc u = fin := by
  obtain ⟨x, hx, hf, rfl⟩ := h
  exact ⟨x.pc, hx.induction h0 hs, hf⟩

/-- a loop whose iterations never get stuck and have bounded length can be completed -/
theorem Reach.completes [DecidableEq Nat] {I : PSt σ π → Prop} (rank : π → Nat) (h0 : I ⟨s, fun _ => start⟩)
    (hs : ∀ x u p s', u ∈ us → I x → next u (x.pc u) x.s = some (p, s') → I ⟨s', wr x.pc u p⟩)
    (hr : ∀ x u p s', u ∈ us → I x → next u (x.pc u) x.s = some (p, s') → rank p < rank (x.pc u))
    (hn : ∀ x u, u ∈ us → I x → x.pc u ≠ fin → next u (x.pc u) x.s ≠ none) {x : PSt σ π} (h : Reach next us start s x) :
    ∃ y, Relation.ReflTransGen (Step next us) x y ∧ ∀ u ∈ us, y.pc u = fin := by
  have hI := h.induction h0 hs
  clear h
  have main : ∀ n, ∀ x : PSt σ π, I x → ((us.dedup).map (fun u => rank (x.pc u))).sum ≤ n →
      ∃ y, Relation.ReflTransGen (Step next us) x y ∧ ∀ u ∈ us, y.pc u = fin := by
    intro n
    induction n with
    | zero =>
      intro x hI hx
      refine ⟨x, .refl, fun u hu => ?_⟩
      by_contra hne
      obtain ⟨⟨p, s'⟩, he⟩ := Option.ne_none_iff_exists'.1 (hn x u hu hI hne)
      have := hr x u p s' hu hI he
      have h1 : rank (x.pc u) ≤ ((us.dedup).map (fun u => rank (x.pc u))).sum := by
        have hm := List.mem_dedup.2 hu
        revert hm
        generalize us.dedup = l
        intro hm
        induction l with
        | nil => simp at hm
        | cons a l ih =>
          simp only [List.map_cons, List.sum_cons]
          rcases List.mem_cons.1 hm with rfl | hm
          · omega
          · have := ih hm; omega
      omega
    | succ n ih =>
      intro x hI hx
      by_cases hall : ∀ u ∈ us, x.pc u = fin
      · exact ⟨x, .refl, hall⟩
      · push Not at hall
        obtain ⟨u, hu, hne⟩ := hall
        obtain ⟨⟨p, s'⟩, he⟩ := Option.ne_none_iff_exists'.1 (hn x u hu hI hne)
        have h1 := hr x u p s' hu hI he
        obtain ⟨y, hy, hf⟩ := ih ⟨s', wr x.pc u p⟩ (hs x u p s' hu hI he) (by
          have hnd := us.nodup_dedup
          have hm := List.mem_dedup.2 hu
          revert hx
          generalize us.dedup = l at hnd hm
          intro hx
          refine Nat.le_of_lt_succ (Nat.lt_of_lt_of_le ?_ hx)
          clear hx
          induction l with
          | nil => simp at hm
          | cons a l ih =>
            simp only [List.map_cons, List.sum_cons]
            rcases List.mem_cons.1 hm with rfl | hm
            · have : l.map (fun v => rank (wr x.pc u p v)) = l.map (fun v => rank (x.pc v)) :=
                List.map_congr_left fun v hv => by
                  rw [wr_other]; rintro rfl; exact (List.nodup_cons.1 hnd).1 hv
              rw [this, wr_same]; omega
            · have hne : a ≠ u := by rintro rfl; exact (List.nodup_cons.1 hnd).1 hm
              rw [wr_other _ _ hne]
              have := ih (List.nodup_cons.1 hnd).2 hm
              simp only at this
              omega)
        exact ⟨y, .head (.mk _ u hu p s' he) hy, hf⟩
  exact main _ x hI (Nat.le_refl _)

theorem For.exists [DecidableEq Nat] {I : PSt σ π → Prop} (rank : π → Nat) (h0 : I ⟨s, fun _ => start⟩)
    (hs : ∀ x u p s', u ∈ us → I x → next u (x.pc u) x.s = some (p, s') → I ⟨s', wr x.pc u p⟩)
    (hr : ∀ x u p s', u ∈ us → I x → next u (x.pc u) x.s = some (p, s') → rank p < rank (x.pc u))
    (hn : ∀ x u, u ∈ us → I x → x.pc u ≠ fin → next u (x.pc u) x.s ≠ none) : ∃ s', For next us start fin s s' := by
  obtain ⟨y, hy, hf⟩ := Reach.completes rank h0 hs hr hn (x := ⟨s, fun _ => start⟩) .refl
  exact ⟨y.s, y, hy, hf, rfl⟩

end Par

namespace DetC
open SMap (wr)
variable {α : Type} {c : Cfg α}

/-- changing one summand -/
theorem sum_change {us : List Nat} (hn : us.Nodup) {u : Nat} (hu : u ∈ us) {f g : Nat → Int} (h : ∀ x ∈ us, x ≠ u → g x = f x) :
    (us.map g).sum = (us.map f).sum - f u + g u := by
  induction us with
  | nil => simp at hu
  | cons a l ih =>
    simp only [List.map_cons, List.sum_cons]
    obtain ⟨h1, h2⟩ := List.nodup_cons.1 hn
    rcases List.mem_cons.1 hu with rfl | hm
    · have : l.map g = l.map f := List.map_congr_left fun v hv => h v (List.mem_cons_of_mem _ hv) (by rintro rfl; exact h1 hv)
      rw [this]; omega
    · have hne : a ≠ u := by rintro rfl; exact h1 hm
      have := ih h2 hm (fun x hx => h x (List.mem_cons_of_mem _ hx))
      rw [this, h a (List.mem_cons_self ..) hne]; omega

theorem sum_zero {us : List Nat} {f : Nat → Int} (h : ∀ x ∈ us, f x = 0) : (us.map f).sum = 0 := by
  induction us with
  | nil => rfl
  | cons a l ih =>
    simp only [List.map_cons, List.sum_cons]
    rw [h a (List.mem_cons_self ..), ih fun x hx => h x (List.mem_cons_of_mem _ hx)]; rfl

/-- the target of `u`, `u` if it does not take part -/
def tgt (c : Cfg α) (s : DC) (u : Nat) : Nat :=
  if s.cw u = c.nw u ∧ c.en u = true then target c s.cl s.cw s.fv u else u

/-- weight of the nodes in `us` that are proposed to `t` by `p` -/
def propW (c : Cfg α) (us : List Nat) (p : Nat → Nat) (t : Nat) : Int :=
  (us.map (fun u => if p u = t ∧ p u ≠ u then c.nw u else 0)).sum

/-- state during the first loop -/
structure Inv1 (c : Cfg α) (us : List Nat) (s : DC) (x : Par.PSt DC Pc1) : Prop where
  cl : x.s.cl = s.cl
  cw : x.s.cw = s.cw
  fv : x.s.fv = s.fv
  pc : ∀ u ∈ us, (x.pc u = .start ∧ x.s.prop u = u) ∨ (x.pc u = .put (tgt c s u) ∧ tgt c s u ≠ u ∧ x.s.prop u = u) ∨
    (x.pc u = .add (tgt c s u) ∧ tgt c s u ≠ u ∧ x.s.prop u = tgt c s u) ∨ (x.pc u = .fin ∧ x.s.prop u = tgt c s u)
  other : ∀ u, u ∉ us → x.s.prop u = s.prop u
  opp : ∀ t, x.s.opp t = s.opp t + (us.map (fun u => if x.pc u = .fin ∧ tgt c s u = t ∧ tgt c s u ≠ u then c.nw u else 0)).sum

theorem loop1 {us : List Nat} {s s' : DC} (hn : us.Nodup) (hp : ∀ u ∈ us, s.prop u = u) (h : Par.For (next1 c) us .start .fin s s') :
    s'.cl = s.cl ∧ s'.cw = s.cw ∧ s'.fv = s.fv ∧ (∀ u ∈ us, s'.prop u = tgt c s u) ∧ (∀ u, u ∉ us → s'.prop u = s.prop u) ∧
    ∀ t, s'.opp t = s.opp t + propW c us (tgt c s) t := by
  have i0 : Inv1 c us s ⟨s, fun _ => .start⟩ := by
    refine ⟨rfl, rfl, rfl, fun u hu => .inl ⟨rfl, hp u hu⟩, fun _ _ => rfl, fun t => ?_⟩
    rw [sum_zero]
    · simp
    · intro x _; simp
  have i1 : ∀ x u p s2, u ∈ us → Inv1 c us s x → next1 c u (x.pc u) x.s = some (p, s2) → Inv1 c us s ⟨s2, wr x.pc u p⟩ := by
    intro x u p s2 hu hI hx
    have hpc := hI.pc u hu
    have hcl := hI.cl; have hcw := hI.cw; have hfv := hI.fv
    have hsum : ∀ t, (us.map (fun v => if wr x.pc u p v = .fin ∧ tgt c s v = t ∧ tgt c s v ≠ v then c.nw v else 0)).sum =
        (us.map (fun v => if x.pc v = .fin ∧ tgt c s v = t ∧ tgt c s v ≠ v then c.nw v else 0)).sum -
          (if x.pc u = .fin ∧ tgt c s u = t ∧ tgt c s u ≠ u then c.nw u else 0) +
          (if p = .fin ∧ tgt c s u = t ∧ tgt c s u ≠ u then c.nw u else 0) := by
      intro t
      rw [sum_change hn hu (f := fun v => if x.pc v = .fin ∧ tgt c s v = t ∧ tgt c s v ≠ v then c.nw v else 0)]
      · simp [wr_same]
      · intro v _ hv; simp [wr_other _ _ hv]
    have hoth : ∀ v ∈ us, v ≠ u → wr x.pc u p v = x.pc v := fun v _ hv => wr_other _ _ hv
    have hat : tgt c s u = if x.s.cw u = c.nw u ∧ c.en u = true then target c x.s.cl x.s.cw x.s.fv u else u := by
      rw [hcl, hcw, hfv]; rfl
    have h0 := hI.opp
    rcases hpc with ⟨h1, h2⟩ | ⟨h1, h2, h3⟩ | ⟨h1, h2, h3⟩ | ⟨h1, h2⟩
    · rw [h1] at hx
      simp only [next1] at hx
      have hs2 : s2 = x.s := by grind
      have hp : (p = .put (tgt c s u) ∧ tgt c s u ≠ u) ∨ (p = .fin ∧ tgt c s u = u) := by grind
      subst hs2
      refine ⟨hcl, hcw, hfv, fun v hv => ?_, hI.other, fun t => ?_⟩
      · by_cases hvu : v = u
        · subst hvu; simp only [wr_same]; grind
        · simp only [wr_other _ _ hvu]; exact hI.pc v hv
      · rw [hsum t, h0 t]; grind
    · rw [h1] at hx
      simp only [next1, Option.some.injEq, Prod.mk.injEq] at hx
      obtain ⟨rfl, rfl⟩ := hx
      refine ⟨hcl, hcw, hfv, fun v hv => ?_, fun v hv => ?_, fun t => ?_⟩
      · by_cases hvu : v = u
        · subst hvu; simp only [wr_same]; grind
        · simp only [wr_other _ _ hvu]; exact hI.pc v hv
      · have : v ≠ u := by rintro rfl; exact hv hu
        simp only [wr_other _ _ this]; exact hI.other v hv
      · rw [hsum t]; simp only; rw [h0 t]; grind
    · rw [h1] at hx
      simp only [next1, Option.some.injEq, Prod.mk.injEq] at hx
      obtain ⟨rfl, rfl⟩ := hx
      refine ⟨hcl, hcw, hfv, fun v hv => ?_, hI.other, fun t => ?_⟩
      · by_cases hvu : v = u
        · subst hvu; simp only [wr_same]; grind
        · simp only [wr_other _ _ hvu]; exact hI.pc v hv
      · rw [hsum t]
        by_cases ht : t = tgt c s u
        · subst ht; simp only [wr_same]; rw [h0]; grind
        · simp only [wr_other _ _ ht]; rw [h0]; grind
    · rw [h1] at hx; simp [next1] at hx
  obtain ⟨pc, hI, hf⟩ := h.of_inv i0 i1
  refine ⟨hI.cl, hI.cw, hI.fv, fun u hu => ?_, hI.other, fun t => ?_⟩
  · have := hI.pc u hu
    have h2 : pc u = .fin := hf u hu
    grind
  · rw [hI.opp]; congr 2
    exact List.map_congr_left fun u hu => by simp [hf u hu]

end DetC
end Verif
