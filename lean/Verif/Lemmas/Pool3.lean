import Verif.Lemmas.Pool2
/-!
# Lemmas for C47: the population contains the best results
-/
namespace Verif
namespace Pool

variable {ι : Type} [LinearOrder ι] {α : Type}

theorem not_better_key {eps : ι} {r o : Res ι} (hc : Comparable eps r o) (h : r.better eps o = false) : key eps r ≤ key eps o :=
  not_lt.1 (fun hh => by rw [(better_iff hc).2 hh] at h; simp at h)

theorem step_start {eps : ι} {e : Nat → Entry ι α} {s s' : St ι α} (h : Step eps e s s') {r : Nat} (hr : s'.pc r = .start) : s.pc r = .start := by
  have key : ∀ {t : Nat} {p : PC}, p ≠ .start → setPc s.pc t p r = .start → s.pc r = .start := by
    intro t p hp hh
    by_cases hrt : r = t
    · subst hrt; rw [setPc_same] at hh; exact absurd hh hp
    · rwa [setPc_other hrt] at hh
  cases h with
  | pass => exact key (by simp) hr
  | reject => exact key (by simp) hr
  | acquire => exact key (by simp) hr
  | giveUp => exact key (by simp) hr
  | write => exact key (by simp) hr
  | shuffle => exact hr
  | finish => exact key (by simp) hr

/-- the list of all entries that have been considered -/
def handled (n p : Nat) (e : Nat → Entry ι α) (dflt : Entry ι α) (pc : Nat → PC) : List (Entry ι α) :=
  List.replicate p dflt ++ ((List.range n).filter (fun t => decide (pc t = .written ∨ pc t = .done))).map e

theorem handled_same {n p : Nat} {e : Nat → Entry ι α} {dflt : Entry ι α} {f g : Nat → PC}
    (h : ∀ t, t < n → ((f t = .written ∨ f t = .done) ↔ (g t = .written ∨ g t = .done))) : handled n p e dflt f = handled n p e dflt g := by
  unfold handled
  rw [filter_congr_pc h]

theorem handled_add {n p : Nat} {e : Nat → Entry ι α} {dflt : Entry ι α} {f : Nat → PC} {t : Nat} (ht : t < n) {q : PC} (hq : q = .written ∨ q = .done)
    (h : ¬ (f t = .written ∨ f t = .done)) : (handled n p e dflt (setPc f t q)).Perm (e t :: handled n p e dflt f) := by
  unfold handled
  have := filter_add_pc e (List.range n) (fun u => decide (f u = .written ∨ f u = .done)) (fun u => decide (setPc f t q u = .written ∨ setPc f t q u = .done)) t
    List.nodup_range (List.mem_range.2 ht) (by simpa using h) (by
      intro u
      by_cases hut : u = t
      · subst hut; rw [setPc_same]; simp [hq]
      · rw [setPc_other hut]; simp [hut])
  exact (this.append_left _).trans List.perm_middle

theorem Best.step {n p : Nat} {eps : ι} {e : Nat → Entry ι α} {dflt : Entry ι α} (hC : ∀ x y, (x = dflt ∨ ∃ u, x = e u) → (y = dflt ∨ ∃ u, y = e u) → Comparable eps x.1 y.1)
    {R : Res ι → Res ι → Prop} {s s' : St ι α} {rej : List (Entry ι α)} (h : Best n p eps e dflt s rej) (hcov : Cover p e dflt R s) (hs : Step eps e s s')
    (hq : ∀ r, s.pc r = .start → s'.pc r ≠ .start → ∀ r', s.pc r' ≠ .written) (hout : ∀ t, n ≤ t → s'.pc t = .start) : ∃ rej', Best n p eps e dflt s' rej' := by
  have orig : ∀ x ∈ s.pop, x = dflt ∨ ∃ u, x = e u := fun x hx => (hcov.origin x hx).imp id (fun ⟨t, _, ht⟩ => ⟨t, ht⟩)
  have hlt : ∀ t, s'.pc t ≠ .start → t < n := fun t ht => by
    by_contra hc
    exact ht (hout t (by omega))
  have hperm : (s.pop ++ rej).Perm (handled n p e dflt s.pc) := h.perm
  cases hs with
  | pass t x l hp hpop hb =>
    refine ⟨rej, ?_, h.le, hout, ?_, ?_⟩
    · show (s.pop ++ rej).Perm (handled n p e dflt (setPc s.pc t .want))
      rw [handled_same (f := setPc s.pc t .want) (g := s.pc)]
      · exact hperm
      · intro u _
        by_cases hut : u = t
        · subst hut; rw [setPc_same, hp]; simp
        · rw [setPc_other hut]
    · intro u hu
      by_cases hut : u = t
      · subst hut; simp [setPc] at hu
      · dsimp only at hu; rw [setPc_other hut] at hu; exact h.mutex u hu
    · intro hw
      refine h.top (fun u hu => ?_)
      by_cases hut : u = t
      · subst hut; rw [hp] at hu; simp at hu
      · exact hw u (by dsimp only; rw [setPc_other hut]; exact hu)
  | reject t x l hp hpop hb =>
    have hnw := hq t hp (by simp [setPc])
    have hx : key eps x.1 ≤ key eps (e t).1 := not_better_key (hC x (e t) (orig x (by rw [hpop]; simp)) (Or.inr ⟨t, rfl⟩)) hb
    refine ⟨e t :: rej, ?_, ?_, hout, ?_, ?_⟩
    · exact (List.perm_middle.trans (hperm.cons _)).trans (handled_add (hlt t (by simp [setPc])) (Or.inr rfl) (by rw [hp]; simp)).symm
    · intro y hy z hz
      rcases List.mem_cons.1 hz with rfl | hz
      · exact le_trans (h.top hnw x l hpop y hy) hx
      · exact h.le y hy z hz
    · intro u hu
      by_cases hut : u = t
      · subst hut; simp [setPc] at hu
      · dsimp only at hu; rw [setPc_other hut] at hu; exact h.mutex u hu
    · intro _
      exact h.top hnw
  | acquire t hp hl =>
    refine ⟨rej, ?_, h.le, hout, ?_, ?_⟩
    · show (s.pop ++ rej).Perm (handled n p e dflt (setPc s.pc t .locked))
      rw [handled_same (f := setPc s.pc t .locked) (g := s.pc)]
      · exact hperm
      · intro u _
        by_cases hut : u = t
        · subst hut; rw [setPc_same, hp]; simp
        · rw [setPc_other hut]
    · intro u hu
      by_cases hut : u = t
      · subst hut; rfl
      · dsimp only at hu; rw [setPc_other hut] at hu
        have := h.mutex u hu
        rw [hl] at this; simp at this
    · intro hw
      refine h.top (fun u hu => ?_)
      by_cases hut : u = t
      · subst hut; rw [hp] at hu; simp at hu
      · exact hw u (by dsimp only; rw [setPc_other hut]; exact hu)
  | giveUp t x l hp hpop hb =>
    have hnw : ∀ u, s.pc u ≠ .written := by
      intro u hu
      have h1 := h.mutex u (Or.inr hu)
      have h2 := h.mutex t (Or.inl hp)
      rw [h1] at h2
      have := Option.some.inj h2
      subst this
      rw [hp] at hu; simp at hu
    have hx : key eps x.1 ≤ key eps (e t).1 := not_better_key (hC x (e t) (orig x (by rw [hpop]; simp)) (Or.inr ⟨t, rfl⟩)) hb
    refine ⟨e t :: rej, ?_, ?_, hout, ?_, ?_⟩
    · exact (List.perm_middle.trans (hperm.cons _)).trans (handled_add (hlt t (by simp [setPc])) (Or.inr rfl) (by rw [hp]; simp)).symm
    · intro y hy z hz
      rcases List.mem_cons.1 hz with rfl | hz
      · exact le_trans (h.top hnw x l hpop y hy) hx
      · exact h.le y hy z hz
    · intro u hu
      by_cases hut : u = t
      · subst hut; simp [setPc] at hu
      · dsimp only at hu; rw [setPc_other hut] at hu
        have h1 := h.mutex u hu
        have h2 := h.mutex t (Or.inl hp)
        rw [h1] at h2
        exact absurd (Option.some.inj h2) hut
    · intro _
      exact h.top hnw
  | write t x l hp hpop hb =>
    have hnw : ∀ u, s.pc u ≠ .written := by
      intro u hu
      have h1 := h.mutex u (Or.inr hu)
      have h2 := h.mutex t (Or.inl hp)
      rw [h1] at h2
      have := Option.some.inj h2
      subst this
      rw [hp] at hu; simp at hu
    have hx : key eps (e t).1 < key eps x.1 := (better_iff (hC x (e t) (orig x (by rw [hpop]; simp)) (Or.inr ⟨t, rfl⟩))).1 hb
    refine ⟨x :: rej, ?_, ?_, hout, ?_, ?_⟩
    · have h1 : ((e t :: l) ++ x :: rej).Perm (e t :: (s.pop ++ rej)) := by
        rw [hpop]
        exact List.Perm.cons _ List.perm_middle
      exact (h1.trans (hperm.cons _)).trans (handled_add (hlt t (by simp [setPc])) (Or.inl rfl) (by rw [hp]; simp)).symm
    · intro y hy z hz
      have hxz : key eps x.1 ≤ key eps z.1 := by
        rcases List.mem_cons.1 hz with rfl | hz
        · exact le_refl _
        · exact h.le x (by rw [hpop]; simp) z hz
      rcases List.mem_cons.1 hy with rfl | hy
      · exact le_trans hx.le hxz
      · exact le_trans (h.top hnw x l hpop y (by rw [hpop]; simp [hy])) hxz
    · intro u hu
      by_cases hut : u = t
      · subst hut; exact h.mutex u (Or.inl hp)
      · dsimp only at hu; rw [setPc_other hut] at hu; exact h.mutex u hu
    · intro hw
      exact absurd setPc_same (hw t)
  | shuffle t l hp hpm =>
    refine ⟨rej, (hpm.append_right _).trans hperm, fun y hy z hz => h.le y (hpm.mem_iff.1 hy) z hz, hout, h.mutex, ?_⟩
    intro hw
    exact absurd hp (hw t)
  | finish t x l hp hpm hw =>
    refine ⟨rej, ?_, fun y hy z hz => h.le y (hpm.mem_iff.1 hy) z hz, hout, ?_, ?_⟩
    · show ((x :: l) ++ rej).Perm (handled n p e dflt (setPc s.pc t .done))
      rw [handled_same (f := setPc s.pc t .done) (g := s.pc)]
      · exact (hpm.append_right _).trans hperm
      · intro u _
        by_cases hut : u = t
        · subst hut; rw [setPc_same, hp]; simp
        · rw [setPc_other hut]
    · intro u hu
      by_cases hut : u = t
      · subst hut; simp [setPc] at hu
      · dsimp only at hu; rw [setPc_other hut] at hu
        have h1 := h.mutex u hu
        have h2 := h.mutex t (Or.inr hp)
        rw [h1] at h2
        exact absurd (Option.some.inj h2) hut
    · intro _ x' l' hpop' y hy
      have : x' = x ∧ l' = l := by
        have := List.cons.inj hpop'
        exact ⟨this.1.symm, this.2.symm⟩
      obtain ⟨rfl, rfl⟩ := this
      exact not_better_key (hC y x' (orig y (hpm.mem_iff.1 hy)) (orig x' (hpm.mem_iff.1 (by simp)))) (hw y hy)

theorem Best.quiet {n p : Nat} {eps : ι} {e : Nat → Entry ι α} {dflt : Entry ι α} (hC : ∀ x y, (x = dflt ∨ ∃ u, x = e u) → (y = dflt ∨ ∃ u, y = e u) → Comparable eps x.1 y.1)
    {s : St ι α} (hs : Quiet eps e (initial p dflt) s) (hout : ∀ t, n ≤ t → s.pc t = .start) : ∃ rej, Best n p eps e dflt s rej := by
  generalize hs0 : initial p dflt = s0 at hs
  induction hs with
  | refl =>
    subst hs0
    refine ⟨[], ?_, by simp, hout, ?_, ?_⟩
    · simp [initial]
    · intro t ht; simp [initial] at ht
    · intro _ x l hpop y hy
      have h1 : y = dflt := List.eq_of_mem_replicate hy
      have h2 : x = dflt := List.eq_of_mem_replicate (n := p) (by
        have : x ∈ (initial p dflt).pop := by rw [hpop]; simp
        exact this)
      rw [h1, h2]
  | tail t u h h' hq ih =>
    obtain ⟨rej, hb⟩ := ih (fun r hr => step_start h' (hout r hr))
    subst hs0
    exact hb.step hC ((Cover.initial (R := AsGood eps)).steps (agrees_asGood eps e dflt) h.steps) h' hq hout

/-- two selections of the `p` best elements of the same list agree -/
theorem select_unique {κ β : Type} [LinearOrder κ] {f : β → κ} {L a b c d : List β} (hinj : ∀ x ∈ L, ∀ y ∈ L, f x = f y → x = y)
    (h1 : (a ++ b).Perm L) (h2 : (c ++ d).Perm L) (hl : a.length = c.length) (l1 : ∀ x ∈ a, ∀ y ∈ b, f x ≤ f y) (l2 : ∀ x ∈ c, ∀ y ∈ d, f x ≤ f y)
    (s1 : a.Pairwise (fun x y => f x ≤ f y)) (s2 : c.Pairwise (fun x y => f x ≤ f y)) : a = c := by
  have hb := List.mergeSort_perm b (fun x y => decide (f x ≤ f y))
  have hd := List.mergeSort_perm d (fun x y => decide (f x ≤ f y))
  have tr : ∀ x y z : β, decide (f x ≤ f y) = true → decide (f y ≤ f z) = true → decide (f x ≤ f z) = true := by
    intro x y z; simp only [decide_eq_true_eq]; exact le_trans
  have tot : ∀ x y : β, (decide (f x ≤ f y) || decide (f y ≤ f x)) = true := by
    intro x y; simp only [Bool.or_eq_true, decide_eq_true_eq]; exact le_total _ _
  have sb := (List.pairwise_mergeSort tr tot b).imp (fun {x y} h => of_decide_eq_true h)
  have sd := (List.pairwise_mergeSort tr tot d).imp (fun {x y} h => of_decide_eq_true h)
  obtain ⟨b', hb'⟩ : ∃ b', b' = b.mergeSort (fun x y => decide (f x ≤ f y)) := ⟨_, rfl⟩
  obtain ⟨d', hd'⟩ : ∃ d', d' = d.mergeSort (fun x y => decide (f x ≤ f y)) := ⟨_, rfl⟩
  rw [← hb'] at hb sb
  rw [← hd'] at hd sd
  have p1 : (a ++ b').Perm L := (hb.append_left a).trans h1
  have p2 : (c ++ d').Perm L := (hd.append_left c).trans h2
  have q1 : (a ++ b').Pairwise (fun x y => f x ≤ f y) :=
    List.pairwise_append.2 ⟨s1, sb, fun x hx y hy => l1 x hx y (hb.mem_iff.1 hy)⟩
  have q2 : (c ++ d').Pairwise (fun x y => f x ≤ f y) :=
    List.pairwise_append.2 ⟨s2, sd, fun x hx y hy => l2 x hx y (hd.mem_iff.1 hy)⟩
  have heq : a ++ b' = c ++ d' := by
    refine List.Perm.eq_of_pairwise (fun x y hx hy h h' => ?_) q1 q2 (p1.trans p2.symm)
    exact hinj x (p1.mem_iff.1 hx) y (p2.mem_iff.1 hy) (le_antisymm h h')
  exact (List.append_inj heq hl).1

end Pool
end Verif
