import Verif.Lemmas.Pool1
import Mathlib.Data.List.Sort
/-!
# Lemmas for C47: the shared population
-/
namespace Verif
namespace Pool

variable {ι : Type} [LinearOrder ι] {α : Type}

theorem setPc_same {f : Nat → PC} {t : Nat} {p : PC} : setPc f t p t = p := by simp [setPc]
theorem setPc_other {f : Nat → PC} {t u : Nat} {p : PC} (h : u ≠ t) : setPc f t p u = f u := by simp [setPc, h]

/-- a preorder on the results that agrees with the comparison of the code -/
structure Agrees (eps : ι) (e : Nat → Entry ι α) (dflt : Entry ι α) (R : Res ι → Res ι → Prop) : Prop where
  refl : ∀ r, R r r
  trans : ∀ a b c, R a b → R b c → R a c
  yes : ∀ x t, (x = dflt ∨ ∃ u, x = e u) → x.1.better eps (e t).1 = true → R (e t).1 x.1
  no : ∀ x t, (x = dflt ∨ ∃ u, x = e u) → x.1.better eps (e t).1 = false → R x.1 (e t).1

/-- invariant of all executions -/
structure Cover (p : Nat) (e : Nat → Entry ι α) (dflt : Entry ι α) (R : Res ι → Res ι → Prop) (s : St ι α) : Prop where
  len : s.pop.length = p
  origin : ∀ x ∈ s.pop, x = dflt ∨ ∃ t, (s.pc t = .written ∨ s.pc t = .done) ∧ x = e t
  cover : ∀ t, s.pc t = .written ∨ s.pc t = .done → ∃ x ∈ s.pop, R x.1 (e t).1

theorem Cover.step {eps : ι} {p : Nat} {e : Nat → Entry ι α} {dflt : Entry ι α} {R : Res ι → Res ι → Prop} (hR : Agrees eps e dflt R)
    {s s' : St ι α} (h : Cover p e dflt R s) (hs : Step eps e s s') : Cover p e dflt R s' := by
  have orig : ∀ x ∈ s.pop, x = dflt ∨ ∃ u, x = e u := fun x hx => (h.origin x hx).imp id (fun ⟨t, _, ht⟩ => ⟨t, ht⟩)
  cases hs with
  | pass t x l hp hpop hb =>
    refine ⟨h.len, fun y hy => ?_, fun u hu => ?_⟩
    · rcases h.origin y hy with h1 | ⟨u, h1, h2⟩
      · exact Or.inl h1
      · refine Or.inr ⟨u, ?_, h2⟩
        have : u ≠ t := by rintro rfl; rw [hp] at h1; simp at h1
        dsimp only; rw [setPc_other this]; exact h1
    · have : u ≠ t := by rintro rfl; simp [setPc] at hu
      dsimp only at hu; rw [setPc_other this] at hu
      exact h.cover u hu
  | reject t x l hp hpop hb =>
    refine ⟨h.len, fun y hy => ?_, fun u hu => ?_⟩
    · rcases h.origin y hy with h1 | ⟨u, h1, h2⟩
      · exact Or.inl h1
      · refine Or.inr ⟨u, ?_, h2⟩
        have : u ≠ t := by rintro rfl; rw [hp] at h1; simp at h1
        dsimp only; rw [setPc_other this]; exact h1
    · by_cases hut : u = t
      · subst hut
        exact ⟨x, by dsimp only; rw [hpop]; simp, hR.no x u (orig x (by rw [hpop]; simp)) hb⟩
      · dsimp only at hu; rw [setPc_other hut] at hu
        exact h.cover u hu
  | acquire t hp hl =>
    refine ⟨h.len, fun y hy => ?_, fun u hu => ?_⟩
    · rcases h.origin y hy with h1 | ⟨u, h1, h2⟩
      · exact Or.inl h1
      · refine Or.inr ⟨u, ?_, h2⟩
        have : u ≠ t := by rintro rfl; rw [hp] at h1; simp at h1
        dsimp only; rw [setPc_other this]; exact h1
    · have : u ≠ t := by rintro rfl; simp [setPc] at hu
      dsimp only at hu; rw [setPc_other this] at hu
      exact h.cover u hu
  | giveUp t x l hp hpop hb =>
    refine ⟨h.len, fun y hy => ?_, fun u hu => ?_⟩
    · rcases h.origin y hy with h1 | ⟨u, h1, h2⟩
      · exact Or.inl h1
      · refine Or.inr ⟨u, ?_, h2⟩
        have : u ≠ t := by rintro rfl; rw [hp] at h1; simp at h1
        dsimp only; rw [setPc_other this]; exact h1
    · by_cases hut : u = t
      · subst hut
        exact ⟨x, by dsimp only; rw [hpop]; simp, hR.no x u (orig x (by rw [hpop]; simp)) hb⟩
      · dsimp only at hu; rw [setPc_other hut] at hu
        exact h.cover u hu
  | write t x l hp hpop hb =>
    refine ⟨?_, fun y hy => ?_, fun u hu => ?_⟩
    · rw [← h.len, hpop]; rfl
    · rcases List.mem_cons.1 hy with rfl | hy
      · exact Or.inr ⟨t, Or.inl setPc_same, rfl⟩
      · rcases h.origin y (by rw [hpop]; simp [hy]) with h1 | ⟨u, h1, h2⟩
        · exact Or.inl h1
        · refine Or.inr ⟨u, ?_, h2⟩
          have : u ≠ t := by rintro rfl; rw [hp] at h1; simp at h1
          dsimp only; rw [setPc_other this]; exact h1
    · by_cases hut : u = t
      · subst hut
        exact ⟨e u, by simp, hR.refl _⟩
      · dsimp only at hu; rw [setPc_other hut] at hu
        obtain ⟨y, hy, hyr⟩ := h.cover u hu
        rw [hpop] at hy
        rcases List.mem_cons.1 hy with rfl | hy
        · exact ⟨e t, by simp, hR.trans _ _ _ (hR.yes y t (orig y (by rw [hpop]; simp)) hb) hyr⟩
        · exact ⟨y, by simp [hy], hyr⟩
  | shuffle t l hp hperm =>
    refine ⟨by rw [← h.len]; exact hperm.length_eq, fun y hy => h.origin y (hperm.mem_iff.1 hy), fun u hu => ?_⟩
    obtain ⟨y, hy, hyr⟩ := h.cover u hu
    exact ⟨y, hperm.mem_iff.2 hy, hyr⟩
  | finish t x l hp hperm hw =>
    refine ⟨by rw [← h.len]; exact hperm.length_eq, fun y hy => ?_, fun u hu => ?_⟩
    · rcases h.origin y (hperm.mem_iff.1 hy) with h1 | ⟨u, h1, h2⟩
      · exact Or.inl h1
      · refine Or.inr ⟨u, ?_, h2⟩
        by_cases hut : u = t
        · subst hut; exact Or.inr setPc_same
        · dsimp only; rw [setPc_other hut]; exact h1
    · have hu' : s.pc u = .written ∨ s.pc u = .done := by
        by_cases hut : u = t
        · subst hut; exact Or.inl hp
        · dsimp only at hu; rw [setPc_other hut] at hu; exact hu
      obtain ⟨y, hy, hyr⟩ := h.cover u hu'
      exact ⟨y, hperm.mem_iff.2 hy, hyr⟩

theorem Cover.initial {p : Nat} {e : Nat → Entry ι α} {dflt : Entry ι α} {R : Res ι → Res ι → Prop} : Cover p e dflt R (initial p dflt) :=
  ⟨by simp [Pool.initial], fun x hx => Or.inl (List.eq_of_mem_replicate hx), fun t ht => by simp [Pool.initial] at ht⟩

theorem Cover.steps {eps : ι} {p : Nat} {e : Nat → Entry ι α} {dflt : Entry ι α} {R : Res ι → Res ι → Prop} (hR : Agrees eps e dflt R)
    {s s' : St ι α} (h : Cover p e dflt R s) (hs : Steps eps e s s') : Cover p e dflt R s' := by
  induction hs with
  | refl => exact h
  | tail t u _ h' ih => exact ih.step hR h'

theorem agrees_asGood (eps : ι) (e : Nat → Entry ι α) (dflt : Entry ι α) : Agrees eps e dflt (AsGood eps) :=
  ⟨AsGood.refl eps, fun _ _ _ => AsGood.trans, fun _ _ _ => asGood_of_better, fun _ _ _ => asGood_of_not_better⟩

theorem agrees_key {eps : ι} {e : Nat → Entry ι α} {dflt : Entry ι α}
    (h : ∀ x t, (x = dflt ∨ ∃ u, x = e u) → Comparable eps x.1 (e t).1) : Agrees eps e dflt (fun a b => key eps a ≤ key eps b) :=
  ⟨fun _ => le_refl _, fun _ _ _ => le_trans, fun x t hx hb => ((better_iff (h x t hx)).1 hb).le,
   fun x t hx hb => not_lt.1 (fun hh => by rw [(better_iff (h x t hx)).2 hh] at hb; simp at hb)⟩

/-! ### Executions without reads during an update -/

/-- executions in which the front is never read while another run repairs the heap -/
inductive Quiet (eps : ι) (e : Nat → Entry ι α) : St ι α → St ι α → Prop
  | refl (s : St ι α) : Quiet eps e s s
  | tail (s t u : St ι α) (h : Quiet eps e s t) (h' : Step eps e t u)
      (hq : ∀ r, t.pc r = .start → u.pc r ≠ .start → ∀ r', t.pc r' ≠ .written) : Quiet eps e s u

theorem Quiet.steps {eps : ι} {e : Nat → Entry ι α} {s t : St ι α} (h : Quiet eps e s t) : Steps eps e s t := by
  induction h with
  | refl => exact .refl _
  | tail t u _ h' _ ih => exact .tail _ _ _ ih h'

/-- what the population is made of: the handled runs without the rejected entries -/
structure Best (n p : Nat) (eps : ι) (e : Nat → Entry ι α) (dflt : Entry ι α) (s : St ι α) (rej : List (Entry ι α)) : Prop where
  perm : (s.pop ++ rej).Perm (List.replicate p dflt ++ ((List.range n).filter (fun t => s.pc t = .written ∨ s.pc t = .done)).map e)
  le : ∀ x ∈ s.pop, ∀ y ∈ rej, key eps x.1 ≤ key eps y.1
  out : ∀ t, n ≤ t → s.pc t = .start
  mutex : ∀ t, s.pc t = .locked ∨ s.pc t = .written → s.holder = some t
  top : (∀ t, s.pc t ≠ .written) → ∀ x l, s.pop = x :: l → ∀ y ∈ s.pop, key eps y.1 ≤ key eps x.1

theorem filter_congr_pc {n : Nat} {f g : Nat → PC} (h : ∀ t, t < n → ((f t = .written ∨ f t = .done) ↔ (g t = .written ∨ g t = .done))) :
    (List.range n).filter (fun t => decide (f t = .written ∨ f t = .done)) = (List.range n).filter (fun t => decide (g t = .written ∨ g t = .done)) := by
  apply List.filter_congr
  intro t ht
  exact decide_eq_decide.2 (h t (List.mem_range.1 ht))

theorem filter_add_pc {α : Type} (f : Nat → α) : ∀ (l : List Nat) (a b : Nat → Bool) (t : Nat), l.Nodup → t ∈ l → a t = false → (∀ u, b u = (a u || decide (u = t))) →
    ((l.filter b).map f).Perm (f t :: (l.filter a).map f) := by
  intro l
  induction l with
  | nil => intro a b t _ h; simp at h
  | cons x l ih =>
    intro a b t hn ht ha hb
    rw [List.nodup_cons] at hn
    rcases List.mem_cons.1 ht with rfl | ht
    · have : l.filter b = l.filter a := List.filter_congr (fun u hu => by
        have : u ≠ t := fun hh => hn.1 (hh ▸ hu)
        rw [hb]; simp [this])
      rw [List.filter_cons, List.filter_cons, this, ha, hb]
      simp
    · have hxt : x ≠ t := fun hh => hn.1 (hh ▸ ht)
      have := ih a b t hn.2 ht ha hb
      rw [List.filter_cons, List.filter_cons, hb x]
      simp only [hxt, decide_false, Bool.or_false]
      split_ifs
      · rw [List.map_cons, List.map_cons]
        exact (this.cons _).trans (List.Perm.swap _ _ _)
      · exact this

end Pool
end Verif
