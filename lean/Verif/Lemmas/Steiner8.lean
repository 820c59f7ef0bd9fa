import Verif.Lemmas.Steiner7
/-!
# The spanning tree is a 2-approximation; the cache; the connectivity test
-/
namespace Verif.Steiner
open Verif.WGraph
open Relation

variable {G M : WGraph} {X : Finset Nat} {A : Table}

theorem IsCompletion.pair_mem (h : IsCompletion G X M) {a b : Nat} (ha : a ∈ X) (hb : b ∈ X) (hab : a ≠ b) : pair a b ∈ M.edges := by
  unfold pair
  split
  · exact (h.edges _ _).2 ⟨ha, hb, by omega⟩
  · exact (h.edges _ _).2 ⟨hb, ha, by omega⟩

theorem IsCompletion.dist (h : IsCompletion G X M) {a b : Nat} (ha : a ∈ X) (hb : b ∈ X) (hab : a ≠ b) : IsDist G a b (M.wt (pair a b)) := by
  unfold pair
  split
  · exact h.wt _ ha _ hb (by omega)
  · exact IsDist.symm (h.wt _ hb _ ha (by omega))

theorem IsCompletion.wf (hG : G.WF) (h : IsCompletion G X M) (hX : ∀ x ∈ X, x < G.n) : M.WF := by
  constructor
  · intro e he
    obtain ⟨_, h2, h3⟩ := (h.edges e.1 e.2).1 he
    exact ⟨h3, by rw [h.n]; exact hX _ h2⟩
  · intro e he
    obtain ⟨h1, h2, h3⟩ := (h.edges e.1 e.2).1 he
    exact Walk.nonneg hG (h.wt _ h1 _ h2 h3).1

theorem matOf (hG : G.WF) (hc : G.Connected) (hw : G.weight G.edges < kInvalid) (hA : Snd G A) (h : IsCompletion G X M)
    (hX : ∀ x ∈ X, x < G.n) : MatOf M X A := by
  refine ⟨by rw [h.n]; exact hX, IsCompletion.wf hG h hX, fun a ha b hb hab => IsCompletion.pair_mem h ha hb hab, ?_, ?_, ?_⟩
  · intro e he
    obtain ⟨h1, h2, _⟩ := (h.edges e.1 e.2).1 he
    exact ⟨h1, h2⟩
  · intro a ha b hb hab
    rw [h.n]
    exact IsDist.unique (hA.dist a (hX a ha) b (hX b hb)) (IsCompletion.dist h ha hb hab)
  · intro a ha b hb hab
    rw [h.n]
    have := IsDist.le_weight hG (hA.dist a (hX a ha) b (hX b hb)) (ConnSub.whole hG hc) (Finset.mem_range.2 (hX a ha))
      (Finset.mem_range.2 (hX b hb))
    unfold maxW
    unfold kInvalid at hw
    omega

/-- replace the edges of the completion by shortest paths -/
theorem completion_sol (hG : G.WF) (h : IsCompletion G X M) (hX : ∀ x ∈ X, x < G.n) {r : Nat} {U : Finset Nat} {w : Int}
    (hT : Rooted M r U w) (hU : U ⊆ X) : Sol G U w := by
  induction hT with
  | @single r hr => exact Sol.single (hX r (hU (by simp)))
  | @graft r c U V w w' h1 h2 hadj i1 i2 =>
    have hUX : U ⊆ X := fun x hx => hU (Finset.mem_union_left _ hx)
    have hVX : V ⊆ X := fun x hx => hU (Finset.mem_union_right _ hx)
    have hr := hUX h1.root_mem
    have hcX := hVX h2.root_mem
    have hne := (Adj.ends (IsCompletion.wf hG h hX) hadj).2.2
    have hd := Walk.sol hG (hX r hr) (IsCompletion.dist h hr hcX hne).1
    have s1 := Sol.union hG (i1 hUX) hd h1.root_mem (by simp)
    have s2 := Sol.union hG s1 (i2 hVX) (x := c) (by simp) h2.root_mem
    refine s2.mono ?_ (le_refl _)
    intro x hx
    rcases Finset.mem_union.1 hx with hx | hx
    · exact Finset.mem_union_left _ (Finset.mem_union_left _ hx)
    · exact Finset.mem_union_right _ hx

/-! ### A closed tour around a tree -/

/-- a walk that visits the nodes of a list in order -/
inductive Tour (G : WGraph) : Nat → List Nat → Nat → Int → Prop where
  | nil {a b : Nat} {w : Int} : Walk G a b w → Tour G a [] b w
  | cons {a x b : Nat} {l : List Nat} {w w' : Int} : Walk G a x w → Tour G x l b w' → Tour G a (x :: l) b (w + w')

theorem Tour.pre {a b c : Nat} {l : List Nat} {w w' : Int} (h : Walk G a b w) (h' : Tour G b l c w') : Tour G a l c (w + w') := by
  cases h' with
  | nil h1 => exact .nil (Walk.append h h1)
  | cons h1 h2 => rw [← Int.add_assoc]; exact .cons (Walk.append h h1) h2

theorem Tour.append {a b c : Nat} {l m : List Nat} {w w' : Int} (h : Tour G a l b w) (h' : Tour G b m c w') : Tour G a (l ++ m) c (w + w') := by
  induction h with
  | nil h1 => exact h'.pre h1
  | cons h1 _ ih => rw [Int.add_assoc]; exact .cons h1 (ih h')

/-- drop nodes from the list -/
theorem Tour.sublist {a b : Nat} {l : List Nat} {w : Int} (h : Tour G a l b w) : ∀ {m : List Nat}, m.Sublist l → Tour G a m b w := by
  induction h with
  | nil h1 => intro m hm; rw [List.sublist_nil.1 hm]; exact .nil h1
  | cons h1 _ ih =>
    intro m hm
    cases hm with
    | cons _ hm => exact (ih hm).pre h1
    | cons_cons _ hm => exact .cons h1 (ih hm)

theorem Rooted.tour {r : Nat} {U : Finset Nat} {w : Int} (h : Rooted G r U w) :
    ∃ l, Tour G r l r (2 * w) ∧ ∀ x ∈ U, x ∈ l := by
  induction h with
  | @single r hr =>
    refine ⟨[r], ?_, by simp⟩
    have := Tour.cons (Walk.nil (G := G) r) (.nil (.nil r))
    simpa using this
  | @graft r c U V w w' h1 h2 hadj i1 i2 =>
    obtain ⟨l, l1, l2⟩ := i1
    obtain ⟨m, m1, m2⟩ := i2
    refine ⟨l ++ (m ++ []), ?_, ?_⟩
    · have hb : Walk G r c (G.wt (pair r c)) := by
        have := Walk.cons hadj (.nil c); simpa using this
      have := l1.append (Tour.pre hb (m1.append (Tour.nil (Walk.reverse hb))))
      convert this using 1
      ring
    · intro x hx
      rcases Finset.mem_union.1 hx with hx | hx
      · exact List.mem_append_left _ (l2 x hx)
      · exact List.mem_append_right _ (List.mem_append_left _ (m2 x hx))

/-- a tour through distinct nodes of `X` gives a spanning path of the completion -/
theorem Tour.path (hG : G.WF) (h : IsCompletion G X M) (hX : ∀ x ∈ X, x < G.n) {a b : Nat} {l : List Nat} {w : Int} (ht : Tour G a l b w)
    (hl : ∀ x ∈ l, x ∈ X) (ha : a ∈ X) : Sol M (insert a l.toFinset) w := by
  have hM := IsCompletion.wf hG h hX
  induction ht with
  | nil h1 => exact (Sol.single (G := M) (by rw [h.n]; exact hX _ ha)).mono (by simp) (Walk.nonneg hG h1)
  | @cons a x b l w w' h1 _ ih =>
    have hx : x ∈ X := hl x (by simp)
    have h2 := ih (fun y hy => hl y (List.mem_cons_of_mem _ hy)) hx
    by_cases hax : a = x
    · subst hax
      refine h2.mono ?_ (by have := Walk.nonneg hG h1; omega)
      intro y; simp
    · have h3 := Sol.edge hM (IsCompletion.pair_mem h ha hx hax)
      have hle := (IsCompletion.dist h ha hx hax).2 _ h1
      have := Sol.union hM h3 h2 (x := x) (by simp) (by simp)
      refine this.mono ?_ (by omega)
      intro y hy
      simp only [Finset.mem_insert, List.toFinset_cons, Finset.mem_union, Finset.mem_singleton] at hy ⊢
      tauto

/-- subgraphs of the completion only use nodes of `X` -/
theorem completion_sol_spanning (h : IsCompletion G X M) (hne : X.Nonempty) {c : Int} (hs : Sol M X c) :
    ∃ S, M.ConnSub X S ∧ M.weight S ≤ c := by
  obtain ⟨U, S, h1, h2, h3⟩ := hs
  have key : ∀ u ∈ U, u ∈ X := by
    intro u hu
    obtain ⟨x, hx⟩ := hne
    have := h1.conn x (h2 hx) u hu
    induction this with
    | refl => exact hx
    | @tail p q _ hpq _ =>
      obtain ⟨e1, e2, _⟩ := (h.edges (pair p q).1 (pair p q).2).1 (h1.edges hpq)
      rcases pair_ends (a := p) (b := q) with e | e
      · rw [e.2] at e2; exact e2
      · rw [e.1] at e1; exact e1
  have : U = X := Finset.Subset.antisymm key h2
  subst this
  exact ⟨S, h1, h3⟩

/-- lower and upper bound for spanning trees of the completion -/
theorem spanning_approx (hG : G.WF) (h : IsCompletion G X M) (hX : ∀ x ∈ X, x < G.n) (hne : X.Nonempty) {c o : Int}
    (hc : M.IsSpanning X c) (ho : G.IsSteiner X o) : o ≤ c ∧ c ≤ 2 * o := by
  have hM := IsCompletion.wf hG h hX
  obtain ⟨r, hr⟩ := hne
  constructor
  · obtain ⟨S, s1, s2⟩ := hc.1
    obtain ⟨w, t1, t2⟩ := exists_tree hM s1 hr
    obtain ⟨U, S', p1, p2, p3⟩ := completion_sol hG h hX t1 (Finset.Subset.refl _)
    have := ho.2 U S' p1 p2
    omega
  · obtain ⟨U, S, u1, u2, u3⟩ := ho.1
    obtain ⟨w, t1, t2⟩ := exists_tree hG u1 (u2 hr)
    obtain ⟨l, l1, l2⟩ := t1.tour
    have l3 := l1.sublist (List.filter_sublist (l := l) (p := fun x => decide (x ∈ X)))
    have s1 := l3.path hG h hX (fun x hx => by simpa using (List.mem_filter.1 hx).2) hr
    have s2 : Sol M X (2 * w) := by
      refine s1.mono ?_ (le_refl _)
      intro x hx
      refine Finset.mem_insert_of_mem (List.mem_toFinset.2 (List.mem_filter.2 ⟨l2 x (u2 hx), by simpa using hx⟩))
    obtain ⟨S2, s3, s4⟩ := completion_sol_spanning h ⟨r, hr⟩ s2
    have := hc.2 S2 s3
    omega

/-! ### The hash -/

theorem setHash_fold (l : List Nat) : ∀ h : Nat, ∀ i : Nat,
    (l.foldl (fun h b => h ||| (1 <<< (b % 64))) h).testBit i = (h.testBit i || l.any (fun b => b % 64 == i)) := by
  induction l with
  | nil => intro h i; simp
  | cons b l ih =>
    intro h i
    rw [List.foldl_cons, ih]
    simp only [Nat.testBit_or, List.any_cons, Nat.testBit_shiftLeft]
    rw [Bool.or_assoc]
    congr 2
    by_cases hb : b % 64 = i
    · subst hb; simp
    · rw [beq_eq_false_iff_ne.2 hb]
      by_cases hge : i ≥ b % 64
      · simp only [hge, decide_true, Bool.true_and]
        rw [Nat.testBit_eq_false_of_lt]
        have : 1 ≤ i - b % 64 := by omega
        calc 1 < 2 ^ 1 := by norm_num
          _ ≤ 2 ^ (i - b % 64) := Nat.pow_le_pow_right (by norm_num) this
      · simp [hge]

theorem setHash_inj {n : Nat} (hn : n ≤ 64) {X Y : Finset Nat} (hX : ∀ x ∈ X, x < n) (hY : ∀ x ∈ Y, x < n)
    (h : setHash n X = setHash n Y) : X = Y := by
  have key : ∀ Z : Finset Nat, (∀ x ∈ Z, x < n) → ∀ i, i < 64 → ((setHash n Z).testBit i = true ↔ i ∈ Z) := by
    intro Z hZ i hi
    unfold setHash
    rw [setHash_fold]
    simp only [Nat.zero_testBit, Bool.false_or, List.any_eq_true, beq_iff_eq, mem_bitsOf]
    constructor
    · rintro ⟨b, ⟨h1, h2⟩, h3⟩
      rw [Nat.mod_eq_of_lt (by omega)] at h3
      subst h3; exact h2
    · intro h
      exact ⟨i, ⟨hZ i h, h⟩, Nat.mod_eq_of_lt hi⟩
  ext x
  constructor
  · intro hx
    have hx' := hX x hx
    rw [← key Y hY x (by omega), ← h, key X hX x (by omega)]; exact hx
  · intro hx
    have hx' := hY x hx
    rw [← key X hX x (by omega), h, key Y hY x (by omega)]; exact hx

end Verif.Steiner
