import Verif.Lemmas.Steiner6
/-!
# Correctness of the spanning tree computation
-/
namespace Verif.Steiner
open Verif.WGraph
open Relation

/-- the matrix contains the edge weights of the complete graph `M` on `X` -/
structure MatOf (M : WGraph) (X : Finset Nat) (A : Table) : Prop where
  nodes : ∀ x ∈ X, x < M.n
  wf : M.WF
  edge : ∀ a ∈ X, ∀ b ∈ X, a ≠ b → pair a b ∈ M.edges
  inX : ∀ e ∈ M.edges, e.1 ∈ X ∧ e.2 ∈ X
  wt : ∀ a ∈ X, ∀ b ∈ X, a ≠ b → A (idx2 M.n a b) = M.wt (pair a b)
  small : ∀ a ∈ X, ∀ b ∈ X, a ≠ b → A (idx2 M.n a b) < maxW

/-- loop invariant; `T` is the set of nodes of the tree, `F` the set of its edges -/
structure PInv (M : WGraph) (X : Finset Nat) (A : Table) (T : Finset Nat) (F : Finset (Nat × Nat)) (d : MSTData) (res : Int) : Prop where
  sub : T ⊆ X
  ne : T.Nonempty
  rem : d.rem = X \ T
  conn : M.ConnSub T F
  res : res = M.weight F
  ext : ∀ S, M.ConnSub X S → ∃ S', M.ConnSub X S' ∧ F ⊆ S' ∧ M.weight S' ≤ M.weight S
  light : ∀ v ∈ d.rem, ∀ u ∈ T, d.lightest v ≤ A (idx2 M.n u v)
  mem : ∀ v ∈ d.rem, (d.lightest v, v) ∈ d.pq
  val : ∀ e ∈ d.pq, e.2 ∈ d.rem → ∃ u ∈ T, e.1 = A (idx2 M.n u e.2)

variable {M : WGraph} {X : Finset Nat} {A : Table}

/-- `T` and one more edge -/
theorem ConnSub.grow {T : Finset Nat} {F : Finset (Nat × Nat)} (h : M.ConnSub T F) {u v : Nat} (hu : u ∈ T) (hv : v < M.n)
    (huv : pair u v ∈ M.edges) : M.ConnSub (insert v T) (insert (pair u v) F) := by
  have hsub : F ⊆ insert (pair u v) F := Finset.subset_insert _ _
  have hup : Adj (insert (pair u v) F) u v := Finset.mem_insert_self _ _
  refine ⟨?_, ?_, ?_, ?_⟩
  · intro x hx
    rcases Finset.mem_insert.1 hx with rfl | hx
    · exact hv
    · exact h.nodes x hx
  · intro e he
    rcases Finset.mem_insert.1 he with rfl | he
    · exact huv
    · exact h.edges he
  · intro e he
    rcases Finset.mem_insert.1 he with rfl | he
    · rcases pair_ends (a := u) (b := v) with h | h <;> rw [h.1, h.2]
      · exact ⟨Finset.mem_insert_of_mem hu, Finset.mem_insert_self _ _⟩
      · exact ⟨Finset.mem_insert_self _ _, Finset.mem_insert_of_mem hu⟩
    · exact ⟨Finset.mem_insert_of_mem (h.ends e he).1, Finset.mem_insert_of_mem (h.ends e he).2⟩
  · have key : ∀ a ∈ insert v T, ReflTransGen (Adj (insert (pair u v) F)) u a := by
      intro a ha
      rcases Finset.mem_insert.1 ha with rfl | ha
      · exact .single hup
      · exact reach_mono hsub (h.conn u hu a ha)
    intro a ha b hb
    exact (reach_symm (key a ha)).trans (key b hb)

theorem PInv.step (hA : MatOf M X A) {T : Finset Nat} {F : Finset (Nat × Nat)} {d : MSTData} {res : Int}
    (h : PInv M X A T F d res) {a : PQElem} {l : List PQElem} (hpq : d.pq = a :: l) :
    (∃ T' F', PInv M X A T' F' (mstStep M.n A a l d res).1 (mstStep M.n A a l d res).2) ∧
    (mstStep M.n A a l d res).1.pq.length + (mstStep M.n A a l d res).1.rem.card ^ 2 + 1 ≤ d.pq.length + d.rem.card ^ 2 := by
  obtain ⟨t1, t2⟩ := pqTop_spec l a
  unfold mstStep
  dsimp only
  generalize hbest : pqTop a l = best at t1 t2 ⊢
  have hlen : ((a :: l).erase best).length + 1 = (a :: l).length := by
    rw [List.length_erase_of_mem t1]; simp
  by_cases hin : best.2 ∈ d.rem
  · rw [if_pos hin]
    dsimp only
    obtain ⟨u, hu, hval⟩ := h.val best (by rw [hpq]; exact t1) hin
    have hinX : best.2 ∈ X \ T := h.rem ▸ hin
    obtain ⟨hvX, hvT⟩ := Finset.mem_sdiff.1 hinX
    have hremX : ∀ x ∈ d.rem, x ∈ X ∧ x ∉ T := by rw [h.rem]; intro x hx; exact Finset.mem_sdiff.1 hx
    have huX := h.sub hu
    have hne : u ≠ best.2 := fun e => hvT (e ▸ hu)
    have hedge := hA.edge u huX best.2 hvX hne
    have hw := hA.wt u huX best.2 hvX hne
    have hmin : ∀ x ∈ T, ∀ y ∈ X, y ∉ T → pair x y ∈ M.edges → M.wt (pair u best.2) ≤ M.wt (pair x y) := by
      intro x hx y hy hyT _
      have hyr : y ∈ d.rem := by rw [h.rem]; exact Finset.mem_sdiff.2 ⟨hy, hyT⟩
      have h1 := h.light y hyr x hx
      have h2 := t2 _ (by rw [← hpq]; exact h.mem y hyr)
      have h3 := hA.wt x (h.sub hx) y hy (fun e => hyT (e ▸ hx))
      simp only [pqLe, decide_eq_true_eq] at h2
      rw [← hw, ← h3, ← hval]
      omega
    have hr' : ∀ x ∈ d.rem.erase best.2, x < M.n := fun x hx => hA.nodes x (hremX x (Finset.mem_of_mem_erase hx)).1
    obtain ⟨p1, p2, p3, p4⟩ := pushAll_spec A best.2 (⟨d.rem.erase best.2, d.lightest, (a :: l).erase best⟩ : MSTData) hr'
    dsimp only at p1 p2 p3 p4
    have hpairF : pair u best.2 ∉ F := by
      intro hF
      have := h.conn.ends _ hF
      rcases pair_ends (a := u) (b := best.2) with e | e <;> rw [e.1, e.2] at this
      · exact hvT this.2
      · exact hvT this.1
    constructor
    · refine ⟨insert best.2 T, insert (pair u best.2) F, ?_⟩
      constructor
      · exact Finset.insert_subset hvX h.sub
      · exact Finset.insert_nonempty _ _
      · rw [p1, h.rem]; ext x; simp only [Finset.mem_erase, Finset.mem_sdiff, Finset.mem_insert]; tauto
      · exact ConnSub.grow h.conn hu (hA.nodes _ hvX) hedge
      · unfold weight
        rw [Finset.sum_insert hpairF, h.res, hval, hw]
        unfold weight
        omega
      · intro S hS
        obtain ⟨S1, s1, s2, s3⟩ := h.ext S hS
        obtain ⟨S2, r1, r2, r3⟩ := exchange hA.wf h.conn h.sub s1 s2 hu hvX hvT hedge hmin
        exact ⟨S2, r1, r2, le_trans r3 s3⟩
      · intro v hv x hx
        rw [p1] at hv
        rw [p2, if_pos hv]
        rcases Finset.mem_insert.1 hx with rfl | hx
        · exact min_le_right _ _
        · exact le_trans (min_le_left _ _) (h.light v (Finset.mem_of_mem_erase hv) x hx)
      · intro v hv
        rw [p1] at hv
        rw [p2, if_pos hv, p3]
        dsimp only
        by_cases hlt : A (idx2 M.n best.2 v) < d.lightest v
        · rw [min_eq_right (le_of_lt hlt)]
          exact Or.inr ⟨hv, rfl, hlt⟩
        · rw [min_eq_left (not_lt.1 hlt)]
          left
          have hne' : v ≠ best.2 := Finset.ne_of_mem_erase hv
          have := h.mem v (Finset.mem_of_mem_erase hv)
          rw [hpq] at this
          exact (List.mem_erase_of_ne (fun e => hne' (by rw [← e]))).2 this
      · intro e he her
        rw [p1] at her
        rcases (p3 e).1 he with he | ⟨_, he, _⟩
        · obtain ⟨x, hx, hx'⟩ := h.val e (by rw [hpq]; exact List.mem_of_mem_erase he) (Finset.mem_of_mem_erase her)
          exact ⟨x, Finset.mem_insert_of_mem hx, hx'⟩
        · exact ⟨best.2, Finset.mem_insert_self _ _, he⟩
    · rw [p1, hpq]
      have hc : (d.rem.erase best.2).card + 1 = d.rem.card := Finset.card_erase_add_one hin
      rw [← hc]
      generalize (d.rem.erase best.2).card = r at *
      have : (r + 1) ^ 2 = r ^ 2 + 2 * r + 1 := by ring
      omega
  · rw [if_neg hin]
    dsimp only
    constructor
    · refine ⟨T, F, h.sub, h.ne, h.rem, h.conn, h.res, h.ext, h.light, ?_, ?_⟩
      · intro v hv
        have := h.mem v hv
        rw [hpq] at this
        exact (List.mem_erase_of_ne (fun e => hin (by rw [← e]; exact hv))).2 this
      · intro e he her
        exact h.val e (by rw [hpq]; exact List.mem_of_mem_erase he) her
    · rw [hpq]; omega

theorem PInv.loop (hA : MatOf M X A) : ∀ (fuel : Nat) {T : Finset Nat} {F : Finset (Nat × Nat)} {d : MSTData} {res : Int},
    PInv M X A T F d res → d.pq.length + d.rem.card ^ 2 ≤ fuel →
    ∃ T' F', PInv M X A T' F' (mstLoop M.n A fuel d res).1 (mstLoop M.n A fuel d res).2 ∧ (mstLoop M.n A fuel d res).1.pq = [] := by
  intro fuel
  induction fuel with
  | zero =>
    intro T F d res h hf
    refine ⟨T, F, h, ?_⟩
    exact List.eq_nil_of_length_eq_zero (by show d.pq.length = 0; omega)
  | succ fuel ih =>
    intro T F d res h hf
    rw [mstLoop]
    split
    · rename_i heq; exact ⟨T, F, h, heq⟩
    · rename_i a l heq
      obtain ⟨⟨T', F', h'⟩, hm⟩ := h.step hA heq
      exact ih h' (by omega)

/-- initialisation -/
theorem mstInit_fold (l : List Nat) : ∀ (d : MSTData) (r : Nat),
    (l.foldl mstInitBody (d, r)).1.rem = d.rem ∪ l.toFinset ∧
    (∀ v ∈ l, (l.foldl mstInitBody (d, r)).1.lightest v = maxW) ∧
    (∀ v, d.lightest v = maxW → (l.foldl mstInitBody (d, r)).1.lightest v = maxW) ∧
    (l.foldl mstInitBody (d, r)).1.pq = d.pq ∧
    ((l.foldl mstInitBody (d, r)).2 = r ∧ l = [] ∨ (l.foldl mstInitBody (d, r)).2 ∈ l) := by
  induction l with
  | nil => intro d r; simp
  | cons b l ih =>
    intro d r
    rw [List.foldl_cons]
    obtain ⟨i1, i2, i3, i4, i5⟩ := ih (mstInitBody (d, r) b).1 (mstInitBody (d, r) b).2
    have hb : (mstInitBody (d, r) b).1.lightest b = maxW := by simp [mstInitBody]
    refine ⟨?_, ?_, ?_, ?_, ?_⟩
    · rw [i1]; ext x; simp [mstInitBody, List.mem_toFinset]
    · intro v hv
      rcases List.mem_cons.1 hv with rfl | hv
      · exact i3 _ hb
      · exact i2 v hv
    · intro v hv
      apply i3
      simp only [mstInitBody]
      split
      · rfl
      · exact hv
    · rw [i4]; rfl
    · right
      rcases i5 with ⟨i5, rfl⟩ | i5
      · rw [i5]; simp [mstInitBody]
      · exact List.mem_cons_of_mem _ i5

theorem mstInit_inv (hA : MatOf M X A) (hne : X.Nonempty) {d : MSTData} (hd : d.rem = ∅) (hq : d.pq = []) :
    (∃ r, PInv M X A {r} ∅ (mstInit M.n A X d) 0) ∧
    (mstInit M.n A X d).pq.length + (mstInit M.n A X d).rem.card ^ 2 ≤ M.n * M.n + M.n := by
  unfold mstInit
  obtain ⟨i1, i2, _, i4, i5⟩ := mstInit_fold (bitsOf M.n X) d 0
  have hm : ∀ v, v ∈ bitsOf M.n X ↔ v ∈ X := by
    intro v; rw [mem_bitsOf]; exact ⟨fun h => h.2, fun h => ⟨hA.nodes v h, h⟩⟩
  generalize hs : (bitsOf M.n X).foldl mstInitBody (d, 0) = s at i1 i2 i4 i5
  have hr : s.2 ∈ X := by
    rcases i5 with ⟨_, h⟩ | h
    · exact absurd h (bitsOf_ne_nil hA.nodes hne)
    · exact (hm _).1 h
  have hrem : s.1.rem = X := by rw [i1, hd]; ext x; simp [hm]
  have hlt : ∀ x ∈ s.1.rem.erase s.2, x < M.n := fun x hx => hA.nodes x (hrem ▸ Finset.mem_of_mem_erase hx)
  obtain ⟨p1, p2, p3, p4⟩ := pushAll_spec A s.2 (⟨s.1.rem.erase s.2, s.1.lightest, s.1.pq⟩ : MSTData) hlt
  dsimp only at p1 p2 p3 p4 ⊢
  have hl : ∀ v ∈ s.1.rem.erase s.2, s.1.lightest v = maxW ∧ v ∈ X ∧ v ≠ s.2 ∧ A (idx2 M.n s.2 v) < maxW := by
    intro v hv
    have hvX : v ∈ X := hrem ▸ Finset.mem_of_mem_erase hv
    exact ⟨i2 v ((hm v).2 hvX), hvX, Finset.ne_of_mem_erase hv, hA.small _ hr v hvX (Finset.ne_of_mem_erase hv).symm⟩
  constructor
  · refine ⟨s.2, ?_, ?_, ?_, ?_, ?_, ?_, ?_, ?_, ?_⟩
    · intro x hx; rw [Finset.mem_singleton] at hx; subst hx; exact hr
    · exact Finset.singleton_nonempty _
    · rw [p1, hrem]; ext x; simp [and_comm]
    · refine ⟨?_, by simp, by simp, ?_⟩
      · intro x hx; rw [Finset.mem_singleton] at hx; subst hx; exact hA.nodes _ hr
      · intro a ha b hb
        rw [Finset.mem_singleton] at ha hb
        subst ha; subst hb; exact .refl
    · simp [weight]
    · intro S hS; exact ⟨S, hS, by simp, le_refl _⟩
    · intro v hv u hu
      rw [p1] at hv
      rw [Finset.mem_singleton] at hu
      subst hu
      rw [p2, if_pos hv]
      exact min_le_right _ _
    · intro v hv
      rw [p1] at hv
      obtain ⟨l1, l2, l3, l4⟩ := hl v hv
      rw [p2, if_pos hv, l1, min_eq_right (le_of_lt l4), p3]
      right
      exact ⟨hv, rfl, by dsimp only; rw [l1]; exact l4⟩
    · intro e he her
      rcases (p3 e).1 he with he | ⟨_, he, _⟩
      · rw [i4, hq] at he; cases he
      · exact ⟨s.2, Finset.mem_singleton_self _, he⟩
  · rw [p1]
    have hc : (s.1.rem.erase s.2).card + 1 = s.1.rem.card := Finset.card_erase_add_one (hrem ▸ hr)
    have hcX : s.1.rem.card ≤ M.n := by
      rw [hrem]
      have : X ⊆ Finset.range M.n := fun x hx => Finset.mem_range.2 (hA.nodes x hx)
      have := Finset.card_le_card this
      rwa [Finset.card_range] at this
    have hz : s.1.pq.length = 0 := by rw [i4, hq]; rfl
    generalize (s.1.rem.erase s.2).card = r at *
    have h1 : r ^ 2 ≤ M.n * M.n := by
      rw [pow_two]
      exact Nat.mul_le_mul (by omega) (by omega)
    omega

/-- the loop ends and returns the weight of a minimum spanning tree; the scratch memory is reset -/
theorem mstWeight_spec (hA : MatOf M X A) (hne : X.Nonempty) {d : MSTData} (hd : d.rem = ∅) (hq : d.pq = []) :
    M.IsSpanning X (mstWeight M.n A X d).2 ∧ (mstWeight M.n A X d).1.rem = ∅ ∧ (mstWeight M.n A X d).1.pq = [] := by
  obtain ⟨⟨r, hI⟩, hf⟩ := mstInit_inv hA hne hd hq
  obtain ⟨T, F, h, he⟩ := hI.loop hA (M.n * M.n + M.n) hf
  refine ⟨?_, rfl, he⟩
  have hT : T = X := by
    apply Finset.Subset.antisymm h.sub
    intro x hx
    by_contra hxT
    have := h.mem x (by rw [h.rem]; exact Finset.mem_sdiff.2 ⟨hx, hxT⟩)
    rw [he] at this
    cases this
  subst hT
  refine ⟨⟨F, h.conn, h.res.symm⟩, fun S hS => ?_⟩
  obtain ⟨S', s1, s2, s3⟩ := h.ext S hS
  have := weight_mono hA.wf s2 s1.edges
  have hr := h.res
  show (mstLoop M.n A (M.n * M.n + M.n) (mstInit M.n A T d) 0).2 ≤ _
  omega

end Verif.Steiner
