import Verif.Lemmas.Steiner4
/-!
# The dynamic program for Steiner trees
-/
namespace Verif.Steiner
open Verif.WGraph

variable {G : WGraph}

/-- all entries are achievable; pairs contain the shortest path lengths -/
structure Snd (G : WGraph) (A : Table) : Prop where
  sets : ∀ X : Finset Nat, X.Nonempty → (∀ x ∈ X, x < G.n) → Sol G X (A (setIdx G.n X))
  dist : ∀ u < G.n, ∀ v < G.n, IsDist G u v (A (idx2 G.n u v))

/-- entries of sets with at most `s` elements are optimal -/
def Cmp (G : WGraph) (s : Nat) (A : Table) : Prop :=
  ∀ X : Finset Nat, X.Nonempty → (∀ x ∈ X, x < G.n) → X.card ≤ s → ∀ U S, G.ConnSub U S → X ⊆ U → A (setIdx G.n X) ≤ G.weight S

theorem Cmp.sol {s : Nat} {A : Table} (h : Cmp G s A) {X : Finset Nat} (hne : X.Nonempty) (hX : ∀ x ∈ X, x < G.n)
    (hs : X.card ≤ s) {c : Int} (hsol : Sol G X c) : A (setIdx G.n X) ≤ c := by
  obtain ⟨U, S, h1, h2, h3⟩ := hsol
  exact le_trans (h X hne hX hs U S h1 h2) h3

theorem Cmp.mono {s : Nat} {A B : Table} (h : Cmp G s A) (hB : ∀ j, B j ≤ A j) : Cmp G s B := by
  intro X h1 h2 h3 U S h4 h5
  exact le_trans (hB _) (h X h1 h2 h3 U S h4 h5)

theorem Sol.whole (hG : G.WF) (hc : G.Connected) {X : Finset Nat} (hX : ∀ x ∈ X, x < G.n) : Sol G X (G.weight G.edges) :=
  ⟨_, _, ConnSub.whole hG hc, fun x hx => Finset.mem_range.2 (hX x hx), le_refl _⟩

theorem allPairs_snd (hG : G.WF) (hn : 2 ≤ G.n) (hc : G.Connected) (hw : G.weight G.edges < kInvalid) {arcs : List Arc}
    (hr : Represents arcs G) : Snd G (allPairs G.n arcs (fun _ => kInvalid)) := by
  refine ⟨fun X hne hX => ?_, fun u hu v hv => allPairs_dist hG hc hw hr hu hv⟩
  by_cases hlt : setIdx G.n X < G.n * G.n
  · have hq : setIdx G.n X = idx2 G.n (setIdx G.n X % G.n) (setIdx G.n X / G.n) := by
      unfold idx2
      rw [Nat.mul_comm]
      exact (Nat.mod_add_div _ _).symm
    have hu : setIdx G.n X % G.n < G.n := Nat.mod_lt _ (by omega)
    have hv : setIdx G.n X / G.n < G.n := Nat.div_lt_of_lt_mul hlt
    have hX2 := setIdx_eq_idx2 hn hX hne hu hv hq
    have h1 := Walk.sol hG hu (allPairs_dist hG hc hw hr hu hv).1
    rw [← hX2, ← hq] at h1
    exact h1
  · rw [(allPairs_inv hG hr).rest _ (by omega)]
    exact (Sol.whole hG hc hX).mono (Finset.Subset.refl _) (by omega)

theorem Snd.cmp2 (hG : G.WF) (hn : 2 ≤ G.n) {A : Table} (h : Snd G A) : Cmp G 2 A := by
  intro X hne hX hcard U S hs hsub
  obtain ⟨a, b, hab, rfl⟩ : ∃ a b, a ≤ b ∧ X = {a, b} := by
    have hpos := Finset.card_pos.2 hne
    have : X.card = 1 ∨ X.card = 2 := by omega
    rcases this with h1 | h1
    · obtain ⟨a, rfl⟩ := Finset.card_eq_one.1 h1
      exact ⟨a, a, Nat.le_refl _, by simp⟩
    · obtain ⟨a, b, _, rfl⟩ := Finset.card_eq_two.1 h1
      rcases Nat.le_total a b with h2 | h2
      · exact ⟨a, b, h2, rfl⟩
      · exact ⟨b, a, h2, Finset.pair_comm a b⟩
  have ha := hX a (by simp)
  have hb := hX b (by simp)
  rw [setIdx_pair hn hab hb]
  exact IsDist.le_weight hG (h.dist a ha b hb) hs (hsub (by simp)) (hsub (by simp))

theorem IsDist.le_sol (hG : G.WF) {a b : Nat} {c x : Int} (h : IsDist G a b c) (hs : Sol G {a, b} x) : c ≤ x := by
  obtain ⟨U, S, h1, h2, h3⟩ := hs
  exact le_trans (IsDist.le_weight hG h h1 (h2 (by simp)) (h2 (by simp))) h3

/-- an achievable value may be written -/
theorem Snd.write (hG : G.WF) (hn : 2 ≤ G.n) {A : Table} (h : Snd G A) {Y : Finset Nat} (hY : ∀ x ∈ Y, x < G.n) (hYn : Y.Nonempty)
    {x : Int} (hx : Sol G Y x) : Snd G (Table.set A (setIdx G.n Y) (min (A (setIdx G.n Y)) x)) := by
  constructor
  · intro X hne hX
    rw [Table.set_apply]
    split_ifs with hi
    · have := setIdx_inj hn hX hY hne hYn hi
      subst this
      rcases min_choice (A (setIdx G.n X)) x with e | e <;> rw [e]
      · exact h.sets X hne hX
      · exact hx
    · exact h.sets X hne hX
  · intro u hu v hv
    rw [Table.set_apply]
    split_ifs with hi
    · have := setIdx_eq_idx2 hn hY hYn hu hv hi.symm
      subst this
      have hd := h.dist u hu v hv
      have := IsDist.le_sol hG hd hx
      rw [← hi, min_eq_left this]
      exact hd
    · exact h.dist u hu v hv

theorem minDist_le {n u : Nat} {D : Finset Nat} {A : Table} {E : Finset Nat} (hE : E ∈ subsetEnum n D) :
    minDist n D u A ≤ A (setIdx n (insert u E)) + A (setIdx n (insert u (symmDiff D E))) := by
  unfold minDist
  have key : ∀ (l : List (Finset Nat)) (m0 : Int),
      l.foldl (fun mn E => min mn (A (setIdx n (insert u E)) + A (setIdx n (insert u (symmDiff D E))))) m0 ≤ m0 ∧
      ∀ E ∈ l, l.foldl (fun mn E => min mn (A (setIdx n (insert u E)) + A (setIdx n (insert u (symmDiff D E))))) m0 ≤
        A (setIdx n (insert u E)) + A (setIdx n (insert u (symmDiff D E))) := by
    intro l
    induction l with
    | nil => intro m0; simp
    | cons E0 l ih =>
      intro m0
      simp only [List.foldl_cons]
      obtain ⟨i1, i2⟩ := ih (min m0 (A (setIdx n (insert u E0)) + A (setIdx n (insert u (symmDiff D E0)))))
      refine ⟨le_trans i1 (min_le_left _ _), fun E hE => ?_⟩
      rcases List.mem_cons.1 hE with rfl | hE
      · exact le_trans i1 (min_le_right _ _)
      · exact i2 E hE
  exact (key _ _).2 E hE

theorem insert_lt {n u : Nat} {E : Finset Nat} (hE : ∀ x ∈ E, x < n) (hu : u < n) : ∀ x ∈ insert u E, x < n := by
  intro x hx
  rcases Finset.mem_insert.1 hx with rfl | hx
  · exact hu
  · exact hE x hx

theorem minDist_sol (hG : G.WF) (hc : G.Connected) (hw : G.weight G.edges < kInvalid) {u : Nat} {D : Finset Nat} {A : Table}
    (h : Snd G A) (hD : ∀ x ∈ D, x < G.n) (hu : u < G.n) : Sol G (insert u D) (minDist G.n D u A) := by
  unfold minDist
  have hmax : kInvalid ≤ maxW := by decide
  have key : ∀ (l : List (Finset Nat)) (m0 : Int), (∀ E ∈ l, E ⊆ D) → Sol G (insert u D) m0 →
      Sol G (insert u D) (l.foldl (fun mn E => min mn (A (setIdx G.n (insert u E)) + A (setIdx G.n (insert u (symmDiff D E))))) m0) := by
    intro l
    induction l with
    | nil => intro m0 _ h0; exact h0
    | cons E0 l ih =>
      intro m0 hl h0
      simp only [List.foldl_cons]
      apply ih _ (fun E hE => hl E (by simp [hE]))
      rcases min_choice m0 (A (setIdx G.n (insert u E0)) + A (setIdx G.n (insert u (symmDiff D E0)))) with e | e <;> rw [e]
      · exact h0
      · have hE := hl E0 (by simp)
        have s1 := h.sets (insert u E0) ⟨u, by simp⟩ (insert_lt (fun x hx => hD x (hE hx)) hu)
        have s2 := h.sets (insert u (symmDiff D E0)) ⟨u, by simp⟩ (insert_lt (fun x hx => by
          rw [Finset.mem_symmDiff] at hx
          rcases hx with hx | hx
          · exact hD x hx.1
          · exact hD x (hE hx.1)) hu)
        refine (Sol.union hG s1 s2 (x := u) (by simp) (by simp)).mono ?_ (le_refl _)
        intro x hx
        simp only [Finset.mem_union, Finset.mem_insert, Finset.mem_symmDiff] at hx ⊢
        tauto
  refine key _ _ (fun E hE => ((mem_subsetEnum hD).1 hE).1) ?_
  exact (Sol.whole hG hc (insert_lt hD hu)).mono (Finset.Subset.refl _) (by omega)

theorem relaxAll_spec (hG : G.WF) (hn : 2 ≤ G.n) (hc : G.Connected) (hw : G.weight G.edges < kInvalid) {u : Nat} {D : Finset Nat} {A : Table}
    (h : Snd G A) (hD : ∀ x ∈ D, x < G.n) (hu : u < G.n) :
    Snd G (relaxAll G.n D u A) ∧ (∀ j, relaxAll G.n D u A j ≤ A j) ∧
    ∀ v < G.n, relaxAll G.n D u A (setIdx G.n (insert v D)) ≤ A (idx2 G.n u v) + minDist G.n D u A := by
  have hm := minDist_sol hG hc hw h hD hu
  unfold relaxAll
  generalize minDist G.n D u A = mn at hm
  have key : ∀ t ≤ G.n, ∀ B, B = (List.range t).foldl (fun A v =>
      Table.set A (setIdx G.n (insert v D)) (min (A (setIdx G.n (insert v D))) (A (idx2 G.n u v) + mn))) A →
      Snd G B ∧ (∀ j, B j ≤ A j) ∧ ∀ v < t, B (setIdx G.n (insert v D)) ≤ A (idx2 G.n u v) + mn := by
    intro t
    induction t with
    | zero => intro _ B hB; subst hB; exact ⟨h, fun j => le_refl _, by intro v hv; omega⟩
    | succ t ih =>
      intro ht B' hB'
      rw [List.range_succ, List.foldl_append] at hB'
      simp only [List.foldl_cons, List.foldl_nil] at hB'
      obtain ⟨i1, i2, i3⟩ := ih (by omega) _ rfl
      generalize (List.range t).foldl (fun A v =>
        Table.set A (setIdx G.n (insert v D)) (min (A (setIdx G.n (insert v D))) (A (idx2 G.n u v) + mn))) A = B at i1 i2 i3 hB'
      have hdist : B (idx2 G.n u t) = A (idx2 G.n u t) := IsDist.unique (i1.dist u hu t (by omega)) (h.dist u hu t (by omega))
      have hsol : Sol G (insert t D) (B (idx2 G.n u t) + mn) := by
        have s1 := Walk.sol hG hu (i1.dist u hu t (by omega)).1
        refine (Sol.union hG s1 hm (x := u) (by simp) (by simp)).mono ?_ (le_refl _)
        intro x hx
        simp only [Finset.mem_insert, Finset.mem_union, Finset.mem_singleton] at hx ⊢
        tauto
      subst hB'
      refine ⟨i1.write hG hn (insert_lt hD (by omega)) ⟨t, by simp⟩ hsol, ?_, ?_⟩
      · intro j
        rw [Table.set_apply]
        split_ifs with hj
        · subst hj; exact le_trans (min_le_left _ _) (i2 _)
        · exact i2 j
      · intro v hv
        rw [Table.set_apply]
        split_ifs with hj
        · have hins : insert v D = insert t D := setIdx_inj hn (insert_lt hD (by omega)) (insert_lt hD (by omega)) ⟨v, by simp⟩ ⟨t, by simp⟩ hj
          by_cases hvt : v = t
          · subst hvt; rw [hdist]; exact min_le_right _ _
          · have := i3 v (by omega)
            rw [hins] at this
            exact le_trans (min_le_left _ _) this
        · have hvt : v ≠ t := by rintro rfl; exact hj rfl
          exact i3 v (by omega)
  exact key G.n (Nat.le_refl _) _ rfl

theorem processSet_spec (hG : G.WF) (hn : 2 ≤ G.n) (hc : G.Connected) (hw : G.weight G.edges < kInvalid) {D : Finset Nat} {A : Table}
    (h : Snd G A) (hD : ∀ x ∈ D, x < G.n) :
    Snd G (processSet G.n A D) ∧ (∀ j, processSet G.n A D j ≤ A j) ∧
    ∀ u < G.n, ∀ v < G.n, ∀ E ∈ subsetEnum G.n D, processSet G.n A D (setIdx G.n (insert v D)) ≤
      A (idx2 G.n u v) + (A (setIdx G.n (insert u E)) + A (setIdx G.n (insert u (symmDiff D E)))) := by
  unfold processSet
  have key : ∀ t ≤ G.n, ∀ B, B = (List.range t).foldl (fun A u => relaxAll G.n D u A) A →
      Snd G B ∧ (∀ j, B j ≤ A j) ∧ ∀ u < t, ∀ v < G.n, ∀ E ∈ subsetEnum G.n D, B (setIdx G.n (insert v D)) ≤
      A (idx2 G.n u v) + (A (setIdx G.n (insert u E)) + A (setIdx G.n (insert u (symmDiff D E)))) := by
    intro t
    induction t with
    | zero => intro _ B hB; subst hB; exact ⟨h, fun j => le_refl _, by intro u hu; omega⟩
    | succ t ih =>
      intro ht B' hB'
      rw [List.range_succ, List.foldl_append] at hB'
      simp only [List.foldl_cons, List.foldl_nil] at hB'
      obtain ⟨i1, i2, i3⟩ := ih (by omega) _ rfl
      generalize (List.range t).foldl (fun A u => relaxAll G.n D u A) A = B at i1 i2 i3 hB'
      subst hB'
      obtain ⟨r1, r2, r3⟩ := relaxAll_spec hG hn hc hw (u := t) i1 hD (by omega)
      refine ⟨r1, fun j => le_trans (r2 j) (i2 j), fun u hu v hv E hE => ?_⟩
      by_cases hut : u = t
      · subst hut
        have e1 := r3 v hv
        have e2 := minDist_le (n := G.n) (u := u) (A := B) hE
        have e3 := i2 (setIdx G.n (insert u E))
        have e4 := i2 (setIdx G.n (insert u (symmDiff D E)))
        have e5 := i2 (idx2 G.n u v)
        omega
      · exact le_trans (r2 _) (i3 u (by omega) v hv E hE)
  exact key G.n (Nat.le_refl _) _ rfl

theorem stage_spec (hG : G.WF) (hn : 2 ≤ G.n) (hc : G.Connected) (hw : G.weight G.edges < kInvalid) (l : List (Finset Nat)) :
    ∀ {A : Table}, Snd G A → (∀ D ∈ l, ∀ x ∈ D, x < G.n) →
    Snd G (l.foldl (processSet G.n) A) ∧ (∀ j, l.foldl (processSet G.n) A j ≤ A j) ∧
    ∀ D ∈ l, ∀ u < G.n, ∀ v < G.n, ∀ E ∈ subsetEnum G.n D, l.foldl (processSet G.n) A (setIdx G.n (insert v D)) ≤
      A (idx2 G.n u v) + (A (setIdx G.n (insert u E)) + A (setIdx G.n (insert u (symmDiff D E)))) := by
  induction l with
  | nil => intro A h _; exact ⟨h, fun j => le_refl _, by intro D hD; simp at hD⟩
  | cons D0 l ih =>
    intro A h hl
    rw [List.foldl_cons]
    obtain ⟨p1, p2, p3⟩ := processSet_spec hG hn hc hw h (hl D0 (by simp))
    obtain ⟨i1, i2, i3⟩ := ih p1 (fun D hD => hl D (by simp [hD]))
    refine ⟨i1, fun j => le_trans (i2 j) (p2 j), fun D hD u hu v hv E hE => ?_⟩
    rcases List.mem_cons.1 hD with rfl | hD
    · exact le_trans (i2 _) (p3 u hu v hv E hE)
    · have e1 := i3 D hD u hu v hv E hE
      have e3 := p2 (setIdx G.n (insert u E))
      have e4 := p2 (setIdx G.n (insert u (symmDiff D E)))
      have e5 := p2 (idx2 G.n u v)
      omega

theorem Rooted.sol (hG : G.WF) {r : Nat} {U : Finset Nat} {w : Int} (h : Rooted G r U w) : Sol G U w := by
  induction h with
  | single hr => exact Sol.single hr
  | @graft r c U V w w' h1 h2 hadj i1 i2 =>
    have s1 := Sol.union hG i1 (Sol.edge hG hadj) (x := r) h1.root_mem (by simp)
    have s2 := Sol.union hG s1 i2 (x := c) (by simp) h2.root_mem
    refine s2.mono ?_ (le_refl _)
    intro x hx
    simp only [Finset.mem_union] at hx ⊢
    tauto

/-- the key step: optimal entries for sets of size `m` give optimal entries for size `m + 1` -/
theorem Cmp.succ (hG : G.WF) {m : Nat} (hm : 2 ≤ m) {A B : Table} (hA : Snd G A) (hB : Snd G B) (hC : Cmp G m A)
    (hle : ∀ j, B j ≤ A j)
    (hst : ∀ D : Finset Nat, (∀ x ∈ D, x < G.n) → D.card = m → ∀ u < G.n, ∀ v < G.n, ∀ E, E ⊆ D → E ≠ ∅ → E ≠ D →
      B (setIdx G.n (insert v D)) ≤ A (idx2 G.n u v) + (A (setIdx G.n (insert u E)) + A (setIdx G.n (insert u (symmDiff D E))))) :
    Cmp G (m + 1) B := by
  have hCB := hC.mono hle
  -- trees
  have tree : ∀ {r : Nat} {U : Finset Nat} {w : Int}, Rooted G r U w → ∀ X : Finset Nat, X ⊆ U → X.card = m → ∀ v < G.n,
      B (setIdx G.n (insert v X)) ≤ A (idx2 G.n v r) + w := by
    intro r U w hR
    induction hR with
    | @single r hr =>
      intro X hX hcard
      have := Finset.card_le_card hX
      rw [Finset.card_singleton] at this
      omega
    | @graft r c U V w w' h1 h2 hadj i1 i2 =>
      intro X hX hcard v hv
      obtain ⟨hr, hc, _⟩ := Adj.ends hG hadj
      have hwt := hG.nonneg _ hadj
      have hXn : ∀ x ∈ X, x < G.n := by
        intro x hx
        rcases Finset.mem_union.1 (hX hx) with hh | hh
        · exact (h1.lt hG).2 x hh
        · exact (h2.lt hG).2 x hh
      have hdrc : A (idx2 G.n v c) ≤ A (idx2 G.n v r) + G.wt (pair r c) := by
        have hw1 := Walk.append (hA.dist v hv r hr).1 (Walk.cons hadj (Walk.nil (G := G) c))
        have := (hA.dist v hv c hc).2 _ hw1
        omega
      by_cases hX1 : X ⊆ V
      · have := i2 X hX1 hcard v hv
        have := h1.nonneg hG
        omega
      · by_cases hX2 : X ⊆ U
        · have := i1 X hX2 hcard v hv
          have := h2.nonneg hG
          omega
        · -- split at the root
          have hE1 : X \ V ≠ ∅ := by
            rw [Ne, Finset.sdiff_eq_empty_iff_subset]; exact hX1
          have hE2 : X \ V ≠ X := by
            intro he
            apply hX2
            intro x hx
            rcases Finset.mem_union.1 (hX hx) with hh | hh
            · exact hh
            · rw [← he] at hx
              exact absurd hh (Finset.mem_sdiff.1 hx).2
          have hst' := hst X hXn hcard r hr v hv (X \ V) Finset.sdiff_subset hE1 hE2
          have hF : symmDiff X (X \ V) = X ∩ V := by
            ext x
            simp only [Finset.mem_symmDiff, Finset.mem_sdiff, Finset.mem_inter]
            tauto
          rw [hF] at hst'
          have hcard2 : (X \ V).card + (X ∩ V).card = m := by
            rw [← hcard]; exact Finset.card_sdiff_add_card_inter X V
          have hne2 : (X ∩ V).Nonempty := by
            rw [Finset.nonempty_iff_ne_empty]
            intro he
            apply hE2
            rw [Finset.sdiff_eq_self_iff_disjoint, Finset.disjoint_iff_inter_eq_empty]
            exact he
          have hpos1 := Finset.card_pos.2 (Finset.nonempty_iff_ne_empty.2 hE1)
          have hpos2 := Finset.card_pos.2 hne2
          have b1 : A (setIdx G.n (insert r (X \ V))) ≤ w := by
            refine hC.sol ⟨r, by simp⟩ (insert_lt (fun x hx => hXn x (Finset.mem_sdiff.1 hx).1) hr) ?_ ?_
            · have := Finset.card_insert_le r (X \ V); omega
            · refine (h1.sol hG).mono ?_ (le_refl _)
              intro x hx
              rcases Finset.mem_insert.1 hx with rfl | hx
              · exact h1.root_mem
              · obtain ⟨hx1, hx2⟩ := Finset.mem_sdiff.1 hx
                rcases Finset.mem_union.1 (hX hx1) with hh | hh
                · exact hh
                · exact absurd hh hx2
          have b2 : A (setIdx G.n (insert r (X ∩ V))) ≤ G.wt (pair r c) + w' := by
            refine hC.sol ⟨r, by simp⟩ (insert_lt (fun x hx => hXn x (Finset.mem_inter.1 hx).1) hr) ?_ ?_
            · have := Finset.card_insert_le r (X ∩ V); omega
            · refine (Sol.union hG (Sol.edge hG hadj) (h2.sol hG) (x := c) (by simp) h2.root_mem).mono ?_ (le_refl _)
              intro x hx
              simp only [Finset.mem_insert, Finset.mem_inter, Finset.mem_union, Finset.mem_singleton] at hx ⊢
              tauto
          have hsym := IsDist.unique (hA.dist r hr v hv) (IsDist.symm (hA.dist v hv r hr))
          omega
  intro X hne hX hcard U S hs hsub
  by_cases hm' : X.card ≤ m
  · exact hCB X hne hX hm' U S hs hsub
  · obtain ⟨v, hv⟩ := hne
    obtain ⟨w, hR, hw⟩ := exists_tree hG hs (hsub hv)
    have h1 := tree hR (X.erase v) ((Finset.erase_subset _ _).trans hsub) (by
      rw [Finset.card_erase_of_mem hv]; omega) v (hX v hv)
    rw [Finset.insert_erase hv] at h1
    have h2 : A (idx2 G.n v v) = 0 := by
      have hd := hA.dist v (hX v hv) v (hX v hv)
      have := hd.2 0 (.nil v)
      have := Walk.nonneg hG hd.1
      omega
    omega

/-- the whole computation -/
theorem compute_spec (hG : G.WF) (hn : 2 ≤ G.n) (hn64 : G.n < 2 ^ 64) (hc : G.Connected) (hw : G.weight G.edges < kInvalid) {arcs : List Arc}
    (hr : Represents arcs G) {s : Nat} (hs : 2 ≤ s) (hsn : s ≤ G.n + 1) :
    Snd G (precompute G.n arcs s) ∧ Cmp G s (precompute G.n arcs s) := by
  have h0 := allPairs_snd hG hn hc hw hr
  have key : ∀ t, t + 2 ≤ s → ∀ B, B = (List.range' 2 t).foldl (fun A m => (setEnum G.n m).foldl (processSet G.n) A)
      (allPairs G.n arcs (fun _ => kInvalid)) → Snd G B ∧ Cmp G (t + 2) B := by
    intro t
    induction t with
    | zero => intro _ B hB; subst hB; exact ⟨h0, h0.cmp2 hG hn⟩
    | succ t ih =>
      intro ht B' hB'
      rw [List.range'_1_concat, List.foldl_append] at hB'
      simp only [List.foldl_cons, List.foldl_nil] at hB'
      obtain ⟨i1, i2⟩ := ih (by omega) _ rfl
      generalize (List.range' 2 t).foldl (fun A m => (setEnum G.n m).foldl (processSet G.n) A)
        (allPairs G.n arcs (fun _ => kInvalid)) = B at i1 i2 hB'
      subst hB'
      obtain ⟨_, _, e3⟩ := setEnum_spec (n := G.n) (m := 2 + t) hn64 (by omega) (by omega)
      obtain ⟨p1, p2, p3⟩ := stage_spec hG hn hc hw (setEnum G.n (2 + t)) i1 (fun D hD => ((e3 D).1 hD).1)
      refine ⟨p1, ?_⟩
      have := Cmp.succ hG (m := t + 2) (by omega) i1 p1 i2 p2 (fun D hD hcard u hu v hv E he1 he2 he3 => by
        have hDm : D ∈ setEnum G.n (2 + t) := (e3 D).2 ⟨hD, by omega⟩
        exact p3 D hDm u hu v hv E ((mem_subsetEnum hD).2 ⟨he1, he2, he3⟩))
      exact this
  have := key (s - 2) (by omega) _ rfl
  rw [show s - 2 + 2 = s by omega] at this
  exact this

/-- entries are Steiner tree weights -/
theorem Snd.steiner {A : Table} {s : Nat} (h : Snd G A) (hC : Cmp G s A) {X : Finset Nat} (hne : X.Nonempty)
    (hX : ∀ x ∈ X, x < G.n) (hs : X.card ≤ s) : IsSteiner G X (A (setIdx G.n X)) := by
  refine ⟨?_, hC X hne hX hs⟩
  obtain ⟨U, S, h1, h2, h3⟩ := h.sets X hne hX
  exact ⟨U, S, h1, h2, le_antisymm h3 (hC X hne hX hs U S h1 h2)⟩

end Verif.Steiner
