import Verif.Lemmas.Steiner1
import Mathlib.Tactic.Tauto
/-!
# Connected subgraphs and rooted trees
-/
namespace Verif.Steiner
open Verif.WGraph Relation

variable {G : WGraph}

theorem reach_mono {S S' : Finset (Nat × Nat)} (h : S ⊆ S') {a b : Nat} (hr : ReflTransGen (Adj S) a b) : ReflTransGen (Adj S') a b := by
  induction hr with
  | refl => exact .refl
  | tail _ hab ih => exact .tail ih (h hab)

theorem reach_symm {S : Finset (Nat × Nat)} {a b : Nat} (hr : ReflTransGen (Adj S) a b) : ReflTransGen (Adj S) b a := by
  induction hr with
  | refl => exact .refl
  | tail _ h ih => exact ReflTransGen.head (Adj.symm h) ih

theorem weight_mono (hG : G.WF) {S S' : Finset (Nat × Nat)} (h : S ⊆ S') (h' : S' ⊆ G.edges) : G.weight S ≤ G.weight S' := by
  unfold weight
  exact Finset.sum_le_sum_of_subset_of_nonneg h (fun e he _ => hG.nonneg e (h' he))

theorem weight_nonneg (hG : G.WF) {S : Finset (Nat × Nat)} (h : S ⊆ G.edges) : 0 ≤ G.weight S := by
  unfold weight
  exact Finset.sum_nonneg (fun e he => hG.nonneg e (h he))

theorem weight_union (hG : G.WF) {S S' : Finset (Nat × Nat)} (h' : S' ⊆ G.edges) :
    G.weight (S ∪ S') ≤ G.weight S + G.weight S' := by
  have e : S ∪ S' = S ∪ (S' \ S) := by
    ext x; simp
  have h1 : G.weight (S ∪ S') = G.weight S + G.weight (S' \ S) := by
    rw [e]; unfold weight
    exact Finset.sum_union Finset.disjoint_sdiff
  have h2 := weight_mono hG (S := S' \ S) (S' := S') Finset.sdiff_subset h'
  omega

/-- there is a connected subgraph containing `X` of weight at most `c` -/
def Sol (G : WGraph) (X : Finset Nat) (c : Int) : Prop := ∃ U S, G.ConnSub U S ∧ X ⊆ U ∧ G.weight S ≤ c

theorem Sol.mono {X Y : Finset Nat} {c d : Int} (h : Sol G X c) (hY : Y ⊆ X) (hc : c ≤ d) : Sol G Y d := by
  obtain ⟨U, S, h1, h2, h3⟩ := h
  exact ⟨U, S, h1, hY.trans h2, by omega⟩

theorem Sol.union (hG : G.WF) {X Y : Finset Nat} {c d : Int} (h : Sol G X c) (h' : Sol G Y d) {x : Nat} (hx : x ∈ X) (hy : x ∈ Y) :
    Sol G (X ∪ Y) (c + d) := by
  obtain ⟨U, S, h1, h2, h3⟩ := h
  obtain ⟨U', S', h1', h2', h3'⟩ := h'
  have hto : ∀ a ∈ U ∪ U', ReflTransGen (Adj (S ∪ S')) a x := by
    intro a ha
    rcases Finset.mem_union.1 ha with ha | ha
    · exact reach_mono Finset.subset_union_left (h1.conn a ha x (h2 hx))
    · exact reach_mono Finset.subset_union_right (h1'.conn a ha x (h2' hy))
  refine ⟨U ∪ U', S ∪ S', ⟨?_, Finset.union_subset h1.edges h1'.edges, ?_, ?_⟩, Finset.union_subset_union h2 h2', ?_⟩
  · intro u hu
    rcases Finset.mem_union.1 hu with hu | hu
    · exact h1.nodes u hu
    · exact h1'.nodes u hu
  · intro e he
    rcases Finset.mem_union.1 he with he | he
    · have := h1.ends e he; simp [this]
    · have := h1'.ends e he; simp [this]
  · intro a ha b hb
    exact (hto a ha).trans (reach_symm (hto b hb))
  · have := weight_union hG (S := S) h1'.edges
    omega

theorem Sol.single {u : Nat} (hu : u < G.n) : Sol G {u} 0 := by
  refine ⟨{u}, ∅, ⟨?_, by simp, by simp, ?_⟩, by simp, by simp [weight]⟩
  · intro x hx; rw [Finset.mem_singleton] at hx; subst hx; exact hu
  · intro a ha b hb
    rw [Finset.mem_singleton] at ha hb
    subst ha; subst hb; exact .refl

theorem Sol.edge (hG : G.WF) {a b : Nat} (h : Adj G.edges a b) : Sol G {a, b} (G.wt (pair a b)) := by
  obtain ⟨ha, hb, _⟩ := Adj.ends hG h
  have hab : ReflTransGen (Adj {pair a b}) a b := .single (by unfold Adj; simp)
  refine ⟨{a, b}, {pair a b}, ⟨?_, ?_, ?_, ?_⟩, Finset.Subset.refl _, by simp [weight]⟩
  · intro x hx
    simp only [Finset.mem_insert, Finset.mem_singleton] at hx
    rcases hx with rfl | rfl <;> assumption
  · intro e he
    rw [Finset.mem_singleton] at he
    subst he; exact h
  · intro e he
    rw [Finset.mem_singleton] at he
    subst he
    rcases pair_ends (a := a) (b := b) with ⟨e1, e2⟩ | ⟨e1, e2⟩ <;> rw [e1, e2] <;> simp
  · intro x hx y hy
    simp only [Finset.mem_insert, Finset.mem_singleton] at hx hy
    rcases hx with rfl | rfl <;> rcases hy with rfl | rfl
    · exact .refl
    · exact hab
    · exact reach_symm hab
    · exact .refl

theorem Walk.sol (hG : G.WF) {a b : Nat} {w : Int} (ha : a < G.n) (h : Walk G a b w) : Sol G {a, b} w := by
  induction h with
  | nil a => exact (Sol.single ha).mono (by simp) (le_refl _)
  | @cons a b c w hadj _ ih =>
    have h1 := Sol.union hG (Sol.edge hG hadj) (ih (Adj.ends hG hadj).2.1) (x := b) (by simp) (by simp)
    refine h1.mono ?_ (le_refl _)
    intro x hx
    simp only [Finset.mem_insert, Finset.mem_singleton] at hx
    simp only [Finset.mem_union, Finset.mem_insert, Finset.mem_singleton]
    tauto

theorem Walk.reverse {a b : Nat} {w : Int} (h : Walk G a b w) : Walk G b a w := by
  induction h with
  | nil a => exact .nil a
  | @cons a b c w hadj _ ih =>
    have h1 : Walk G b a (G.wt (pair a b) + 0) := by
      rw [pair_comm]; exact .cons (Adj.symm hadj) (.nil a)
    have := Walk.append ih h1
    rw [Int.add_zero, Int.add_comm] at this
    exact this

/-! ### Rooted trees -/

/-- `r` is the root of a tree with nodes `U` and weight `w` -/
inductive Rooted (G : WGraph) : Nat → Finset Nat → Int → Prop where
  | single {r : Nat} : r < G.n → Rooted G r {r} 0
  | graft {r c : Nat} {U V : Finset Nat} {w w' : Int} : Rooted G r U w → Rooted G c V w' → Adj G.edges r c →
      Rooted G r (U ∪ V) (w + G.wt (pair r c) + w')

theorem Rooted.nonneg (hG : G.WF) {r : Nat} {U : Finset Nat} {w : Int} (h : Rooted G r U w) : 0 ≤ w := by
  induction h with
  | single => exact le_refl _
  | graft _ _ hadj i1 i2 => have := hG.nonneg _ hadj; omega

theorem Rooted.lt (hG : G.WF) {r : Nat} {U : Finset Nat} {w : Int} (h : Rooted G r U w) : r < G.n ∧ ∀ x ∈ U, x < G.n := by
  induction h with
  | single hr => exact ⟨hr, by intro x hx; rw [Finset.mem_singleton] at hx; subst hx; exact hr⟩
  | graft _ _ hadj i1 i2 =>
    refine ⟨i1.1, fun x hx => ?_⟩
    rcases Finset.mem_union.1 hx with hx | hx
    · exact i1.2 x hx
    · exact i2.2 x hx

theorem Rooted.root_mem {r : Nat} {U : Finset Nat} {w : Int} (h : Rooted G r U w) : r ∈ U := by
  induction h with
  | single => simp
  | graft _ _ _ i1 _ => exact Finset.mem_union_left _ i1

/-- attach a leaf at an arbitrary node -/
theorem Rooted.leaf {r : Nat} {U : Finset Nat} {w : Int} (h : Rooted G r U w) {a b : Nat} (ha : a ∈ U) (hb : b < G.n)
    (hab : Adj G.edges a b) : Rooted G r (insert b U) (w + G.wt (pair a b)) := by
  induction h with
  | @single r hr =>
    rw [Finset.mem_singleton] at ha
    subst ha
    have := Rooted.graft (.single hr) (.single hb) hab
    convert this using 1
    · ext x; simp; tauto
    · omega
  | @graft r c U V w w' h1 h2 hadj i1 i2 =>
    rcases Finset.mem_union.1 ha with ha | ha
    · have := Rooted.graft (i1 ha) h2 hadj
      convert this using 1
      · rw [Finset.insert_union]
      · omega
    · have := Rooted.graft h1 (i2 ha) hadj
      convert this using 1
      · rw [Finset.union_insert]
      · omega

/-- reachability leaves a set through an edge -/
theorem cut_edge {S : Finset (Nat × Nat)} {U : Finset Nat} {a b : Nat} (h : ReflTransGen (Adj S) a b) (ha : a ∈ U) (hb : b ∉ U) :
    ∃ x y, x ∈ U ∧ y ∉ U ∧ Adj S x y := by
  induction h with
  | refl => exact absurd ha hb
  | @tail b c _ hbc ih =>
    by_cases hbU : b ∈ U
    · exact ⟨b, c, hbU, hb, hbc⟩
    · exact ih hbU

/-- every connected subgraph contains a spanning tree, with any root -/
theorem exists_tree (hG : G.WF) {U : Finset Nat} {S : Finset (Nat × Nat)} (h : G.ConnSub U S) {r : Nat} (hr : r ∈ U) :
    ∃ w, Rooted G r U w ∧ w ≤ G.weight S := by
  have key : ∀ (m : Nat) (U' : Finset Nat) (S' : Finset (Nat × Nat)), (U \ U').card = m → U' ⊆ U → S' ⊆ S →
      (∀ e ∈ S', e.1 ∈ U' ∧ e.2 ∈ U') → Rooted G r U' (G.weight S') → ∃ w, Rooted G r U w ∧ w ≤ G.weight S := by
    intro m
    induction m with
    | zero =>
      intro U' S' hc hU hS _ hR
      have : U \ U' = ∅ := Finset.card_eq_zero.1 hc
      have : U' = U := Finset.Subset.antisymm hU (Finset.sdiff_eq_empty_iff_subset.1 this)
      subst this
      exact ⟨_, hR, weight_mono hG hS h.edges⟩
    | succ m ih =>
      intro U' S' hc hU hS hE hR
      obtain ⟨x, hx⟩ : (U \ U').Nonempty := by
        rw [← Finset.card_pos]; omega
      rw [Finset.mem_sdiff] at hx
      obtain ⟨a, b, ha, hb, hab⟩ := cut_edge (h.conn r hr x hx.1) hR.root_mem hx.2
      have hbU : b ∈ U := by
        have := h.ends _ hab
        rcases pair_ends (a := a) (b := b) with ⟨e1, e2⟩ | ⟨e1, e2⟩ <;> rw [e1, e2] at this
        · exact this.2
        · exact this.1
      have hnew : pair a b ∉ S' := by
        intro hin
        have := hE _ hin
        rcases pair_ends (a := a) (b := b) with ⟨e1, e2⟩ | ⟨e1, e2⟩ <;> rw [e1, e2] at this
        · exact hb this.2
        · exact hb this.1
      have hR' := hR.leaf ha (h.nodes b hbU) (h.edges hab)
      have hw : G.weight (insert (pair a b) S') = G.weight S' + G.wt (pair a b) := by
        unfold weight
        rw [Finset.sum_insert hnew]; omega
      rw [← hw] at hR'
      refine ih (insert b U') (insert (pair a b) S') ?_ ?_ ?_ ?_ hR'
      · have h1 : U \ insert b U' = (U \ U').erase b := by
          ext y; simp; tauto
        rw [h1, Finset.card_erase_of_mem (by rw [Finset.mem_sdiff]; exact ⟨hbU, hb⟩)]
        omega
      · exact Finset.insert_subset hbU hU
      · exact Finset.insert_subset hab hS
      · intro e he
        rcases Finset.mem_insert.1 he with rfl | he
        · rcases pair_ends (a := a) (b := b) with ⟨e1, e2⟩ | ⟨e1, e2⟩ <;> rw [e1, e2] <;> simp [ha]
        · have := hE e he; simp [this]
  refine key _ {r} ∅ rfl (by simpa using hr) (by simp) (by simp) ?_
  have : G.weight ∅ = 0 := by simp [weight]
  rw [this]
  exact .single (h.nodes r hr)

/-- tree paths -/
theorem Rooted.walk (hG : G.WF) {r : Nat} {U : Finset Nat} {w : Int} (h : Rooted G r U w) {x : Nat} (hx : x ∈ U) :
    ∃ l, Walk G r x l ∧ l ≤ w := by
  induction h with
  | single => rw [Finset.mem_singleton] at hx; subst hx; exact ⟨0, .nil _, le_refl _⟩
  | @graft r c U V w w' h1 h2 hadj i1 i2 =>
    have := hG.nonneg _ hadj
    rcases Finset.mem_union.1 hx with hx | hx
    · obtain ⟨l, l1, l2⟩ := i1 hx
      have := h2.nonneg hG
      exact ⟨l, l1, by omega⟩
    · obtain ⟨l, l1, l2⟩ := i2 hx
      have := h1.nonneg hG
      exact ⟨_, .cons hadj l1, by omega⟩

theorem ConnSub.whole (hG : G.WF) (hc : G.Connected) : G.ConnSub (Finset.range G.n) G.edges := by
  refine ⟨fun u hu => Finset.mem_range.1 hu, Finset.Subset.refl _, ?_, ?_⟩
  · intro e he
    have := hG.ends e he
    rw [Finset.mem_range, Finset.mem_range]
    omega
  · intro a ha b hb
    exact hc a (Finset.mem_range.1 ha) b (Finset.mem_range.1 hb)

/-- shortest path lengths of a connected graph -/
theorem allPairs_dist (hG : G.WF) (hc : G.Connected) (hw : G.weight G.edges < kInvalid) {arcs : List Arc}
    (hr : Represents arcs G) {u v : Nat} (hu : u < G.n) (hv : v < G.n) :
    IsDist G u v (allPairs G.n arcs (fun _ => kInvalid) (idx2 G.n u v)) := by
  have hI := allPairs_inv hG hr
  obtain ⟨w, h1, h2⟩ := exists_tree hG (ConnSub.whole hG hc) (Finset.mem_range.2 hu)
  obtain ⟨l, l1, l2⟩ := h1.walk hG (Finset.mem_range.2 hv)
  have h3 := hI.walk hG hu l1
  refine ⟨?_, fun w hw => hI.walk hG hu hw⟩
  rcases hI.real u hu v hv with h | h
  · omega
  · exact h

theorem IsDist.symm {a b : Nat} {c : Int} (h : IsDist G a b c) : IsDist G b a c :=
  ⟨Walk.reverse h.1, fun w hw => h.2 w (Walk.reverse hw)⟩

theorem IsDist.unique {a b : Nat} {c d : Int} (h : IsDist G a b c) (h' : IsDist G a b d) : c = d :=
  le_antisymm (h.2 d h'.1) (h'.2 c h.1)

/-- a shortest path is at most as long as a connected subgraph is heavy -/
theorem IsDist.le_weight (hG : G.WF) {a b : Nat} {c : Int} (h : IsDist G a b c) {U : Finset Nat} {S : Finset (Nat × Nat)}
    (hs : G.ConnSub U S) (ha : a ∈ U) (hb : b ∈ U) : c ≤ G.weight S := by
  obtain ⟨w, h1, h2⟩ := exists_tree hG hs ha
  obtain ⟨l, l1, l2⟩ := h1.walk hG hb
  have := h.2 l l1
  omega

end Verif.Steiner
