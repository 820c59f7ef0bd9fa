import Verif.Lemmas.RB1
/-! Recursive bipartitioning: the visits of the two tasks, fixed vertices. -/
namespace Verif
namespace RBip
open SMap (wr)
open Extract PHG HG

section
variable {σ : Type} {C : ConInfo σ} {m k mx : Nat} {L : C.Lawful m k mx} {H : SHG}

theorem weight_le (hok : Ok H) (Φ : Assign) {u b : Nat} (hu : u ∈ H.nodes) (h : Φ u ≠ some b) :
    H.toHG.blockWeight Φ b + H.toHG.nw u ≤ maxWeight := by
  have h1 : ((H.nodes.filter (fun v => decide (Φ v = some b))).map H.hnWeight).sum + H.hnWeight u ≤ (H.nodes.map H.hnWeight).sum := by
    have hpos := hok.pos
    clear hok
    generalize H.nodes = l at *
    induction l with
    | nil => exact absurd hu (by simp)
    | cons a l ih =>
      rcases List.mem_cons.1 hu with rfl | hu'
      · rw [List.filter_cons_of_neg (by simpa using h)]
        have := (sum_filter_le (w := H.hnWeight) (fun v => decide (Φ v = some b)) (fun v hv => hpos v (List.mem_cons_of_mem _ hv))).1
        simp only [List.map_cons, List.sum_cons]
        omega
      · have ih := ih hu' (fun v hv => hpos v (List.mem_cons_of_mem _ hv))
        have := hpos a (by simp)
        rw [List.filter_cons]
        split
        · simp only [List.map_cons, List.sum_cons]; omega
        · simp only [List.map_cons, List.sum_cons]; omega
  have h2 : (H.nodes.map H.hnWeight).sum ≤ 2147483647 := hok.total
  have h3 : H.toHG.blockWeight Φ b = ((H.nodes.filter (fun v => decide (Φ v = some b))).map H.hnWeight).sum := rfl
  have h4 : H.toHG.nw u = H.hnWeight u := rfl
  unfold maxWeight
  omega

/-- state after the visits `l`: node `v` belongs to task `tsk v` -/
def visited (Φ : Assign) (blk : Bool → Nat) (sub : Bool → Nat → Nat) (tsk : Nat → Bool) (l : List (Bool × Nat)) : Assign :=
  fun v => if (tsk v, v) ∈ l then some (blk (tsk v) + sub (tsk v) v) else Φ v

theorem visits_spec (hok : Ok H) (hf : H.toHG.Fits m mx) {Φ : Assign} {blk : Bool → Nat} {sub : Bool → Nat → Nat} {tsk : Nat → Bool}
    (hΦ : ∀ v ∈ H.nodes, Φ v = some (blk (tsk v)))
    (hblk : ∀ t t', t ≠ t' → blk t ≠ blk t') :
    ∀ (l done : List (Bool × Nat)) (P : PHG σ), (∀ x ∈ l, x.2 ∈ H.nodes) → (done ++ l).Nodup →
      (∀ x ∈ done ++ l, x.1 = tsk x.2 → blk x.1 + sub x.1 x.2 < k ∧ ∀ t, t ≠ x.1 → blk x.1 + sub x.1 x.2 ≠ blk t) →
      Sim L H.toHG P (visited Φ blk sub tsk done) → Sim L H.toHG (l.foldl (visit C H blk sub) P) (visited Φ blk sub tsk (done ++ l)) := by
  intro l
  induction l with
  | nil => intro done P _ _ _ h; simpa using h
  | cons x l ih =>
    intro done P hmem hnd hlt hS
    obtain ⟨t, v⟩ := x
    have hv : v ∈ H.nodes := hmem (t, v) (by simp)
    have hnot : (t, v) ∉ done := fun h => (List.nodup_append.1 hnd).2.2 _ h (t, v) (by simp) rfl
    have key : Sim L H.toHG (visit C H blk sub P (t, v)) (visited Φ blk sub tsk (done ++ [(t, v)])) := by
      by_cases ht : t = tsk v
      · subst ht
        have hnow : visited Φ blk sub tsk done v = some (blk (tsk v)) := by
          unfold visited; rw [if_neg hnot]; exact hΦ v hv
        have hput : visited Φ blk sub tsk (done ++ [(tsk v, v)]) = (visited Φ blk sub tsk done).put v (blk (tsk v) + sub (tsk v) v) := by
          funext u
          unfold visited Assign.put
          by_cases huv : u = v
          · subst huv; simp
          · rw [if_neg huv]
            have : (tsk u, u) ∈ done ++ [(tsk v, v)] ↔ (tsk u, u) ∈ done := by
              rw [List.mem_append, List.mem_singleton]
              exact or_iff_left (fun h => huv (Prod.ext_iff.1 h).2)
            simp only [this]
        unfold visit
        rw [if_pos (by rw [hS.part]; exact hnow)]
        dsimp only
        by_cases hne : blk (tsk v) = blk (tsk v) + sub (tsk v) v
        · rw [if_neg (by simpa using hne)]
          have : visited Φ blk sub tsk (done ++ [(tsk v, v)]) = visited Φ blk sub tsk done := by
            rw [hput]
            funext u
            unfold Assign.put
            split
            · rename_i h; subst h; rw [hnow, ← hne]
            · rfl
          rw [this]; exact hS
        · rw [if_pos hne, hput]
          obtain ⟨h1, _⟩ := changeNodePart_spec (maxTo := maxWeight) hok.wf hf hS hv hnow hne
            (hlt (tsk v, v) (by simp) rfl).1
          exact (h1 (weight_le hok _ hv (by rw [hnow]; intro h; exact hne (Option.some.inj h)))).2.2
      · have hnow : visited Φ blk sub tsk done v ≠ some (blk t) := by
          unfold visited
          split
          · rename_i hd
            intro h
            exact (hlt (tsk v, v) (List.mem_append_left _ hd) rfl).2 t ht (Option.some.inj h)
          · rw [hΦ v hv]; intro h; exact hblk _ _ (Ne.symm ht) (Option.some.inj h)
        unfold visit
        rw [if_neg (by rw [hS.part]; exact hnow)]
        have : visited Φ blk sub tsk (done ++ [(t, v)]) = visited Φ blk sub tsk done := by
          funext u
          unfold visited
          have : (tsk u, u) ∈ done ++ [(t, v)] ↔ (tsk u, u) ∈ done := by
            rw [List.mem_append, List.mem_singleton]
            refine or_iff_left (fun h => ?_)
            obtain ⟨h1, h2⟩ := Prod.ext_iff.1 h
            simp only at h1 h2
            subst h2
            exact ht h1.symm
          simp only [this]
        rw [this]; exact hS
    have := ih (done ++ [(t, v)]) _ (fun x hx => hmem x (List.mem_cons_of_mem _ hx)) (by simpa using hnd) (by simpa using hlt) key
    simpa using this

end

/-! ### Fixed vertices -/

theorem hasFixed_iff {H : SHG} {fx : Nat → Option Nat} (hpos : ∀ v ∈ H.nodes, 0 ≤ H.hnWeight v) (hfx : ∀ v ∈ H.nodes, (fx v).isSome → 0 < H.hnWeight v) :
    hasFixed H fx = true ↔ ∃ v ∈ H.nodes, (fx v).isSome := by
  unfold hasFixed
  rw [decide_eq_true_eq]
  generalize H.nodes = l at *
  induction l with
  | nil => simp
  | cons a l ih =>
    have ih := ih (fun v hv => hpos v (List.mem_cons_of_mem _ hv)) (fun v hv => hfx v (List.mem_cons_of_mem _ hv))
    have hnn := (sum_filter_le (l := l.filter (fun v => (fx v).isSome)) (w := H.hnWeight) (fun _ => true)
      (fun v hv => hpos v (List.mem_cons_of_mem _ (List.mem_filter.1 hv).1))).2
    by_cases h : (fx a).isSome = true
    · rw [List.filter_cons_of_pos (by simpa using h)]
      simp only [List.map_cons, List.sum_cons]
      have := hfx a (by simp) h
      constructor
      · intro _; exact ⟨a, by simp, h⟩
      · intro _; omega
    · rw [List.filter_cons_of_neg (by simpa using h), ih]
      constructor
      · rintro ⟨v, hv, hx⟩; exact ⟨v, List.mem_cons_of_mem _ hv, hx⟩
      · rintro ⟨v, hv, hx⟩
        rcases List.mem_cons.1 hv with rfl | hv
        · exact absurd hx h
        · exact ⟨v, hv, hx⟩

theorem fixRec_fold (fx : Nat → Option Nat) (f : Nat → Nat) (k0 k1 : Nat) (x : Nat) (c : Option Nat) :
    ∀ (l : List Nat) (out : Nat → Option Nat),
      (∀ v ∈ l, ∀ b, fx v = some b → b ≥ k0 ∧ b < k1 → f v = x → c = some (b - k0)) →
      (out x = c ∨ ∃ v ∈ l, f v = x ∧ ∃ b, fx v = some b ∧ b ≥ k0 ∧ b < k1) →
      l.foldl (fun out v => match fx v with
        | some b => if b ≥ k0 ∧ b < k1 then wr out (f v) (some (b - k0)) else out
        | none => out) out x = c := by
  intro l
  induction l with
  | nil => intro out _ h; rcases h with h | ⟨v, hv, _⟩; · exact h
           · exact absurd hv (by simp)
  | cons a l ih =>
    intro out hu h
    rw [List.foldl_cons]
    apply ih _ (fun v hv => hu v (List.mem_cons_of_mem _ hv))
    by_cases hl : ∃ v ∈ l, f v = x ∧ ∃ b, fx v = some b ∧ b ≥ k0 ∧ b < k1
    · exact Or.inr hl
    · left
      cases hx : fx a with
      | none =>
        rcases h with h | ⟨v, hv, hvx, b, hb⟩
        · exact h
        · rcases List.mem_cons.1 hv with rfl | hv
          · rw [hx] at hb; exact absurd hb.1 (by simp)
          · exact absurd ⟨v, hv, hvx, b, hb⟩ hl
      | some b =>
        simp only
        split
        · rename_i hr
          by_cases hfa : f a = x
          · subst hfa
            rw [wr_same]
            exact (hu a (by simp) b hx hr rfl).symm
          · rw [wr_other _ _ (Ne.symm hfa)]
            rcases h with h | ⟨v, hv, hvx, b', hb⟩
            · exact h
            · rcases List.mem_cons.1 hv with rfl | hv
              · exact absurd hvx hfa
              · exact absurd ⟨v, hv, hvx, b', hb⟩ hl
        · rename_i hr
          rcases h with h | ⟨v, hv, hvx, b', hb⟩
          · exact h
          · rcases List.mem_cons.1 hv with rfl | hv
            · rw [hx] at hb
              cases hb.1
              exact absurd hb.2 hr
            · exact absurd ⟨v, hv, hvx, b', hb⟩ hl

/-! ### Hypergraphs without nodes, renaming of blocks -/

theorem RB_empty (split : Bool) (mult : Int) (k : Nat) : ∀ (H : HG) (old : Nat → Bool) (Φ : Nat → Nat), 1 ≤ k → H.WF → H.nodes = [] →
    RB split mult k H old Φ 0 := by
  induction k using Nat.strong_induction_on with
  | _ k ih =>
    intro H old Φ hk hw hn
    rcases Nat.lt_or_ge k 2 with h | h
    · have : k = 1 := by omega
      subst this
      exact .one (fun v hv => by rw [hn] at hv; exact absurd hv (by simp))
    · have hp : ∀ e ∈ H.edges, H.pins e = [] := by
        intro e he
        cases hx : H.pins e with
        | nil => rfl
        | cons a l =>
          have := hw.pins_mem e he a (by rw [hx]; simp)
          rw [hn] at this
          exact absurd this (by simp)
      refine .two (β := fun _ => false) (Φ₀ := Φ) (Φ₁ := Φ) (c₀ := 0) (c₁ := 0) (old' := fun e => old e || decide (H.lam (side (fun _ => false)) e > 1)) h (fun _ _ => rfl)
        (ih _ (by omega) _ _ _ (by omega) (restrict_WF hw _ _ _) ?_)
        (ih _ (by omega) _ _ _ (by omega) (restrict_WF hw _ _ _) ?_) ?_ ?_ ?_
      · show H.nodes.filter _ = []; rw [hn]; rfl
      · show H.nodes.filter _ = []; rw [hn]; rfl
      · intro v hv; rw [hn] at hv; exact absurd hv (by simp)
      · intro v hv; rw [hn] at hv; exact absurd hv (by simp)
      · have : H.bipCost (fun _ => false) (fun e => if old e then H.ew e else mult * H.ew e) = 0 := by
          unfold HG.bipCost
          apply List.sum_eq_zero
          intro x hx
          obtain ⟨e, he, rfl⟩ := List.mem_map.1 hx
          rw [if_neg]
          unfold HG.lam HG.blocksOf
          rw [hp e he]; simp
        rw [this]; rfl

/-- renaming the block in the definition of the sub-hypergraph -/
theorem iso_block {H H' : HG} {Φ Ψ : Assign} {b c : Nat} {split : Bool} {f g : Nat → Nat} (hw : H.WF) (hi : (H.restrict Φ b split).Iso H' f g)
    (h : ∀ v ∈ H.nodes, (Φ v = some b ↔ Ψ v = some c)) (hl : ∀ e ∈ H.edges, (H.lam Φ e = 1 ↔ H.lam Ψ e = 1)) :
    (H.restrict Ψ c split).Iso H' f g := by
  have hn : (H.restrict Ψ c split).nodes = (H.restrict Φ b split).nodes := by
    apply List.filter_congr
    intro v hv
    rw [Bool.eq_iff_iff, decide_eq_true_eq, decide_eq_true_eq]
    exact (h v hv).symm
  have hp : ∀ e ∈ H.edges, (H.restrict Ψ c split).pins e = (H.restrict Φ b split).pins e := by
    intro e he
    apply List.filter_congr
    intro v hv
    rw [Bool.eq_iff_iff, decide_eq_true_eq, decide_eq_true_eq]
    exact (h v (hw.pins_mem e he v hv)).symm
  have he : (H.restrict Ψ c split).edges = (H.restrict Φ b split).edges := by
    apply List.filter_congr
    intro e he
    rw [Bool.eq_iff_iff, decide_eq_true_eq, decide_eq_true_eq]
    unfold HG.keeps
    have : H.pinsIn Ψ e c = H.pinsIn Φ e b := by
      unfold HG.pinsIn
      apply List.countP_congr
      intro v hv
      simpa using (h v (hw.pins_mem e he v hv)).symm
    rw [this, hl e he]
  refine ⟨?_, ?_, ?_, ?_, ?_, ?_, ?_⟩
  · rw [hn]; exact hi.node_inj
  · rw [hn]; exact hi.nodes
  · rw [hn]; exact hi.nw
  · rw [he]; exact hi.edge_inj
  · rw [he]; exact hi.edges
  · rw [he]; exact hi.ew
  · intro e hh
    rw [he] at hh
    rw [hp e (List.mem_filter.1 hh).1]
    exact hi.pins e hh

end RBip
end Verif
