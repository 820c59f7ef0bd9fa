import Verif.Lemmas.ConnSets
/-!
# C09  Connectivity set iteration is exact
-/
namespace Verif

/-- Histories of the connectivity sets: each call toggles block `p` of hyperedge `e`
(`add`/`remove`), clears one hyperedge, or resets everything. -/
inductive ConnOp where
  | toggle (e p : Nat)
  | clear (e : Nat)
  | reset

/-- Specification: the set of blocks of every hyperedge as a plain predicate. -/
def ConnOp.apply (S : Nat → Nat → Bool) : ConnOp → (Nat → Nat → Bool)
  | .toggle e p => fun e' p' => if e' = e ∧ p' = p then !(S e p) else S e' p'
  | .clear e => fun e' p' => if e' = e then false else S e' p'
  | .reset => fun _ _ => false

/-- an operation uses an existing block id -/
def ConnOp.Legal (k : Nat) : ConnOp → Prop
  | .toggle _ p => p < k
  | _ => True

/-- Dispatch to the model of connectivity_set.h:103-137. -/
def ConnSets.exec (s : ConnSets) : ConnOp → ConnSets
  | .toggle e p => s.toggle e p
  | .clear e => s.clear e
  | .reset => s.reset

theorem ConnSets.clear_contains (s : ConnSets) {e e' p : Nat} (hp : p / 64 < s.blocks) :
    (s.clear e).contains e' p = if e' = e then false else s.contains e' p := by
  rw [contains_eq, contains_eq]
  unfold wbit clear
  simp only []
  have h4 : (e + 1) * s.blocks = e * s.blocks + s.blocks := by ring
  by_cases he : e' = e
  · subst he
    rw [if_pos rfl, if_pos (by generalize p / 64 = x at *; omega)]
    simp
  · rw [if_neg he, if_neg]
    generalize p / 64 = x at *
    intro ⟨h1, h2⟩
    rcases Nat.lt_or_gt_of_ne he with hlt | hgt
    · have h3 : (e' + 1) * s.blocks ≤ e * s.blocks := Nat.mul_le_mul_right _ hlt
      have h5 : (e' + 1) * s.blocks = e' * s.blocks + s.blocks := by ring
      omega
    · have h3 : (e + 1) * s.blocks ≤ e' * s.blocks := Nat.mul_le_mul_right _ hgt
      omega

theorem ConnSets.exec_refines {k : Nat} (os : List ConnOp) :
    ∀ (s : ConnSets) (S : Nat → Nat → Bool), s.blocks = (ConnSets.init k).blocks →
      (∀ e p, p / 64 < s.blocks → s.contains e p = S e p) →
      (∀ e p, k ≤ p → S e p = false) →
      (∀ o ∈ os, o.Legal k) →
      (os.foldl exec s).blocks = (ConnSets.init k).blocks ∧
      (∀ e p, p / 64 < s.blocks → (os.foldl exec s).contains e p = (os.foldl ConnOp.apply S) e p) ∧
      (∀ e p, k ≤ p → (os.foldl ConnOp.apply S) e p = false) := by
  induction os with
  | nil => intro s S hb h hk _; exact ⟨hb, h, hk⟩
  | cons o os ih =>
    intro s S hb h hk hl
    simp only [List.foldl_cons]
    have hb' : (s.exec o).blocks = s.blocks := by cases o <;> rfl
    have := ih (s.exec o) (o.apply S) (by rw [hb', hb]) ?_ ?_ (fun o' ho' => hl o' (by simp [ho']))
    · rw [hb'] at this; exact this
    · intro e p hp
      rw [hb'] at hp
      have hlo := hl o (by simp)
      cases o with
      | toggle e0 p0 =>
        have hp0 : p0 / 64 < s.blocks := by rw [hb]; exact div_lt hlo
        simp only [exec, ConnOp.apply, toggle_contains s hp0 hp, h e0 p0 hp0, h e p hp]
      | clear e0 => simp only [exec, ConnOp.apply, clear_contains s hp, h e p hp]
      | reset => rw [contains_eq]; simp [wbit, exec, reset, ConnOp.apply]
    · intro e p hp
      have hlo := hl o (by simp)
      cases o with
      | toggle e0 p0 =>
        have : p0 < k := hlo
        simp only [ConnOp.apply]
        rw [if_neg (by omega), hk e p hp]
      | clear e0 => simp only [ConnOp.apply, hk e p hp]; simp
      | reset => rfl

/-- **C09.** For every `k`, every history of adding/removing/clearing and every hyperedge:
the iterator yields, in ascending order and once each, exactly the blocks of the set, and the
reported connectivity is the number of them; membership queries agree as well. -/
theorem C09_iteration_exact (k : Nat) (os : List ConnOp) (hl : ∀ o ∈ os, o.Legal k) (e : Nat) :
    let s := os.foldl ConnSets.exec (ConnSets.init k)
    let S := os.foldl ConnOp.apply (fun _ _ => false)
    s.connSet e = (List.range k).filter (S e) ∧
    s.connectivity e = ((List.range k).filter (S e)).length ∧
    (∀ p, p < k → s.contains e p = S e p) ∧
    (s.connSet e).Pairwise (· < ·) ∧ (∀ p, p ∈ s.connSet e ↔ p < k ∧ S e p = true) := by
  intro s S
  obtain ⟨h1, h2, h3⟩ := ConnSets.exec_refines (k := k) os (ConnSets.init k) (fun _ _ => false) rfl
    (fun e p _ => ConnSets.init_contains k e p) (fun _ _ _ => rfl) hl
  have hle := ConnSets.init_blocks_le k
  have hset : s.connSet e = (List.range k).filter (S e) := by
    rw [ConnSets.connSet_eq]
    show (List.range ((os.foldl ConnSets.exec (ConnSets.init k)).blocks * 64)).filter _ = _
    rw [h1]
    obtain ⟨d, hd⟩ : ∃ d, (ConnSets.init k).blocks * 64 = k + d := ⟨_, (by omega : _ = k + ((ConnSets.init k).blocks * 64 - k))⟩
    have hf : ∀ p, p < k + d → s.contains e p = S e p := by
      intro p hp; exact h2 e p (by omega)
    rw [hd, List.range_add, List.filter_append]
    have : (List.map (fun x => k + x) (List.range d)).filter (s.contains e) = [] := by
      rw [List.filter_eq_nil_iff]
      intro p hp
      rw [List.mem_map] at hp
      obtain ⟨x, hx, rfl⟩ := hp
      rw [List.mem_range] at hx
      rw [hf _ (by omega)]
      rw [show S e (k + x) = false from h3 e (k + x) (by omega)]; simp
    rw [this, List.append_nil]
    apply List.filter_congr
    intro p hp; rw [List.mem_range] at hp
    exact hf p (by omega)
  refine ⟨hset, ?_, ?_, ?_, ?_⟩
  · rw [ConnSets.connectivity_eq, hset]
  · intro p hp; exact h2 e p (ConnSets.div_lt hp)
  · rw [hset]; exact List.Pairwise.filter _ List.pairwise_lt_range
  · intro p; rw [hset, List.mem_filter, List.mem_range]

/-- A history with three words per hyperedge meets the hypotheses. -/
example : ∀ o ∈ [ConnOp.toggle 1 150, .toggle 1 3, .toggle 1 64, .toggle 1 3, .clear 0], o.Legal 151 := by
  simp [ConnOp.Legal]

end Verif
