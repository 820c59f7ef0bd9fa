import Verif.Model.DynamicHypergraph
import Verif.Lemmas.Dyn5
/-! Lemmas: contraction inside a net; contraction forests -/
namespace Verif
namespace Dyn
open SMap (wr)

/-! ### `contractHyperedge` -/

theorem swapN_spec {a b c : List Nat} {x y : Nat} {l : List Nat} (hl : l = a ++ x :: (b ++ y :: c)) :
    swapN l a.length (a.length + 1 + b.length) = a ++ y :: (b ++ x :: c) := by
  subst hl
  unfold swapN
  have h1 : (a ++ x :: (b ++ y :: c)).getD a.length 0 = x := by simp [List.getD]
  have e : a ++ x :: (b ++ y :: c) = (a ++ x :: b) ++ y :: c := by simp
  have e2 : a.length + 1 + b.length = (a ++ x :: b).length := by simp; omega
  have h2 : (a ++ x :: (b ++ y :: c)).getD (a.length + 1 + b.length) 0 = y := by
    rw [e, e2]; simp [List.getD]
  rw [h1, h2]
  have e3 : (a ++ x :: (b ++ y :: c)).set a.length y = (a ++ y :: b) ++ y :: c := by simp
  have e4 : a.length + 1 + b.length = (a ++ y :: b).length := by simp; omega
  rw [e3, e4]
  simp

/-- the loop of `contractHyperedge`: `a` is searched, `b` is to be searched, `z` is in the last slot -/
theorem ceLoop_spec {u v : Nat} (huv : u ≠ v) : ∀ (b a : List Nat) (z k slot : Nat) (c : List Nat),
    (a ++ b ++ [z]).Nodup → v ∉ a → v ∈ b ++ [z] → (a.length + b.length ≤ slot → slot = a.length + b.length ∧ u ∉ a) →
    (slot < a.length + b.length → u ∈ a) → 2 * b.length + 2 ≤ k + (if z = v then 1 else 0) →
    ∃ l slot', ceLoop u v (a.length + b.length) k a.length slot (a ++ b ++ z :: c) = some (l ++ v :: c, slot') ∧
      (l ++ [v]).Perm (a ++ b ++ [z]) ∧ (slot' = a.length + b.length ↔ u ∉ l) := by
  intro b
  induction b with
  | nil =>
    intro a z k slot c hnd hva hv h1 h2 hk
    have hz : z = v := by
      rw [List.nil_append, List.mem_singleton] at hv
      exact hv.symm
    subst hz
    match k, hk with
    | k + 1, _ =>
      refine ⟨a, slot, ?_, by simp, ?_⟩
      · unfold ceLoop
        rw [if_pos (by simp)]; simp
      · simp only [List.length_nil, Nat.add_zero] at h1 h2 ⊢
        constructor
        · intro h; exact (h1 (by omega)).2
        · intro h
          by_contra hne
          rcases Nat.lt_or_ge slot a.length with h3 | h3
          · exact h (h2 h3)
          · exact hne (h1 h3).1
    | 0, hk => simp at hk
  | cons x b ih =>
    intro a z k slot c hnd hva hv h1 h2 hk
    match k, hk with
    | 0, hk => simp only [List.length_cons] at hk; split at hk <;> omega
    | k + 1, hk =>
      unfold ceLoop
      rw [if_neg (by simp)]
      have hget : (a ++ x :: b ++ z :: c).getD a.length 0 = x := by simp [List.getD]
      rw [hget]
      by_cases hx : x = v
      · subst hx
        rw [if_pos rfl]
        have hzx : z ≠ x := by
          rintro rfl
          rw [List.nodup_append] at hnd
          exact hnd.2.2 z (by simp) z (by simp) rfl
        have hsw : swapN (a ++ x :: b ++ z :: c) a.length (a.length + (x :: b).length) = a ++ (z :: b) ++ x :: c := by
          have := swapN_spec (a := a) (b := b) (c := c) (x := x) (y := z) (l := a ++ x :: b ++ z :: c) (by simp)
          rw [show a.length + (x :: b).length = a.length + 1 + b.length by simp; omega, this]
          simp
        rw [hsw]
        -- position `a.length` now contains `z`
        match k, hk with
        | 0, hk => rw [if_neg hzx] at hk; simp only [List.length_cons] at hk; omega
        | k + 1, hk =>
          unfold ceLoop
          rw [if_neg (by simp)]
          have hget2 : (a ++ (z :: b) ++ x :: c).getD a.length 0 = z := by simp [List.getD]
          rw [hget2, if_neg hzx]
          have hnd' : (a ++ [z] ++ b ++ [x]).Nodup := by
            have : (a ++ [z] ++ b ++ [x]).Perm (a ++ x :: b ++ [z]) := by
              simp only [List.append_assoc, List.singleton_append, List.cons_append, List.nil_append]
              refine List.Perm.append_left a ?_
              refine (List.Perm.cons z (List.perm_append_comm (l₁ := b) (l₂ := [x]))).trans ?_
              refine List.Perm.trans ?_ (List.Perm.cons x (List.perm_append_comm (l₁ := [z]) (l₂ := b)))
              exact List.Perm.swap _ _ _
            exact this.nodup_iff.2 hnd
          have hva' : x ∉ a ++ [z] := by
            rw [List.mem_append, List.mem_singleton]
            rintro (h | h)
            · exact hva h
            · exact hzx h.symm
          have hperm : ∀ l : List Nat, (l ++ [x]).Perm (a ++ [z] ++ b ++ [x]) → (l ++ [x]).Perm (a ++ x :: b ++ [z]) := by
            intro l hl
            refine hl.trans ?_
            simp only [List.append_assoc, List.singleton_append, List.cons_append, List.nil_append]
            refine List.Perm.append_left a ?_
            refine (List.Perm.cons z (List.perm_append_comm (l₁ := b) (l₂ := [x]))).trans ?_
            refine List.Perm.trans ?_ (List.Perm.cons x (List.perm_append_comm (l₁ := [z]) (l₂ := b)))
            exact List.Perm.swap _ _ _
          have hk' : 2 * b.length + 2 ≤ k + (if x = x then 1 else 0) := by
            rw [if_neg hzx] at hk
            simp only [List.length_cons] at hk
            rw [if_pos rfl]; omega
          have elen : a.length + (x :: b).length = (a ++ [z]).length + b.length := by simp; omega
          have elist : a ++ (z :: b) ++ x :: c = (a ++ [z]) ++ b ++ x :: c := by simp
          have elen1 : a.length + 1 = (a ++ [z]).length := by simp
          rw [elen, elist]
          rw [elen] at h1 h2
          by_cases hzu : z = u
          · rw [if_pos hzu, elen1]
            obtain ⟨l, slot', g1, g2, g3⟩ := ih (a ++ [z]) x k a.length c hnd' hva' (by simp)
              (by intro h; simp at h; omega) (by intro _; simp [hzu]) hk'
            exact ⟨l, slot', g1, hperm l g2, g3⟩
          · rw [if_neg hzu, elen1]
            obtain ⟨l, slot', g1, g2, g3⟩ := ih (a ++ [z]) x k slot c hnd' hva' (by simp)
              (by
                intro h
                obtain ⟨h3, h4⟩ := h1 h
                refine ⟨h3, ?_⟩
                rw [List.mem_append, List.mem_singleton]
                rintro (h | h)
                · exact h4 h
                · exact hzu h.symm)
              (by intro h; exact List.mem_append_left _ (h2 h)) hk'
            exact ⟨l, slot', g1, hperm l g2, g3⟩
      · rw [if_neg hx]
        have elen : a.length + (x :: b).length = (a ++ [x]).length + b.length := by simp; omega
        have elist : a ++ (x :: b) ++ z :: c = (a ++ [x]) ++ b ++ z :: c := by simp
        have elen1 : a.length + 1 = (a ++ [x]).length := by simp
        have hnd' : (a ++ [x] ++ b ++ [z]).Nodup := by simpa using hnd
        have hva' : v ∉ a ++ [x] := by
          rw [List.mem_append, List.mem_singleton]
          rintro (h | h)
          · exact hva h
          · exact hx h.symm
        have hv' : v ∈ b ++ [z] := by
          simp only [List.cons_append, List.mem_cons] at hv
          exact hv.resolve_left (fun h => hx h.symm)
        have hk' : 2 * b.length + 2 ≤ k + (if z = v then 1 else 0) := by
          simp only [List.length_cons] at hk
          split at hk <;> rename_i hz
          · rw [if_pos hz]; omega
          · rw [if_neg hz]; omega
        have eperm : a ++ x :: b ++ [z] = a ++ [x] ++ b ++ [z] := by simp
        rw [elen, elist, eperm]
        rw [elen] at h1 h2
        by_cases hxu : x = u
        · rw [if_pos hxu, elen1]
          exact ih (a ++ [x]) z k a.length c hnd' hva' hv' (by intro h; simp at h; omega) (by intro _; simp [hxu]) hk'
        · rw [if_neg hxu, elen1]
          exact ih (a ++ [x]) z k slot c hnd' hva' hv'
            (by
              intro h
              obtain ⟨h3, h4⟩ := h1 h
              refine ⟨h3, ?_⟩
              rw [List.mem_append, List.mem_singleton]
              rintro (h | h)
              · exact h4 h
              · exact hxu h.symm)
            (by intro h; exact List.mem_append_left _ (h2 h)) hk'

/-- `contractHyperedge`: if the net contains `u`, then `v` becomes the first invalid pin, otherwise `u`
replaces `v`. -/
theorem contractHE_spec {u v : Nat} {l : List Nat} {size : Nat} (huv : u ≠ v) (hle : size ≤ l.length) (hnd : (l.take size).Nodup)
    (hv : v ∈ l.take size) :
    ∃ l' k b, contractHE u v l size = some (l', k, b) ∧ k ≤ l'.length ∧ (b = true ↔ u ∈ l.take size) ∧
      (b = true → (l'.take k).Nodup ∧ (∀ x, x ∈ l'.take k ↔ x ∈ l.take size ∧ x ≠ v) ∧ l'.drop k = v :: l.drop size) ∧
      (b = false → (l'.take k).Nodup ∧ (∀ x, x ∈ l'.take k ↔ x = u ∨ (x ∈ l.take size ∧ x ≠ v)) ∧ l'.drop k = l.drop size) := by
  obtain ⟨w, z, hw⟩ : ∃ w z, l.take size = w ++ [z] := by
    rcases List.eq_nil_or_concat (l.take size) with h | ⟨w, z, h⟩
    · rw [h] at hv; simp at hv
    · exact ⟨w, z, by simpa using h⟩
  have hlen : w.length + 1 = size := by
    have := congrArg List.length hw
    simp only [List.length_take, List.length_append, List.length_cons, List.length_nil] at this
    omega
  have hl : l = w ++ z :: l.drop size := by
    conv_lhs => rw [← List.take_append_drop size l, hw]
    simp
  rw [hw] at hnd hv
  obtain ⟨q, slot', g1, g2, g3⟩ := ceLoop_spec huv w [] z (2 * size + 1) (size - 1) (l.drop size) (by simpa using hnd) (by simp)
    (by simpa using hv) (by intro _; simp; omega) (by intro h; simp at h; omega) (by split <;> omega)
  simp only [List.nil_append, List.length_nil, Nat.zero_add] at g1 g2 g3
  have hqlen : q.length = w.length := by
    have := g2.length_eq
    simpa using this
  have hqn : (q ++ [v]).Nodup := g2.nodup_iff.2 hnd
  have hvq : v ∉ q := by
    rw [List.nodup_append] at hqn
    intro h; exact hqn.2.2 v h v (by simp) rfl
  have hmem : ∀ x, x ∈ q ↔ x ∈ l.take size ∧ x ≠ v := by
    intro x
    rw [hw, ← g2.mem_iff, List.mem_append, List.mem_singleton]
    constructor
    · intro h; exact ⟨Or.inl h, by rintro rfl; exact hvq h⟩
    · rintro ⟨h | h, h'⟩
      · exact h
      · exact absurd h h'
  have hqn' : q.Nodup := (List.nodup_append.1 hqn).1
  have hwl : w.length = size - 1 := by omega
  rw [hwl] at g1 g3
  unfold contractHE
  rw [show ceLoop u v (size - 1) (2 * size + 1) 0 (size - 1) l = some (q ++ v :: l.drop size, slot') by
    conv_lhs => rw [hl]
    exact g1]
  dsimp only
  by_cases hs : slot' = size - 1
  · have huq : u ∉ q := g3.1 hs
    have hset : (q ++ v :: l.drop size).set (size - 1) u = (q ++ [u]) ++ l.drop size := by
      rw [← hwl, ← hqlen]; simp
    have htake : ((q ++ [u]) ++ l.drop size).take size = q ++ [u] := List.take_left' (by simp; omega)
    have hdrop : ((q ++ [u]) ++ l.drop size).drop size = l.drop size := List.drop_left' (by simp; omega)
    rw [if_neg (by simpa using hs)]
    refine ⟨_, size, false, rfl, ?_, ?_, fun h => absurd h (by simp), ?_⟩
    · rw [hset]; simp; omega
    · simp only [Bool.false_eq_true, false_iff]
      intro h
      exact huq ((hmem u).2 ⟨h, huv⟩)
    · intro _
      rw [hset, htake, hdrop]
      refine ⟨?_, ?_, rfl⟩
      · rw [List.nodup_append]
        refine ⟨hqn', by simp, ?_⟩
        rintro x hx y hy rfl
        rw [List.mem_singleton] at hy
        rw [hy] at hx; exact huq hx
      · intro x
        rw [List.mem_append, List.mem_singleton, hmem]
        tauto
  · have huq : u ∈ q := by
      by_contra h; exact hs (g3.2 h)
    have htake : (q ++ v :: l.drop size).take (size - 1) = q := List.take_left' (by omega)
    have hdrop : (q ++ v :: l.drop size).drop (size - 1) = v :: l.drop size := List.drop_left' (by omega)
    rw [if_pos (by simpa using hs)]
    refine ⟨_, size - 1, true, rfl, ?_, ?_, ?_, fun h => absurd h (by simp)⟩
    · simp; omega
    · simp only [true_iff]
      exact ((hmem u).1 huq).1
    · intro _
      rw [htake, hdrop]
      exact ⟨hqn', hmem, rfl⟩

end Dyn
end Verif
