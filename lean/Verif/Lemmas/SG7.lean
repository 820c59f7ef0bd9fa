import Verif.Lemmas.SG6
import Verif.Props.C17
/-!
# The constructed adjacency array
-/
namespace Verif
open SMap (wr)
namespace SG

/-- the node at which end `p` is entered, and the entry -/
def pinOf (ev : Nat → Nat × Nat) (p : Nat × Bool) : Nat := if p.2 then (ev p.1).2 else (ev p.1).1
def entOf (ev : Nat → Nat × Nat) (ew : Nat → Int) (p : Nat × Bool) : GEdge :=
  { src := pinOf ev p, tgt := if p.2 then (ev p.1).1 else (ev p.1).2, w := ew p.1, uid := p.1 }

theorem writeEnd_fold (ev : Nat → Nat × Nat) (ew : Nat → Int) (start : Nat → Nat) (order : List (Nat × Bool))
    (st : (Nat → GEdge) × (Nat → Nat)) :
    order.foldl (writeEnd ev ew start) st =
      (order.map (fun p => (pinOf ev p, entOf ev ew p))).foldl (push start) st := by
  rw [List.foldl_map]; rfl

/-- the entries of node `c`, in the order of the edges -/
def segOf (m : Nat) (ev : Nat → Nat × Nat) (ew : Nat → Int) (c : Nat) : List GEdge :=
  ((List.range m).filter (fun e => decide ((ev e).1 = c ∨ (ev e).2 = c))).map (fun e =>
    { src := c, tgt := if (ev e).1 = c then (ev e).2 else (ev e).1, w := ew e, uid := e })

theorem ends_filter (ev : Nat → Nat × Nat) (ew : Nat → Int) (c : Nat) (l : List Nat)
    (h : ∀ e ∈ l, (ev e).1 ≠ (ev e).2) :
    (((l.flatMap (fun e => [(e, false), (e, true)])).map (fun p => (pinOf ev p, entOf ev ew p))).filter
      (fun p => p.1 = c)).map Prod.snd =
    (l.filter (fun e => decide ((ev e).1 = c ∨ (ev e).2 = c))).map (fun e =>
      { src := c, tgt := if (ev e).1 = c then (ev e).2 else (ev e).1, w := ew e, uid := e }) := by
  induction l with
  | nil => rfl
  | cons e l ih =>
    have ih := ih (fun e he => h e (List.mem_cons_of_mem _ he))
    have hne := h e List.mem_cons_self
    rw [List.flatMap_cons, List.map_append, List.filter_append, List.map_append, ih, List.filter_cons]
    by_cases h1 : (ev e).1 = c
    · have h2 : (ev e).2 ≠ c := fun h2 => hne (h1.trans h2.symm)
      simp [pinOf, entOf, h1, h2]
    · by_cases h2 : (ev e).2 = c
      · simp [pinOf, entOf, h1, h2]
      · simp [pinOf, entOf, h1, h2]

theorem count_filter (ev : Nat → Nat × Nat) (c : Nat) (l : List Nat) (h : ∀ e ∈ l, (ev e).1 ≠ (ev e).2) :
    (l.map (fun e => [(ev e).1, (ev e).2].count c)).sum =
      (l.filter (fun e => decide ((ev e).1 = c ∨ (ev e).2 = c))).length := by
  induction l with
  | nil => rfl
  | cons e l ih =>
    have ih := ih (fun e he => h e (List.mem_cons_of_mem _ he))
    have hne := h e List.mem_cons_self
    rw [List.map_cons, List.sum_cons, ih, List.filter_cons]
    by_cases h1 : (ev e).1 = c
    · have h2 : (ev e).2 ≠ c := fun h2 => hne (h1.trans h2.symm)
      simp [h1, h2]; omega
    · by_cases h2 : (ev e).2 = c
      · simp [h1, h2]; omega
      · simp [h1, h2, List.count_cons]

section
variable {n m : Nat} {ev : Nat → Nat × Nat} {ew : Nat → Int} {s : FSched n}

theorem degCount_eq (hs : s.Legal m) (hl : ∀ e < m, (ev e).1 ≠ (ev e).2) (c : Nat) :
    degCount m ev s.threads s.thread c = (segOf m ev ew c).length := by
  have : degCount m ev s.threads s.thread c =
      Factory.netCount m (fun e => [(ev e).1, (ev e).2]) s.threads s.thread c := rfl
  rw [this, Factory.netCount_eq hs.thread, count_filter ev c _ (fun e he => hl e (List.mem_range.1 he))]
  simp [segOf]

theorem deg_total (hs : s.Legal m) (hv : ∀ e < m, (ev e).1 < n ∧ (ev e).2 < n) :
    psum (degCount m ev s.threads s.thread) n = 2 * m := by
  have e : ∀ c, degCount m ev s.threads s.thread c =
      ((List.range m).map (fun e => [(ev e).1, (ev e).2].count c)).sum := by
    intro c
    have : degCount m ev s.threads s.thread c =
      Factory.netCount m (fun e => [(ev e).1, (ev e).2]) s.threads s.thread c := rfl
    rw [this, Factory.netCount_eq hs.thread]
  have h := sum_deg_eq_sum_size n m (fun e => [(ev e).1, (ev e).2]) (by
    intro e he x hx
    have := hv e he
    simp at hx
    rcases hx with rfl | rfl <;> omega)
  simp only [← e] at h
  unfold psum
  have e2 : ((List.range n).map (degCount m ev s.threads s.thread)).sum = 2 * m := by
    rw [h]
    simp [Nat.mul_comm]
  first
    | exact e2
    | simpa using e2

/-- the segment of node `c` after writing all edges -/
theorem written_seg (hs : s.Legal m) (hl : ∀ e < m, (ev e).1 ≠ (ev e).2) (edge0 : Nat → GEdge) (c : Nat) :
    (rd (s.order.foldl (writeEnd ev ew (psum (degCount m ev s.threads s.thread))) (edge0, fun _ => 0)).1
      (psum (degCount m ev s.threads s.thread) c) (degCount m ev s.threads s.thread c)).Perm (segOf m ev ew c) := by
  have hp : ∀ c, (((s.order.map (fun p => (pinOf ev p, entOf ev ew p))).filter (fun p => p.1 = c)).map Prod.snd).Perm
      (segOf m ev ew c) := by
    intro c
    unfold segOf
    rw [← ends_filter ev ew c _ (fun e he => hl e (List.mem_range.1 he))]
    exact (((hs.order.map _).filter _).map _)
  rw [writeEnd_fold, push_spec]
  · exact hp c
  · intro c d h
    rcases psum_disj (degCount m ev s.threads s.thread) h with h | h
    · left; exact h
    · right; exact h
  · intro c
    have := (hp c).length_eq
    rw [List.length_map] at this
    rw [this, ← degCount_eq hs hl]

end

end SG
end Verif
