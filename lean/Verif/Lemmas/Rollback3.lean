import Verif.Lemmas.Rollback2
/-!
# Every hyperedge is claimed exactly once
-/
namespace Verif.Rollback

/-- number of pairs of unique edge `x` that claimed their hyperedge -/
def ClaimSt.winners (s : ClaimSt) (x : Nat) : Nat :=
  s.tasks.countP (fun t => t.2.1 == x && t.2.2 == .done true)

structure ClaimSt.Inv (round : Nat) (s : ClaimSt) : Prop where
  cases' : ∀ x, (s.last x < round ∧ ∀ t ∈ s.tasks, t.2.1 = x → t.2.2 = .load ∨ t.2.2 = .xchg (s.last x)) ∨
    (s.last x = round ∧ s.winners x = 1 ∧ ∀ t ∈ s.tasks, t.2.1 = x → ∀ e, t.2.2 = .xchg e → e < round)

theorem ClaimSt.winners_zero {round : Nat} {s : ClaimSt} {x : Nat}
    (h : ∀ t ∈ s.tasks, t.2.1 = x → t.2.2 = .load ∨ t.2.2 = .xchg (s.last x)) : s.winners x = 0 := by
  unfold winners
  rw [List.countP_eq_zero]
  intro t ht hc
  simp only [Bool.and_eq_true, beq_iff_eq] at hc
  rcases h t ht hc.1 with h' | h' <;> rw [h'] at hc <;> simp at hc

theorem ClaimSt.winners_set {s : ClaimSt} {i e x : Nat} {pc pc' : ClaimPC} (hi : s.tasks[i]? = some (e, x, pc))
    (hpc : pc ≠ .done true) (y : Nat) (f : Nat → Nat) :
    ClaimSt.winners { last := f, tasks := s.tasks.set i (e, x, pc') } y =
      s.winners y + (if x = y ∧ pc' = .done true then 1 else 0) := by
  obtain ⟨hlt, hget⟩ := List.getElem?_eq_some_iff.1 hi
  unfold winners
  simp only
  rw [List.countP_set hlt]
  have h1 : ((s.tasks[i].2.1 == y && s.tasks[i].2.2 == .done true) = true) = False := by
    rw [hget]; simp [hpc]
  simp only [h1, if_false, Nat.sub_zero]
  simp only [Bool.and_eq_true, beq_iff_eq]

theorem ClaimSt.mem_set {s : ClaimSt} {i : Nat} {t t' : Nat × Nat × ClaimPC}
    (h : t ∈ s.tasks.set i t') : t = t' ∨ t ∈ s.tasks := by
  rcases List.mem_or_eq_of_mem_set h with h | h
  · exact Or.inr h
  · exact Or.inl h

theorem ClaimSt.Inv.step {round : Nat} {s : ClaimSt} (hI : s.Inv round) (i : Nat) :
    (s.step round i).Inv round ∧ (s.step round i).tasks.map (fun t => (t.1, t.2.1)) =
      s.tasks.map (fun t => (t.1, t.2.1)) := by
  unfold ClaimSt.step
  cases hi : s.tasks[i]? with
  | none => exact ⟨hI, rfl⟩
  | some t =>
    obtain ⟨e, x, pc⟩ := t
    have hmem := List.mem_of_getElem? hi
    have hmap : ∀ pc', (s.tasks.set i (e, x, pc')).map (fun t => (t.1, t.2.1)) =
        s.tasks.map (fun t => (t.1, t.2.1)) := by
      intro pc'
      rw [List.map_set]
      apply List.ext_getElem?
      intro j
      rw [List.getElem?_set]
      split_ifs with h1 h2
      · subst h1; rw [List.getElem?_map, hi]; rfl
      · subst h1
        have := (List.getElem?_eq_some_iff.1 hi).1
        simp at h2; omega
      · rfl
    cases pc with
    | load =>
      simp only
      split_ifs with hlt
      · refine ⟨⟨fun y => ?_⟩, hmap _⟩
        rcases hI.cases' y with ⟨h1, h2⟩ | ⟨h1, h2, h3⟩
        · left
          refine ⟨h1, fun t ht hy => ?_⟩
          rcases ClaimSt.mem_set ht with rfl | ht
          · right; simp only at hy ⊢; rw [hy]
          · exact h2 t ht hy
        · right
          refine ⟨h1, ?_, fun t ht hy e' he' => ?_⟩
          · rw [ClaimSt.winners_set hi (by simp)]; simp [h2]
          · rcases ClaimSt.mem_set ht with rfl | ht
            · simp only at hy; rw [← hy] at h1; omega
            · exact h3 t ht hy e' he'
      · refine ⟨⟨fun y => ?_⟩, hmap _⟩
        rcases hI.cases' y with ⟨h1, h2⟩ | ⟨h1, h2, h3⟩
        · left
          refine ⟨h1, fun t ht hy => ?_⟩
          rcases ClaimSt.mem_set ht with rfl | ht
          · simp only at hy; rw [← hy] at h1; omega
          · exact h2 t ht hy
        · right
          refine ⟨h1, ?_, fun t ht hy e' he' => ?_⟩
          · rw [ClaimSt.winners_set hi (by simp)]; simp [h2]
          · rcases ClaimSt.mem_set ht with rfl | ht
            · simp at he'
            · exact h3 t ht hy e' he'
    | xchg ex =>
      simp only
      refine ⟨⟨fun y => ?_⟩, hmap _⟩
      by_cases hxy : y = x
      · subst hxy
        right
        simp only [if_true]
        refine ⟨trivial, ?_, fun t ht hy e' he' => ?_⟩
        · rw [ClaimSt.winners_set hi (by simp)]
          rcases hI.cases' y with ⟨h1, h2⟩ | ⟨h1, h2, h3⟩
          · rcases h2 _ hmem rfl with h | h
            · simp at h
            · simp only [ClaimPC.xchg.injEq] at h
              rw [ClaimSt.winners_zero (round := round) h2]; simp [h]
          · have := h3 _ hmem rfl ex rfl
            have hne : ¬ s.last y = ex := by omega
            simp [h2, hne]
        · rcases ClaimSt.mem_set ht with rfl | ht
          · simp at he'
          · rcases hI.cases' y with ⟨h1, h2⟩ | ⟨h1, h2, h3⟩
            · rcases h2 t ht hy with h | h
              · rw [h] at he'; cases he'
              · rw [h] at he'; cases he'; exact h1
            · exact h3 t ht hy e' he'
      · have hw : ClaimSt.winners ⟨fun y => if y = x then round else s.last y,
            s.tasks.set i (e, x, .done (decide (s.last x = ex)))⟩ y = s.winners y := by
          rw [ClaimSt.winners_set hi (by simp)]; simp; intro h; exact absurd h.symm hxy
        rcases hI.cases' y with ⟨h1, h2⟩ | ⟨h1, h2, h3⟩
        · left
          simp only [if_neg hxy]
          refine ⟨h1, fun t ht hy => ?_⟩
          rcases ClaimSt.mem_set ht with rfl | ht
          · exact absurd hy.symm hxy
          · exact h2 t ht hy
        · right
          refine ⟨by simp only [if_neg hxy]; exact h1, by rw [hw]; exact h2, fun t ht hy e' he' => ?_⟩
          rcases ClaimSt.mem_set ht with rfl | ht
          · exact absurd hy.symm hxy
          · exact h3 t ht hy e' he'
    | done c => exact ⟨hI, rfl⟩

theorem ClaimSt.Inv.run {round : Nat} (is : List Nat) : ∀ {s : ClaimSt}, s.Inv round →
    (s.run round is).Inv round ∧ (s.run round is).tasks.map (fun t => (t.1, t.2.1)) =
      s.tasks.map (fun t => (t.1, t.2.1)) := by
  induction is with
  | nil => intro s h; exact ⟨h, rfl⟩
  | cons i is ih =>
    intro s h
    obtain ⟨h1, h2⟩ := h.step i
    obtain ⟨h3, h4⟩ := ih h1
    exact ⟨h3, h4.trans h2⟩

/-- the pairs and the state at the beginning of the loop -/
def ClaimSt.start (last : Nat → Nat) (tasks : List (Nat × Nat × ClaimPC)) : ClaimSt :=
  { last := last, tasks := tasks }

theorem ClaimSt.start_inv {round : Nat} {last : Nat → Nat} {tasks : List (Nat × Nat × ClaimPC)}
    (hl : ∀ x, last x < round) (ht : ∀ t ∈ tasks, t.2.2 = .load) : (ClaimSt.start last tasks).Inv round :=
  ⟨fun x => Or.inl ⟨hl x, fun t h _ => Or.inl (ht t h)⟩⟩

/-- all pairs are finished -/
def ClaimSt.Finished (s : ClaimSt) : Prop := ∀ t ∈ s.tasks, ∃ c, t.2.2 = .done c

theorem ClaimSt.claimed_spec {round : Nat} {s : ClaimSt} (hI : s.Inv round) (hf : s.Finished)
    {x : Nat} (hx : ∃ t ∈ s.tasks, t.2.1 = x) : s.winners x = 1 := by
  rcases hI.cases' x with ⟨_, h2⟩ | ⟨_, h2, _⟩
  · obtain ⟨t, ht, hx⟩ := hx
    obtain ⟨c, hc⟩ := hf t ht
    rcases h2 t ht hx with h | h <;> rw [hc] at h <;> cases h
  · exact h2

theorem claimed_countP (uid : Nat → Nat) (x : Nat) (l : List (Nat × Nat × ClaimPC))
    (hu : ∀ t ∈ l, t.2.1 = uid t.1) :
    ((l.filterMap (fun t => match t with | (e, _, .done true) => some e | _ => none)).map uid).count x =
      l.countP (fun t => t.2.1 == x && t.2.2 == .done true) := by
  induction l with
  | nil => rfl
  | cons t l ih =>
    have hi := ih (fun t' h => hu t' (by simp [h]))
    have h0 := hu t (by simp)
    obtain ⟨e, y, pc⟩ := t
    simp only at h0
    rw [List.countP_cons, ← hi]
    cases pc with
    | load => simp
    | xchg ex => simp
    | done c =>
      cases c with
      | false => simp
      | true =>
        simp only [List.filterMap_cons, List.map_cons, List.count_cons]
        simp [h0]

/-- claimed hyperedges: pairwise different unique ids, and every unique id with a pair is claimed -/
theorem claimed_once {round : Nat} {last : Nat → Nat} {uid : Nat → Nat} {tasks : List (Nat × Nat × ClaimPC)}
    (hl : ∀ x, last x < round) (ht : ∀ t ∈ tasks, t.2.2 = .load ∧ t.2.1 = uid t.1) (is : List Nat)
    (hf : ((ClaimSt.start last tasks).run round is).Finished) :
    (((ClaimSt.start last tasks).run round is).claimed.map uid).Nodup ∧
    (∀ t ∈ tasks, uid t.1 ∈ ((ClaimSt.start last tasks).run round is).claimed.map uid) ∧
    (∀ e ∈ ((ClaimSt.start last tasks).run round is).claimed, ∃ t ∈ tasks, t.1 = e) := by
  obtain ⟨hI, hm⟩ := (ClaimSt.start_inv hl (fun t h => (ht t h).1)).run is
  generalize (ClaimSt.start last tasks).run round is = s at *
  have hm : s.tasks.map (fun t => (t.1, t.2.1)) = tasks.map (fun t => (t.1, t.2.1)) := hm
  have hback : ∀ t ∈ s.tasks, ∃ t' ∈ tasks, t'.1 = t.1 ∧ t'.2.1 = t.2.1 := by
    intro t h
    have : (t.1, t.2.1) ∈ s.tasks.map (fun t => (t.1, t.2.1)) := List.mem_map.2 ⟨t, h, rfl⟩
    rw [hm] at this
    obtain ⟨t', h', he⟩ := List.mem_map.1 this
    simp only [Prod.mk.injEq] at he
    exact ⟨t', h', he.1, he.2⟩
  have hforw : ∀ t ∈ tasks, ∃ t' ∈ s.tasks, t'.1 = t.1 ∧ t'.2.1 = t.2.1 := by
    intro t h
    have : (t.1, t.2.1) ∈ tasks.map (fun t => (t.1, t.2.1)) := List.mem_map.2 ⟨t, h, rfl⟩
    rw [← hm] at this
    obtain ⟨t', h', he⟩ := List.mem_map.1 this
    simp only [Prod.mk.injEq] at he
    exact ⟨t', h', he.1, he.2⟩
  have hu : ∀ t ∈ s.tasks, t.2.1 = uid t.1 := by
    intro t h
    obtain ⟨t', h', e1, e2⟩ := hback t h
    rw [← e2, ← e1]; exact (ht t' h').2
  have hc : ∀ x, (s.claimed.map uid).count x = s.winners x := fun x => claimed_countP uid x s.tasks hu
  refine ⟨?_, ?_, ?_⟩
  · rw [List.nodup_iff_count_le_one]
    intro x
    rw [hc]
    rcases hI.cases' x with ⟨_, h2⟩ | ⟨_, h2, _⟩
    · rw [ClaimSt.winners_zero (round := round) h2]; omega
    · omega
  · intro t h
    obtain ⟨t', h', e1, e2⟩ := hforw t h
    have := ClaimSt.claimed_spec hI hf ⟨t', h', rfl⟩
    rw [← hc, hu t' h', e1] at this
    exact List.count_pos_iff.1 (by omega)
  · intro e he
    unfold ClaimSt.claimed at he
    obtain ⟨t, h, hh⟩ := List.mem_filterMap.1 he
    obtain ⟨t', h', e1, _⟩ := hback t h
    refine ⟨t', h', ?_⟩
    rw [e1]
    obtain ⟨a, b, pc⟩ := t
    cases pc with
    | load => simp at hh
    | xchg ex => simp at hh
    | done c => cases c <;> simp at hh; exact hh

end Verif.Rollback
