import Verif.Lemmas.Dyn24
import Verif.Spec.Schedule
/-!
# Positions of the batches
-/
namespace Verif
namespace Dyn
open SMap (wr)

/-- number of batches in front of version `k` -/
def off {α : Type} (L : List (List α)) (k : Nat) : Nat := (L.take k).flatten.length

section
variable {α : Type}

theorem off_zero (L : List (List α)) : off L 0 = 0 := by simp [off]

theorem off_succ {L : List (List α)} {k : Nat} {B : List α} (h : L[k]? = some B) : off L (k + 1) = off L k + B.length := by
  unfold off
  rw [List.take_add_one, h]
  simp

theorem off_succ_le (L : List (List α)) (k : Nat) : off L k ≤ off L (k + 1) := by
  cases h : L[k]? with
  | none =>
    unfold off
    rw [List.take_add_one, h]
    simp
  | some B => rw [off_succ h]; omega

theorem off_mono (L : List (List α)) {k j : Nat} (h : k ≤ j) : off L k ≤ off L j := by
  induction j with
  | zero => rw [Nat.le_zero.1 h]
  | succ j ih =>
    by_cases hk : k = j + 1
    · rw [hk]
    · exact Nat.le_trans (ih (by omega)) (off_succ_le L j)

theorem off_lt {L : List (List α)} {k j i i' : Nat} {B B' : List α} (hk : L[k]? = some B) (hi : i < B.length) (hj : L[j]? = some B')
    (hlt : k < j) : off L k + i < off L j + i' := by
  have h1 := off_succ hk
  have h2 := off_mono L (show k + 1 ≤ j from hlt)
  omega

/-- positions are unique -/
theorem off_inj {L : List (List α)} {k j i i' : Nat} {B B' : List α} (hk : L[k]? = some B) (hi : i < B.length) (hj : L[j]? = some B') (hi' : i' < B'.length)
    (h : off L k + i = off L j + i') : k = j ∧ i = i' := by
  rcases Nat.lt_trichotomy k j with h' | h' | h'
  · have := off_lt (i' := i') hk hi hj h'; omega
  · subst h'; exact ⟨rfl, by omega⟩
  · have := off_lt (i' := i) hj hi' hk h'; omega

theorem off_get {L : List (List α)} : ∀ {k i : Nat} {B : List α} {b : α}, L[k]? = some B → B[i]? = some b → L.flatten[off L k + i]? = some b := by
  induction L with
  | nil => intro k i B b h; simp at h
  | cons A L ih =>
    intro k i B b hk hi
    cases k with
    | zero =>
      simp only [List.getElem?_cons_zero, Option.some.injEq] at hk
      subst hk
      rw [off_zero, Nat.zero_add, List.flatten_cons, List.getElem?_append_left (by rw [List.getElem?_eq_some_iff] at hi; exact hi.1)]
      exact hi
    | succ k =>
      rw [List.getElem?_cons_succ] at hk
      have : off (A :: L) (k + 1) = A.length + off L k := by simp [off]
      rw [this, List.flatten_cons, List.getElem?_append_right (by omega), show A.length + off L k + i - A.length = off L k + i by omega]
      exact ih hk hi

theorem off_get_inv {L : List (List α)} : ∀ {p : Nat} {b : α}, L.flatten[p]? = some b → ∃ k B i, L[k]? = some B ∧ B[i]? = some b ∧ p = off L k + i := by
  induction L with
  | nil => intro p b h; simp at h
  | cons A L ih =>
    intro p b h
    rw [List.flatten_cons] at h
    rcases Nat.lt_or_ge p A.length with hlt | hge
    · rw [List.getElem?_append_left hlt] at h
      exact ⟨0, A, p, rfl, h, by rw [off_zero]; omega⟩
    · rw [List.getElem?_append_right hge] at h
      obtain ⟨k, B, i, h1, h2, h3⟩ := ih h
      refine ⟨k + 1, B, i, by rw [List.getElem?_cons_succ]; exact h1, h2, ?_⟩
      have : off (A :: L) (k + 1) = A.length + off L k := by simp [off]
      omega

end

/-- the batches of all versions, with the indices `bi` -/
structure SchedOK (par ver bi : Nat → Nat) (L : List (List (List (Nat × Nat)))) : Prop where
  batch : ∀ (k i : Nat) (B : List (List (Nat × Nat))) (b : List (Nat × Nat)), L[k]? = some B → B[i]? = some b → BatchOK par bi (off L k + i) b
  ver : ∀ (k i : Nat) (B : List (List (Nat × Nat))) (b : List (Nat × Nat)) (u v : Nat), L[k]? = some B → B[i]? = some b → (u, v) ∈ b → ver v = k
  mem : ∀ v, par v ≠ v → ∃ (k i : Nat) (B : List (List (Nat × Nat))) (b : List (Nat × Nat)), L[k]? = some B ∧ B[i]? = some b ∧ (par v, v) ∈ b

/-! ### Schedules of the contraction history -/
open Schedule

variable {F : Forest} {mx : Nat} {L : List (List (List (Nat × Nat)))} {bi : Nat → Nat}

theorem Valid.at (hV : ∀ k B, L[k]? = some B → F.Valid k mx B) {k i : Nat} {B : List (List (Nat × Nat))} {b : List (Nat × Nat)} {u v : Nat}
    (hk : L[k]? = some B) (hi : B[i]? = some b) (hm : (u, v) ∈ b) : F.Contracted v ∧ F.par v = u ∧ F.ver v = k :=
  ((hV k B hk).exact u v).1 (List.mem_flatten.2 ⟨b, List.mem_of_getElem? hi, hm⟩)

theorem Valid.once (hV : ∀ k B, L[k]? = some B → F.Valid k mx B) {k j i i' : Nat} {B B' : List (List (Nat × Nat))} {b b' : List (Nat × Nat)} {u u' v : Nat}
    (hk : L[k]? = some B) (hi : B[i]? = some b) (hm : (u, v) ∈ b) (hj : L[j]? = some B') (hi' : B'[i']? = some b') (hm' : (u', v) ∈ b') : k = j ∧ i = i' := by
  have h1 := Valid.at hV hk hi hm
  have h2 := Valid.at hV hj hi' hm'
  have hkj : k = j := h1.2.2.symm.trans h2.2.2
  subst hkj
  rw [hk] at hj
  injection hj with hj
  subst hj
  have hu : u = u' := h1.2.1.symm.trans h2.2.1
  subst hu
  refine ⟨rfl, ?_⟩
  have hnd := (hV k B hk).nodup
  rw [List.nodup_flatten] at hnd
  have hp := List.pairwise_iff_getElem.1 hnd.2
  obtain ⟨li, ei⟩ := List.getElem?_eq_some_iff.1 hi
  obtain ⟨li', ei'⟩ := List.getElem?_eq_some_iff.1 hi'
  rcases Nat.lt_trichotomy i i' with h | h | h
  · exact (hp i i' li li' h (by rw [ei]; exact hm) (by rw [ei']; exact hm')).elim
  · exact h
  · exact (hp i' i li' li h (by rw [ei']; exact hm') (by rw [ei]; exact hm)).elim

/-- the index stored for a node -/
theorem Valid.batchOf (hV : ∀ k B, L[k]? = some B → F.Valid k mx B) {k i : Nat} {B : List (List (Nat × Nat))} {b : List (Nat × Nat)} {u v : Nat}
    (hk : L[k]? = some B) (hi : B[i]? = some b) (hm : (u, v) ∈ b) : Dyn.batchOf L v = some (off L k + i) := by
  unfold Dyn.batchOf
  have hg := off_get hk hi
  obtain ⟨hlt, he⟩ := List.getElem?_eq_some_iff.1 hg
  rw [List.findIdx?_eq_some_iff_getElem]
  refine ⟨hlt, ?_, ?_⟩
  · rw [he, List.any_eq_true]
    exact ⟨(u, v), hm, by simp⟩
  · intro j hj hany
    rw [List.any_eq_true] at hany
    obtain ⟨p, hp, hv⟩ := hany
    have hv : p.2 = v := by simpa using hv
    have hjlt : j < L.flatten.length := by omega
    obtain ⟨k', B', i', h1, h2, h3⟩ := off_get_inv (List.getElem?_eq_getElem hjlt)
    obtain ⟨rfl, rfl⟩ := Valid.once hV hk hi hm h1 h2 (u' := p.1) (by rw [← hv]; exact hp)
    omega

theorem sched_of_valid (hV : ∀ k B, L[k]? = some B → F.Valid k mx B) (hlen : ∀ v, F.Contracted v → F.ver v < L.length)
    (hn : ∀ v, F.par v ≠ v → v < F.n) (hbi : ∀ v b, batchOf L v = some b → bi v = b) : SchedOK F.par F.ver bi L := by
  have hmem : ∀ v, F.par v ≠ v → ∃ (k i : Nat) (B : List (List (Nat × Nat))) (b : List (Nat × Nat)), L[k]? = some B ∧ B[i]? = some b ∧ (F.par v, v) ∈ b := by
    intro v hv
    have hc : F.Contracted v := ⟨hn v hv, hv⟩
    have hk := List.getElem?_eq_getElem (hlen v hc)
    have := ((hV _ _ hk).exact (F.par v) v).2 ⟨hc, rfl, rfl⟩
    rw [List.mem_flatten] at this
    obtain ⟨b, hb, hm⟩ := this
    obtain ⟨i, hi⟩ := List.getElem?_of_mem hb
    exact ⟨_, i, _, b, hk, hi, hm⟩
  refine ⟨?_, ?_, hmem⟩
  · intro k i B b hk hi
    refine ⟨?_, ?_, (hV k B hk).nonempty b (List.mem_of_getElem? hi)⟩
    · intro u v
      constructor
      · intro hm
        have := Valid.at hV hk hi hm
        exact ⟨this.1.2, this.2.1, hbi v _ (Valid.batchOf hV hk hi hm)⟩
      · rintro ⟨h1, h2, h3⟩
        obtain ⟨k', i', B', b', g1, g2, g3⟩ := hmem v h1
        have hb' := hbi v _ (Valid.batchOf hV g1 g2 g3)
        rw [h3] at hb'
        obtain ⟨rfl, rfl⟩ := off_inj hk (List.getElem?_eq_some_iff.1 hi).1 g1 (List.getElem?_eq_some_iff.1 g2).1 hb'
        rw [hk] at g1; injection g1 with g1; subst g1
        rw [hi] at g2; injection g2 with g2; subst g2
        rw [← h2]; exact g3
    · have := (hV k B hk).nodup
      rw [List.nodup_flatten] at this
      exact this.1 b (List.mem_of_getElem? hi)
  · intro k i B b u v hk hi hm
    exact (Valid.at hV hk hi hm).2.2

/-- a node is split off after the node that contains it -/
theorem bi_up (hV : ∀ k B, L[k]? = some B → F.Valid k mx B) (hlen : ∀ v, F.Contracted v → F.ver v < L.length)
    (hn : ∀ v, F.par v ≠ v → v < F.n) (hbi : ∀ v b, batchOf L v = some b → bi v = b)
    (hle : ∀ v, F.par v ≠ v → F.par (F.par v) ≠ F.par v → F.ver v ≤ F.ver (F.par v)) (v : Nat) (h1 : F.par v ≠ v) (h2 : F.par (F.par v) ≠ F.par v) :
    bi v < bi (F.par v) := by
  have hS := sched_of_valid hV hlen hn hbi
  obtain ⟨k, i, B, b, a1, a2, a3⟩ := hS.mem v h1
  obtain ⟨k', i', B', b', c1, c2, c3⟩ := hS.mem (F.par v) h2
  rw [hbi v _ (Valid.batchOf hV a1 a2 a3), hbi _ _ (Valid.batchOf hV c1 c2 c3)]
  have e1 := (Valid.at hV a1 a2 a3).2.2
  have e2 := (Valid.at hV c1 c2 c3).2.2
  have := hle v h1 h2
  rcases Nat.lt_or_ge k k' with h | h
  · exact off_lt a1 (List.getElem?_eq_some_iff.1 a2).1 c1 h
  · have hkk : k = k' := by omega
    subst hkk
    rw [a1] at c1; injection c1 with c1; subst c1
    have := (hV k B a1).parentFirst i' i b' b _ _ _ c2 a2 c3 a3
    omega

/-- a contraction that was started before another one onto the same node was finished is not undone before it -/
theorem bi_sib (hV : ∀ k B, L[k]? = some B → F.Valid k mx B) (hlen : ∀ v, F.Contracted v → F.ver v < L.length)
    (hn : ∀ v, F.par v ≠ v → v < F.n) (hbi : ∀ v b, batchOf L v = some b → bi v = b) (hint : ∀ v, F.Contracted v → F.start v ≤ F.stop v)
    {v w : Nat} (h1 : F.par v ≠ v) (h2 : F.par w ≠ w) (h3 : F.par w = F.par v)
    (h4 : F.ver w < F.ver v ∨ (F.ver w = F.ver v ∧ F.start w < F.stop v)) : bi w ≤ bi v := by
  have hS := sched_of_valid hV hlen hn hbi
  obtain ⟨k, i, B, b, a1, a2, a3⟩ := hS.mem v h1
  obtain ⟨k', i', B', b', c1, c2, c3⟩ := hS.mem w h2
  rw [hbi v _ (Valid.batchOf hV a1 a2 a3), hbi _ _ (Valid.batchOf hV c1 c2 c3)]
  have e1 := (Valid.at hV a1 a2 a3).2.2
  have e2 := (Valid.at hV c1 c2 c3).2.2
  rcases h4 with h4 | ⟨h4, h5⟩
  · exact Nat.le_of_lt (off_lt c1 (List.getElem?_eq_some_iff.1 c2).1 a1 (by omega))
  · have hkk : k = k' := by omega
    subst hkk
    rw [a1] at c1; injection c1 with c1; subst c1
    rw [h3] at c3
    have iv := hint v ⟨hn v h1, h1⟩
    have iw := hint w ⟨hn w h2, h2⟩
    rcases Nat.lt_or_ge (F.stop w) (F.start v) with h | h
    · have := (hV k B a1).reverse i i' b b' _ _ _ a2 c2 a3 c3 (by omega)
      omega
    · have := (hV k B a1).together i i' b b' _ _ _ a2 c2 a3 c3 ⟨h, by omega⟩
      omega

end Dyn
end Verif
