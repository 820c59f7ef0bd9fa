import Verif.Lemmas.Dyn6
import Verif.Lemmas.Dyn8
/-!
# Invariant of the pins of a net
-/
namespace Verif
namespace Dyn
open SMap (wr)

/-- the slots `l` of a net with `size` valid pins -/
structure PinsOK (orig : Nat → Prop) (par : Nat → Nat) (one two : Nat → Bool) (l : List Nat) (size : Nat) : Prop where
  le : size ≤ l.length
  tnd : (l.take size).Nodup
  tmem : ∀ x, x ∈ l.take size ↔ InN orig par two x ∧ one x = false ∧ two x = false
  dnd : (l.drop size).Nodup
  dmem : ∀ x, x ∈ l.drop size ↔ one x = true

variable {orig : Nat → Prop} {par par' : Nat → Nat} {one two : Nat → Bool} {l : List Nat} {size : Nat} {u v : Nat}

theorem InN_congr (h : ∀ w, two w = true → par' w = par w) (x : Nat) : InN orig par' two x ↔ InN orig par two x := by
  unfold InN
  constructor
  · rintro (h1 | ⟨w, h1, h2, h3⟩)
    · exact Or.inl h1
    · exact Or.inr ⟨w, by rw [← h w h3]; exact h1, h2, h3⟩
  · rintro (h1 | ⟨w, h1, h2, h3⟩)
    · exact Or.inl h1
    · exact Or.inr ⟨w, by rw [h w h3]; exact h1, h2, h3⟩

theorem LogOK.congr (h : LogOK orig par one two) (hp : ∀ w, one w = true ∨ two w = true → par' w = par w) : LogOK orig par' one two := by
  refine ⟨h.excl, ?_, ?_, ?_⟩
  · intro v hv; rw [hp v (Or.inr hv)]; exact h.uniq1 v hv
  · intro v w hv hw hvw
    rw [hp v (Or.inr hv), hp w (Or.inr hw)] at hvw
    exact h.uniq2 v w hv hw hvw
  · intro v hv
    rw [InN_congr (fun w hw => hp w (Or.inr hw)), hp v hv]
    exact h.inn v hv

theorem PinsOK.congr (h : PinsOK orig par one two l size) (hp : ∀ w, two w = true → par' w = par w) : PinsOK orig par' one two l size := by
  refine ⟨h.le, h.tnd, ?_, h.dnd, h.dmem⟩
  intro x
  rw [InN_congr hp]; exact h.tmem x

/-- all slots together contain no node twice -/
theorem PinsOK.nodup (h : PinsOK orig par one two l size) : l.Nodup := by
  rw [← List.take_append_drop size l, List.nodup_append]
  refine ⟨h.tnd, h.dnd, ?_⟩
  rintro x hx y hy rfl
  have h1 := ((h.tmem x).1 hx).2.1
  have h2 := (h.dmem x).1 hy
  rw [h1] at h2; cases h2

/-- the log after contracting `v` onto `u`, if the net contains `u` (`b = true`) or not -/
def oneAfter (one : Nat → Bool) (v : Nat) (b : Bool) : Nat → Bool := if b then wr one v true else one
def twoAfter (two : Nat → Bool) (v : Nat) (b : Bool) : Nat → Bool := if b then two else wr two v true

theorem InN_after (hp : par v = u) (huv : u ≠ v) (b : Bool) (hb : b = true → InN orig par two u) (x : Nat) :
    InN orig par (twoAfter two v b) x ↔ InN orig par two x ∨ x = u := by
  cases b with
  | true =>
    show InN orig par two x ↔ _
    constructor
    · exact Or.inl
    · rintro (h | h)
      · exact h
      · rw [h]; exact hb rfl
  | false =>
    show InN orig par (wr two v true) x ↔ _
    unfold InN
    constructor
    · rintro (h | ⟨w, h1, h2, h3⟩)
      · exact Or.inl (Or.inl h)
      · by_cases hw : w = v
        · subst hw; exact Or.inr (h1.symm.trans hp)
        · rw [wr_other _ _ hw] at h3
          exact Or.inl (Or.inr ⟨w, h1, h2, h3⟩)
    · rintro ((h | ⟨w, h1, h2, h3⟩) | h)
      · exact Or.inl h
      · refine Or.inr ⟨w, h1, h2, ?_⟩
        by_cases hw : w = v
        · subst hw; exact wr_same _ _ _
        · rw [wr_other _ _ hw]; exact h3
      · subst h
        exact Or.inr ⟨v, hp, Ne.symm huv, wr_same _ _ _⟩

theorem oneAfter_eq (b : Bool) (x : Nat) : oneAfter one v b x = true ↔ (x = v ∧ b = true) ∨ one x = true := by
  unfold oneAfter
  cases b with
  | false => simp
  | true =>
    simp only [if_true]
    by_cases hx : x = v
    · subst hx; rw [wr_same]; simp
    · rw [wr_other _ _ hx]; simp [hx]

theorem twoAfter_eq (b : Bool) (x : Nat) : twoAfter two v b x = true ↔ (x = v ∧ b = false) ∨ two x = true := by
  unfold twoAfter
  cases b with
  | true => simp
  | false =>
    simp only [Bool.false_eq_true, if_false]
    by_cases hx : x = v
    · subst hx; rw [wr_same]; simp
    · rw [wr_other _ _ hx]; simp [hx]

theorem bool_false_iff {b : Bool} : b = false ↔ ¬ b = true := by simp

/-- contracting `v` onto `u` in one net -/
theorem contract_net (hl : LogOK orig par one two) (hn : PinsOK orig par one two l size) (hp : par v = u) (huv : u ≠ v)
    (hin : InN orig par two v) (h1 : one v = false) (h2 : two v = false) (h3 : one u = false) (h4 : two u = false) :
    ∃ l' k b, contractHE u v l size = some (l', k, b) ∧ (b = true ↔ InN orig par two u) ∧
      LogOK orig par (oneAfter one v b) (twoAfter two v b) ∧ PinsOK orig par (oneAfter one v b) (twoAfter two v b) l' k := by
  have hv : v ∈ l.take size := (hn.tmem v).2 ⟨hin, h1, h2⟩
  obtain ⟨l', k, b, hc, hk, hb, ht, hf⟩ := contractHE_spec huv hn.le hn.tnd hv
  have hbu : b = true ↔ InN orig par two u := by
    rw [hb, hn.tmem]
    exact ⟨fun h => h.1, fun h => ⟨h, h3, h4⟩⟩
  have hin' : ∀ x, InN orig par (twoAfter two v b) x ↔ InN orig par two x ∨ x = u := InN_after hp huv b hbu.1
  refine ⟨l', k, b, hc, hbu, ⟨?_, ?_, ?_, ?_⟩, ?_⟩
  · intro x hx
    rw [bool_false_iff, twoAfter_eq]
    rw [oneAfter_eq] at hx
    rcases hx with ⟨rfl, hx⟩ | hx
    · rintro (⟨_, h⟩ | h)
      · rw [hx] at h; cases h
      · rw [h2] at h; cases h
    · rintro (⟨rfl, h⟩ | h)
      · rw [h1] at hx; cases hx
      · rw [hl.excl x hx] at h; cases h
  · intro x hx ho
    rw [twoAfter_eq] at hx
    rcases hx with ⟨rfl, hx⟩ | hx
    · have : b = true := hbu.2 (Or.inl (hp ▸ ho))
      rw [hx] at this; cases this
    · exact hl.uniq1 x hx ho
  · intro x y hx hy hxy
    rw [twoAfter_eq] at hx hy
    have hno : ∀ y, b = false → two y = true → par y = u → False := by
      intro y hb' hy hpy
      have : b = true := hbu.2 (Or.inr ⟨y, hpy, ?_, hy⟩)
      · rw [hb'] at this; cases this
      · rintro rfl; rw [h4] at hy; cases hy
    rcases hx with ⟨rfl, hx⟩ | hx <;> rcases hy with ⟨rfl, hy⟩ | hy
    · rfl
    · exact (hno y hx hy (by rw [← hxy, hp])).elim
    · exact (hno x hy hx (by rw [hxy, hp])).elim
    · exact hl.uniq2 x y hx hy hxy
  · intro x hx
    rw [hin', oneAfter_eq, twoAfter_eq] at *
    by_cases hxv : x = v
    · subst hxv; exact ⟨Or.inl hin, by rw [hp]; exact huv⟩
    · have := hl.inn x (by tauto)
      exact ⟨Or.inl this.1, this.2⟩
  · cases hb' : b with
    | true =>
      subst hb'
      obtain ⟨k1, k2, k3⟩ := ht rfl
      have hu : InN orig par two u := hbu.1 rfl
      refine ⟨hk, k1, ?_, ?_, ?_⟩
      · intro x
        rw [k2, hn.tmem, hin', bool_false_iff (b := oneAfter one v true x), bool_false_iff (b := twoAfter two v true x), oneAfter_eq, twoAfter_eq,
          bool_false_iff (b := one x), bool_false_iff (b := two x)]
        constructor
        · rintro ⟨⟨a1, a2, a3⟩, a4⟩
          exact ⟨Or.inl a1, by tauto, by simpa using a3⟩
        · rintro ⟨a1, a2, a3⟩
          refine ⟨⟨?_, by tauto, by simpa using a3⟩, by tauto⟩
          rcases a1 with a1 | a1
          · exact a1
          · rw [a1]; exact hu
      · rw [k3, List.nodup_cons]
        refine ⟨?_, hn.dnd⟩
        rw [hn.dmem, h1]; simp
      · intro x
        rw [k3, List.mem_cons, hn.dmem, oneAfter_eq]; simp
    | false =>
      subst hb'
      obtain ⟨k1, k2, k3⟩ := hf rfl
      refine ⟨hk, k1, ?_, ?_, ?_⟩
      · intro x
        rw [k2, hn.tmem, hin', bool_false_iff (b := oneAfter one v false x), bool_false_iff (b := twoAfter two v false x), oneAfter_eq, twoAfter_eq,
          bool_false_iff (b := one x), bool_false_iff (b := two x)]
        constructor
        · rintro (a1 | ⟨⟨a1, a2, a3⟩, a4⟩)
          · subst a1
            exact ⟨Or.inr rfl, by simp [h3], by simp [h4]; exact huv⟩
          · exact ⟨Or.inl a1, by simpa using a2, by tauto⟩
        · rintro ⟨a1, a2, a3⟩
          rcases a1 with a1 | a1
          · exact Or.inr ⟨⟨a1, by simpa using a2, by tauto⟩, by tauto⟩
          · exact Or.inl a1
      · rw [k3]; exact hn.dnd
      · intro x
        rw [k3, hn.dmem, oneAfter_eq]; simp

/-- splitting `v` off `u` in a net in which `u` replaced `v` -/
theorem split_net (hl : LogOK orig par one two) (hn : PinsOK orig par one two l size) (hp : par v = u) (ht : two v = true)
    (h3 : one u = false) (h4 : two u = false) {p : Nat} (hpos : p < size) (hpu : l.getD p 0 = u) :
    LogOK orig par one (wr two v false) ∧ PinsOK orig par one (wr two v false) (l.set p v) size ∧
    (∀ x, x ≠ u → (InN orig par (wr two v false) x ↔ InN orig par two x)) ∧ ¬ InN orig par (wr two v false) u := by
  have hv := hl.inn v (Or.inr ht)
  have huv : u ≠ v := by rw [← hp]; exact hv.2
  have h1v : one v = false := by
    rw [bool_false_iff]; intro h
    have := hl.excl v h
    rw [ht] at this; cases this
  have hle := hn.le
  have hnu : ¬ InN orig par (wr two v false) u := by
    rintro (h | ⟨w, a1, a2, a3⟩)
    · exact hl.uniq1 v ht (hp ▸ h)
    · have hwv : w ≠ v := by rintro rfl; rw [wr_same] at a3; cases a3
      rw [wr_other _ _ hwv] at a3
      exact hwv (hl.uniq2 w v a3 ht (by rw [a1, hp]))
  have hin : ∀ x, x ≠ u → (InN orig par (wr two v false) x ↔ InN orig par two x) := by
    intro x hx
    unfold InN
    constructor
    · rintro (h | ⟨w, a1, a2, a3⟩)
      · exact Or.inl h
      · have hwv : w ≠ v := by rintro rfl; rw [wr_same] at a3; cases a3
        rw [wr_other _ _ hwv] at a3
        exact Or.inr ⟨w, a1, a2, a3⟩
    · rintro (h | ⟨w, a1, a2, a3⟩)
      · exact Or.inl h
      · have hwv : w ≠ v := by rintro rfl; exact hx (a1.symm.trans hp)
        exact Or.inr ⟨w, a1, a2, by rw [wr_other _ _ hwv]; exact a3⟩
  have htwo : ∀ x, wr two v false x = true ↔ x ≠ v ∧ two x = true := by
    intro x
    by_cases hx : x = v
    · subst hx; rw [wr_same]; simp
    · rw [wr_other _ _ hx]; simp [hx]
  obtain ⟨a, b, hab, hla⟩ : ∃ a b, l.take size = a ++ u :: b ∧ a.length = p := by
    refine ⟨(l.take size).take p, (l.take size).drop (p + 1), ?_, ?_⟩
    · have hlt : p < (l.take size).length := by rw [List.length_take]; omega
      have e : (l.take size)[p] = u := by
        rw [List.getElem_take]
        rw [List.getD_eq_getElem?_getD, List.getElem?_eq_getElem (by omega)] at hpu
        simpa using hpu
      rw [← e, List.getElem_cons_drop, List.take_append_drop]
    · rw [List.length_take, List.length_take]; omega
  have hset : (l.set p v).take size = a ++ v :: b := by
    rw [List.take_set, hab, ← hla]; simp
  have hdrop : (l.set p v).drop size = l.drop size := by
    rw [List.drop_set, if_pos hpos]
  have hnd := hn.tnd
  rw [hab, List.nodup_append, List.nodup_cons] at hnd
  have hvn : v ∉ a ++ u :: b := by
    rw [← hab, hn.tmem, ht]; simp
  have hva : v ∉ a := fun h => hvn (List.mem_append_left _ h)
  have hvb : v ∉ b := fun h => hvn (List.mem_append_right _ (List.mem_cons_of_mem _ h))
  refine ⟨⟨?_, ?_, ?_, ?_⟩, ⟨?_, ?_, ?_, ?_, ?_⟩, hin, hnu⟩
  · intro x hx
    rw [bool_false_iff, htwo]
    rintro ⟨_, h⟩
    rw [hl.excl x hx] at h; cases h
  · intro x hx; exact hl.uniq1 x ((htwo x).1 hx).2
  · intro x y hx hy; exact hl.uniq2 x y ((htwo x).1 hx).2 ((htwo y).1 hy).2
  · intro x hx
    rw [htwo] at hx
    have h0 := hl.inn x (by tauto)
    refine ⟨(hin x ?_).2 h0.1, h0.2⟩
    rintro rfl
    rw [h3, h4] at hx
    simp at hx
  · rw [List.length_set]; exact hle
  · rw [hset, List.nodup_append, List.nodup_cons]
    refine ⟨hnd.1, ⟨hvb, hnd.2.1.2⟩, ?_⟩
    intro x hx y hy
    rw [List.mem_cons] at hy
    rcases hy with rfl | hy
    · rintro rfl; exact hva hx
    · exact hnd.2.2 x hx y (List.mem_cons_of_mem _ hy)
  · intro x
    have hua : u ∉ a := fun h => hnd.2.2 u h u (by simp) rfl
    have hub : u ∉ b := hnd.2.1.1
    rw [hset]
    have hm := hn.tmem x
    rw [hab] at hm
    by_cases hxu : x = u
    · subst hxu
      constructor
      · intro h
        simp only [List.mem_append, List.mem_cons] at h
        rcases h with h | h | h
        · exact absurd h hua
        · exact absurd h huv
        · exact absurd h hub
      · intro h; exact absurd h.1 hnu
    · by_cases hxv : x = v
      · subst hxv
        constructor
        · intro _
          exact ⟨(hin x hxu).2 hv.1, h1v, wr_same _ _ _⟩
        · intro _; simp
      · rw [hin x hxu, wr_other _ _ hxv, ← hm]
        simp [hxu, hxv]
  · rw [hdrop]; exact hn.dnd
  · intro x; rw [hdrop]; exact hn.dmem x

/-- one more valid pin -/
theorem grow_net (hl : LogOK orig par one two) (hn : PinsOK orig par one two l size) (hlt : size < l.length) (hv : l.getD size 0 = v) :
    one v = true ∧ LogOK orig par (wr one v false) two ∧ PinsOK orig par (wr one v false) two l (size + 1) := by
  have hdrop : l.drop size = v :: l.drop (size + 1) := by
    rw [List.drop_eq_getElem_cons hlt]
    rw [List.getD_eq_getElem?_getD, List.getElem?_eq_getElem hlt] at hv
    simp only [Option.getD_some] at hv
    rw [hv]
  have htake : l.take (size + 1) = l.take size ++ [v] := by
    rw [List.take_succ_eq_append_getElem hlt]
    rw [List.getD_eq_getElem?_getD, List.getElem?_eq_getElem hlt] at hv
    simp only [Option.getD_some] at hv
    rw [hv]
  have h1 : one v = true := (hn.dmem v).1 (by rw [hdrop]; simp)
  have hnd := hn.dnd
  rw [hdrop, List.nodup_cons] at hnd
  have hone : ∀ x, wr one v false x = true ↔ x ≠ v ∧ one x = true := by
    intro x
    by_cases hx : x = v
    · subst hx; rw [wr_same]; simp
    · rw [wr_other _ _ hx]; simp [hx]
  refine ⟨h1, ⟨?_, hl.uniq1, hl.uniq2, ?_⟩, ⟨by omega, ?_, ?_, hnd.2, ?_⟩⟩
  · intro x hx; exact hl.excl x ((hone x).1 hx).2
  · intro x hx
    rw [hone] at hx
    exact hl.inn x (by tauto)
  · rw [htake, List.nodup_append]
    refine ⟨hn.tnd, by simp, ?_⟩
    rintro x hx y hy rfl
    rw [List.mem_singleton] at hy
    subst hy
    have := ((hn.tmem x).1 hx).2.1
    rw [h1] at this; cases this
  · intro x
    rw [htake, List.mem_append, List.mem_singleton, hn.tmem]
    by_cases hx : x = v
    · subst hx
      simp only [or_true, true_iff, wr_same]
      exact ⟨(hl.inn x (Or.inl h1)).1, trivial, hl.excl x h1⟩
    · rw [wr_other _ _ hx]; simp [hx]
  · intro x
    rw [hone, ← hn.dmem, hdrop, List.mem_cons]
    constructor
    · intro h
      exact ⟨by rintro rfl; exact hnd.1 h, Or.inr h⟩
    · rintro ⟨h, h' | h'⟩
      · exact absurd h' h
      · exact h'

/-- the order of the slots is irrelevant -/
theorem PinsOK.perm (hn : PinsOK orig par one two l size) {l' : List Nat} (h1 : (l'.take size).Perm (l.take size)) (h2 : (l'.drop size).Perm (l.drop size)) :
    PinsOK orig par one two l' size := by
  have hlen : l'.length = l.length := by
    rw [← List.take_append_drop size l', ← List.take_append_drop size l, List.length_append, List.length_append, h1.length_eq, h2.length_eq]
  refine ⟨by rw [hlen]; exact hn.le, h1.nodup_iff.2 hn.tnd, ?_, h2.nodup_iff.2 hn.dnd, ?_⟩
  · intro x; rw [h1.mem_iff]; exact hn.tmem x
  · intro x; rw [h2.mem_iff]; exact hn.dmem x

end Dyn
end Verif
