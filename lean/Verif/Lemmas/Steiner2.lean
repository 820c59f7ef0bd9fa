import Verif.Model.Steiner
import Mathlib.Logic.Relation
import Mathlib.Data.List.Nodup
import Mathlib.Data.Finset.Card
import Mathlib.Data.Finset.Dedup
import Mathlib.Data.Finset.Range
import Mathlib.Data.Nat.Bitwise
import Mathlib.Tactic.Linarith
import Mathlib.Tactic.Ring
/-!
# The set enumerators
-/
namespace Verif.Steiner

/-- strictly decreasing, all entries below the bound -/
def Desc : Nat → List Nat → Prop
  | _, [] => True
  | b, c :: l => c < b ∧ Desc c l

theorem Desc.mono {b b' : Nat} {l : List Nat} (h : Desc b l) (hb : b ≤ b') : Desc b' l := by
  cases l with
  | nil => trivial
  | cons c l => exact ⟨by have := h.1; omega, h.2⟩

theorem Desc.lt {b : Nat} {l : List Nat} (h : Desc b l) : ∀ x ∈ l, x < b := by
  induction l generalizing b with
  | nil => intro x hx; simp at hx
  | cons c l ih =>
    intro x hx
    rcases List.mem_cons.1 hx with rfl | hx
    · exact h.1
    · have := ih h.2 x hx; have := h.1; omega

theorem Desc.nodup {b : Nat} {l : List Nat} (h : Desc b l) : l.Nodup := by
  induction l generalizing b with
  | nil => simp
  | cons c l ih =>
    rw [List.nodup_cons]
    exact ⟨fun hc => by have := h.2.lt c hc; omega, ih h.2⟩

theorem Desc.head {b : Nat} {l : List Nat} (h : Desc b l) (hne : l ≠ []) : l.headD 0 < b := by
  cases l with
  | nil => exact absurd rfl hne
  | cons c l => exact h.1

/-- next list, without the bitset -/
def nextL : Nat → List Nat → Option (List Nat)
  | _, [] => none
  | bound, c :: rest =>
    if c + 1 < bound then some ((c + 1) :: rest)
    else match nextL c rest with
      | some r => some ((r.headD 0 + 1) :: r)
      | none => none

theorem nextL_desc {b : Nat} {l l' : List Nat} (h : Desc b l) (hn : nextL b l = some l') :
    Desc b l' ∧ l'.length = l.length ∧ l' ≠ [] := by
  induction l generalizing b l' with
  | nil => simp [nextL] at hn
  | cons c rest ih =>
    simp only [nextL] at hn
    split_ifs at hn with hc
    · cases hn
      exact ⟨⟨hc, h.2.mono (by omega)⟩, by simp, by simp⟩
    · cases hr : nextL c rest with
      | none => rw [hr] at hn; simp at hn
      | some r =>
        rw [hr] at hn
        simp only [Option.some.injEq] at hn
        subst hn
        obtain ⟨i1, i2, i3⟩ := ih h.2 hr
        have hh := i1.head i3
        refine ⟨⟨by have := h.1; omega, ?_⟩, by simp [i2], by simp⟩
        cases r with
        | nil => exact absurd rfl i3
        | cons x r => exact ⟨by simp, i1.2⟩

theorem nextSet_eq {b : Nat} {l : List Nat} (h : Desc b l) :
    nextSet b l l.toFinset = match nextL b l with
      | some l' => (l', l'.toFinset, true)
      | none => (l, ∅, false) := by
  induction l generalizing b with
  | nil => rfl
  | cons c rest ih =>
    have he : (c :: rest).toFinset.erase c = rest.toFinset := by
      rw [List.toFinset_cons, Finset.erase_insert]
      rw [List.mem_toFinset]
      exact fun hc => by have := h.2.lt c hc; omega
    simp only [nextSet, nextL, he]
    split_ifs with hc
    · simp
    · rename_i hf
      rw [ih h.2] at hf ⊢
      cases hr : nextL c rest with
      | none => rw [hr] at hf; simp at hf
      | some r => simp
    · rename_i hf
      rw [ih h.2] at hf ⊢
      cases hr : nextL c rest with
      | none => simp
      | some r => rw [hr] at hf; simp at hf

theorem nextL_none {b : Nat} {l : List Nat} (h : Desc b l) (hn : nextL b l = none) :
    l.length ≤ b ∧ l = (List.range l.length).map (fun i => b - (i + 1)) := by
  induction l generalizing b with
  | nil => simp
  | cons c rest ih =>
    simp only [nextL] at hn
    split_ifs at hn with hc
    cases hr : nextL c rest with
    | some r => rw [hr] at hn; simp at hn
    | none =>
      obtain ⟨i1, i2⟩ := ih h.2 hr
      have hcb : c + 1 = b := by have := h.1; omega
      refine ⟨by simp; omega, ?_⟩
      rw [List.length_cons, List.range_succ_eq_map, List.map_cons, List.map_map]
      congr 1
      · omega
      · conv_lhs => rw [i2]
        apply List.map_congr_left
        intro i _
        simp only [Function.comp]
        omega

def val (N : Nat) : List Nat → Nat
  | [] => 0
  | c :: l => c + N * val N l

theorem nextL_val {N b : Nat} {l l' : List Nat} (h : Desc b l) (hb : b ≤ N) (hn : nextL b l = some l') : val N l < val N l' := by
  induction l generalizing b l' with
  | nil => simp [nextL] at hn
  | cons c rest ih =>
    simp only [nextL] at hn
    split_ifs at hn with hc
    · cases hn; simp only [val]; omega
    · cases hr : nextL c rest with
      | none => rw [hr] at hn; simp at hn
      | some r =>
        rw [hr] at hn
        simp only [Option.some.injEq] at hn
        subst hn
        have h1 := h.1
        have := ih h.2 (by omega) hr
        simp only [val]
        have h2 : N * (val N rest + 1) ≤ N * val N r := Nat.mul_le_mul_left _ this
        rw [Nat.mul_add] at h2
        omega

theorem val_lt {N b : Nat} {l : List Nat} (h : Desc b l) (hb : b ≤ N) (hN : 0 < N) : val N l < N ^ l.length := by
  induction l generalizing b with
  | nil => simp [val]
  | cons c rest ih =>
    have h1 := h.1
    have := ih h.2 (by omega)
    simp only [val, List.length_cons]
    have h2 : N * (val N rest + 1) ≤ N * N ^ rest.length := Nat.mul_le_mul_left _ this
    rw [Nat.mul_add] at h2
    rw [Nat.pow_succ, Nat.mul_comm (N ^ rest.length)]
    omega

/-- one step of the enumeration -/
def StepL (b : Nat) (l l' : List Nat) : Prop := nextL b l = some l'

def startL (m : Nat) : List Nat := (List.range m).map (fun i => m - 1 - i)

theorem startL_succ (m : Nat) : startL (m + 1) = m :: startL m := by
  unfold startL
  rw [List.range_succ_eq_map, List.map_cons, List.map_map]
  congr 1
  apply List.map_congr_left
  intro i _
  simp only [Function.comp]
  omega

theorem startL_desc {m b : Nat} (h : m ≤ b) : Desc b (startL m) := by
  induction m generalizing b with
  | zero => trivial
  | succ m ih => rw [startL_succ]; exact ⟨h, ih (Nat.le_refl _)⟩

theorem startL_length (m : Nat) : (startL m).length = m := by simp [startL]

/-- increasing the first entry repeatedly -/
theorem reach_head {b c c' : Nat} {rest : List Nat} (h1 : c ≤ c') (h2 : c' < b) :
    Relation.ReflTransGen (StepL b) (c :: rest) (c' :: rest) := by
  induction c', h1 using Nat.le_induction with
  | base => exact .refl
  | succ x hx ih =>
    refine .tail (ih (by omega)) ?_
    simp only [StepL, nextL]
    rw [if_pos h2]

/-- every strictly decreasing list is reached -/
theorem reach_all {m b : Nat} {l : List Nat} (h : Desc b l) (hl : l.length = m) :
    Relation.ReflTransGen (StepL b) (startL m) l := by
  induction m generalizing b l with
  | zero =>
    have : l = [] := List.length_eq_zero_iff.1 hl
    subst this
    exact .refl
  | succ m ih =>
    cases l with
    | nil => simp at hl
    | cons c t =>
      have hb : 0 < b := by have := h.1; omega
      have hd : Desc (b - 1) t := h.2.mono (by have := h.1; omega)
      have hlen : t.length = m := by simpa using hl
      have hr := ih hd hlen
      -- lift
      have lift : ∀ t' : List Nat, Relation.ReflTransGen (StepL (b - 1)) (startL m) t' → t'.length = m → Desc (b - 1) t' →
          Relation.ReflTransGen (StepL b) (startL (m + 1)) ((if t' = [] then 0 else t'.headD 0 + 1) :: t') := by
        intro t' ht'
        induction ht' with
        | refl =>
          intro _ _
          rw [startL_succ]
          have : (if startL m = [] then 0 else (startL m).headD 0 + 1) = m := by
            cases m with
            | zero => rfl
            | succ m => rw [startL_succ]; simp
          rw [this]
        | @tail x y _ hxy ih2 =>
          intro hy hyd
          have hm : Desc (b - 1) x := by
            have : ∀ z, Relation.ReflTransGen (StepL (b - 1)) (startL m) z → Desc (b - 1) z := by
              intro z hz
              induction hz with
              | refl =>
                by_cases hmb : m ≤ b - 1
                · exact startL_desc hmb
                · exfalso
                  -- more entries than values below the bound
                  have : t.length ≤ b - 1 := by
                    have hsub : t.toFinset ⊆ Finset.range (b - 1) := by
                      intro z hz
                      rw [List.mem_toFinset] at hz
                      rw [Finset.mem_range]
                      exact hd.lt z hz
                    have hc := Finset.card_le_card hsub
                    rw [Finset.card_range, List.toFinset_card_of_nodup hd.nodup] at hc
                    exact hc
                  omega
              | tail _ hs ih3 => exact (nextL_desc ih3 hs).1
            rename_i hx
            exact this x hx
          obtain ⟨n1, n2, n3⟩ := nextL_desc hm hxy
          have hxl : x.length = m := by omega
          have h1 := ih2 hxl hm
          have hxne : x ≠ [] := by
            intro hx; subst hx; simp [StepL, nextL] at hxy
          rw [if_neg hxne] at h1
          rw [if_neg n3]
          have hxh := hm.head hxne
          have h2 := reach_head (b := b) (c := x.headD 0 + 1) (c' := b - 1) (rest := x) (by omega) (by omega)
          refine (h1.trans h2).tail ?_
          simp only [StepL, nextL]
          rw [if_neg (by omega), show nextL (b - 1) x = some y from hxy]
      have h1 := lift t hr hlen hd
      refine h1.trans (reach_head ?_ h.1)
      split_ifs with he
      · omega
      · have := h.2.head he; omega

/-- iterator state for a list -/
def iterOf (n : Nat) (l : List Nat) : SetIter := ⟨n, l, l.toFinset⟩

theorem first_eq (n m : Nat) : SetIter.first n m = iterOf n (startL m) := by
  have h : ∀ m : Nat, ∀ B : Finset Nat, (List.range m).foldl (fun B i => insert i B) B = B ∪ (List.range m).toFinset := by
    intro m
    induction m with
    | zero => intro B; simp
    | succ m ih =>
      intro B
      rw [List.range_succ, List.foldl_append, ih]
      ext x
      simp
  unfold SetIter.first iterOf startL
  congr 1
  rw [h]
  ext x
  simp only [Finset.empty_union, List.mem_toFinset, List.mem_range, List.mem_map]
  constructor
  · intro hx; exact ⟨m - 1 - x, by omega, by omega⟩
  · rintro ⟨i, h1, h2⟩; omega

theorem next_some {n : Nat} {l l' : List Nat} (h : Desc n l) (hn : nextL n l = some l') : (iterOf n l).next = iterOf n l' := by
  unfold SetIter.next iterOf
  simp only [nextSet_eq h, hn, if_true]

theorem next_none {n : Nat} {l : List Nat} (h : Desc n l) (hn : nextL n l = none) : (iterOf n l).next = ⟨n + 1, l, ∅⟩ := by
  unfold SetIter.next iterOf
  simp only [nextSet_eq h, hn]
  simp

theorem not_atEnd {n m : Nat} {l : List Nat} : (iterOf n l).atEnd n m = false := by
  unfold SetIter.atEnd iterOf SetIter.endCur
  simp

theorem atEnd_last {n : Nat} {l : List Nat} (hn64 : n < 2 ^ 64) (h : Desc n l) (hn : nextL n l = none) :
    SetIter.atEnd n l.length ⟨n + 1, l, ∅⟩ = true := by
  obtain ⟨h1, h2⟩ := nextL_none h hn
  unfold SetIter.atEnd SetIter.endCur
  simp only [beq_self_eq_true, Bool.true_and, beq_iff_eq]
  conv_lhs => rw [h2]
  apply List.map_congr_left
  intro i hi
  rw [List.mem_range] at hi
  rw [show n + 2 ^ 64 - (i + 1) = (n - (i + 1)) + 2 ^ 64 by omega, Nat.add_mod_right, Nat.mod_eq_of_lt (by omega)]

theorem enumLoop_spec {n : Nat} (hn64 : n < 2 ^ 64) (hn0 : 0 < n) : ∀ (fuel : Nat) (l : List Nat), Desc n l → n ^ l.length ≤ fuel + val n l →
    (enumLoop n l.length (fuel + 1) (iterOf n l)).2 = true ∧
    (∀ l', Relation.ReflTransGen (StepL n) l l' → l'.toFinset ∈ (enumLoop n l.length (fuel + 1) (iterOf n l)).1) ∧
    (∀ D ∈ (enumLoop n l.length (fuel + 1) (iterOf n l)).1, ∃ l', Desc n l' ∧ l'.length = l.length ∧ l'.toFinset = D) ∧
    (enumLoop n l.length (fuel + 1) (iterOf n l)).1.Nodup := by
  intro fuel
  induction fuel with
  | zero =>
    intro l hd hf
    have := val_lt hd (Nat.le_refl _) hn0
    omega
  | succ fuel ih =>
    intro l hd hf
    rw [enumLoop]
    simp only [not_atEnd, Bool.false_eq_true, if_false]
    cases hn : nextL n l with
    | none =>
      rw [next_none hd hn, enumLoop, if_pos (atEnd_last hn64 hd hn)]
      refine ⟨rfl, ?_, ?_, by simp⟩
      · intro l' hl'
        rcases Relation.ReflTransGen.cases_head hl' with rfl | ⟨c, hc, _⟩
        · simp [iterOf]
        · rw [StepL, hn] at hc; cases hc
      · intro D hD
        simp only [List.mem_singleton] at hD
        exact ⟨l, hd, rfl, hD.symm⟩
    | some l' =>
      rw [next_some hd hn]
      obtain ⟨d1, d2, _⟩ := nextL_desc hd hn
      have hv := nextL_val hd (Nat.le_refl n) hn
      obtain ⟨i1, i2, i3, i4⟩ := ih l' d1 (by rw [d2]; omega)
      rw [d2] at i1 i2 i3 i4
      refine ⟨i1, ?_, ?_, ?_⟩
      · intro l'' hl''
        rcases Relation.ReflTransGen.cases_head hl'' with rfl | ⟨c, hc, hc2⟩
        · simp [iterOf]
        · rw [StepL, hn] at hc
          cases hc
          exact List.mem_cons_of_mem _ (i2 l'' hc2)
      · intro D hD
        rcases List.mem_cons.1 hD with rfl | hD
        · exact ⟨l, hd, rfl, rfl⟩
        · exact i3 D hD
      · rw [List.nodup_cons]
        refine ⟨?_, i4⟩
        -- the values grow
        have grow : ∀ (f : Nat) (l1 : List Nat), Desc n l1 → l1.length = l.length → val n l < val n l1 →
            (iterOf n l).bits ∉ (enumLoop n l.length f (iterOf n l1)).1 := by
          intro f
          induction f with
          | zero => intro l1 _ _ _; simp [enumLoop]
          | succ f ihf =>
            intro l1 hd1 hl1 hv1
            rw [enumLoop]
            simp only [not_atEnd, Bool.false_eq_true, if_false]
            rw [List.mem_cons, not_or]
            constructor
            · intro he
              simp only [iterOf] at he
              have : l = l1 := by
                -- same sets, both strictly decreasing
                have hs : ∀ (a b : List Nat) (x : Nat), Desc x a → Desc x b → a.toFinset = b.toFinset → a = b := by
                  intro a
                  induction a with
                  | nil =>
                    intro b x _ _ h
                    cases b with
                    | nil => rfl
                    | cons y b =>
                      exfalso
                      have : y ∈ ([] : List Nat).toFinset := by rw [h]; simp
                      simp at this
                  | cons y a iha =>
                    intro b x ha hb h
                    cases b with
                    | nil =>
                      exfalso
                      have : y ∈ ([] : List Nat).toFinset := by rw [← h]; simp
                      simp at this
                    | cons z b =>
                      have h1 : y ∈ (z :: b) := by
                        rw [← List.mem_toFinset, ← h]; simp
                      have h2 : z ∈ (y :: a) := by
                        rw [← List.mem_toFinset, h]; simp
                      have hyz : y = z := by
                        rcases List.mem_cons.1 h1 with h3 | h3
                        · exact h3
                        · rcases List.mem_cons.1 h2 with h4 | h4
                          · exact h4.symm
                          · have := hb.2.lt y h3; have := ha.2.lt z h4; omega
                      subst hyz
                      congr 1
                      apply iha b y ha.2 hb.2
                      have e1 : (y :: a).toFinset.erase y = a.toFinset := by
                        rw [List.toFinset_cons, Finset.erase_insert]
                        rw [List.mem_toFinset]
                        exact fun hc => by have := ha.2.lt y hc; omega
                      have e2 : (y :: b).toFinset.erase y = b.toFinset := by
                        rw [List.toFinset_cons, Finset.erase_insert]
                        rw [List.mem_toFinset]
                        exact fun hc => by have := hb.2.lt y hc; omega
                      rw [← e1, ← e2, h]
                exact hs l l1 n hd hd1 he
              subst this
              omega
            · cases hn1 : nextL n l1 with
              | none =>
                rw [next_none hd1 hn1]
                have := atEnd_last hn64 hd1 hn1
                rw [hl1] at this
                cases f with
                | zero => simp [enumLoop]
                | succ f => rw [enumLoop, if_pos this]; simp
              | some l2 =>
                rw [next_some hd1 hn1]
                obtain ⟨d1', d2', _⟩ := nextL_desc hd1 hn1
                have := nextL_val hd1 (Nat.le_refl n) hn1
                exact ihf l2 d1' (by omega) (by omega)
        exact grow _ l' d1 d2 hv

/-- the sorted (decreasing) list of a set -/
theorem exists_desc {n : Nat} {D : Finset Nat} (h : ∀ x ∈ D, x < n) : ∃ l, Desc n l ∧ l.toFinset = D ∧ l.length = D.card := by
  induction n generalizing D with
  | zero =>
    have : D = ∅ := Finset.eq_empty_of_forall_notMem (fun x hx => by have := h x hx; omega)
    subst this
    exact ⟨[], trivial, rfl, rfl⟩
  | succ n ih =>
    by_cases hn : n ∈ D
    · obtain ⟨l, h1, h2, h3⟩ := ih (D := D.erase n) (by
        intro x hx
        rw [Finset.mem_erase] at hx
        have := h x hx.2
        omega)
      refine ⟨n :: l, ⟨by omega, h1⟩, ?_, ?_⟩
      · rw [List.toFinset_cons, h2, Finset.insert_erase hn]
      · have := Finset.card_pos.2 ⟨n, hn⟩
        rw [List.length_cons, h3, Finset.card_erase_of_mem hn]; omega
    · obtain ⟨l, h1, h2, h3⟩ := ih (D := D) (by
        intro x hx
        have := h x hx
        have : x ≠ n := fun he => hn (he ▸ hx)
        omega)
      exact ⟨l, h1.mono (by omega), h2, h3⟩

/-- **the enumeration of the sets of size `m`** ends and visits exactly the subsets of size `m`, each
once -/
theorem setEnum_spec {n m : Nat} (hn64 : n < 2 ^ 64) (hn0 : 0 < n) (hm : m ≤ n) :
    (enumLoop n m (n ^ m + 1) (SetIter.first n m)).2 = true ∧ (setEnum n m).Nodup ∧
    ∀ D, D ∈ setEnum n m ↔ (∀ x ∈ D, x < n) ∧ D.card = m := by
  have h := enumLoop_spec hn64 hn0 (n ^ m) (startL m) (startL_desc hm) (by rw [startL_length]; omega)
  rw [startL_length, ← first_eq] at h
  obtain ⟨h1, h2, h3, h4⟩ := h
  refine ⟨h1, h4, fun D => ⟨fun hD => ?_, fun ⟨hD, hc⟩ => ?_⟩⟩
  · obtain ⟨l, l1, l2, rfl⟩ := h3 D hD
    refine ⟨fun x hx => l1.lt x (List.mem_toFinset.1 hx), ?_⟩
    rw [List.toFinset_card_of_nodup l1.nodup, l2]
  · obtain ⟨l, l1, rfl, l3⟩ := exists_desc hD
    exact h2 l (reach_all l1 (by omega))

theorem mem_bitsOf {n : Nat} {X : Finset Nat} {x : Nat} : x ∈ bitsOf n X ↔ x < n ∧ x ∈ X := by
  simp [bitsOf]

theorem bitsOf_nodup (n : Nat) (X : Finset Nat) : (bitsOf n X).Nodup := List.Nodup.filter _ List.nodup_range

theorem mem_maskSet {set : List Nat} (hnd : set.Nodup) (mask x : Nat) :
    x ∈ maskSet set mask ↔ ∃ i, mask.testBit i = true ∧ set[i]? = some x := by
  have key : ∀ t ≤ set.length, x ∈ (List.range t).foldl (fun B i => if mask.testBit i then insert (set.getD i 0) B
      else B.erase (set.getD i 0)) (∅ : Finset Nat) ↔ ∃ i < t, mask.testBit i = true ∧ set[i]? = some x := by
    intro t
    induction t with
    | zero => intro _; simp
    | succ t ih =>
      intro ht
      rw [List.range_succ, List.foldl_append]
      simp only [List.foldl_cons, List.foldl_nil]
      have hg : set[t]? = some (set.getD t 0) := by
        rw [List.getD_eq_getElem?_getD, List.getElem?_eq_getElem (by omega)]; rfl
      split_ifs with hb
      · rw [Finset.mem_insert, ih (by omega)]
        constructor
        · rintro (rfl | ⟨i, h1, h2⟩)
          · exact ⟨t, by omega, hb, hg⟩
          · exact ⟨i, by omega, h2⟩
        · rintro ⟨i, h1, h2, h3⟩
          by_cases hi : i = t
          · subst hi; left; rw [hg] at h3; exact (Option.some.inj h3).symm
          · right; exact ⟨i, by omega, h2, h3⟩
      · rw [Finset.mem_erase, ih (by omega)]
        constructor
        · rintro ⟨_, i, h1, h2⟩; exact ⟨i, by omega, h2⟩
        · rintro ⟨i, h1, h2, h3⟩
          have hi : i ≠ t := by rintro rfl; exact hb h2
          refine ⟨?_, i, by omega, h2, h3⟩
          rintro rfl
          rw [← hg] at h3
          have := (List.getElem?_inj (i := i) (j := t) (by omega) hnd).1 h3
          exact hi this
  unfold maskSet
  rw [key set.length (Nat.le_refl _)]
  constructor
  · rintro ⟨i, _, h⟩; exact ⟨i, h⟩
  · rintro ⟨i, h1, h2⟩; exact ⟨i, (List.getElem?_eq_some_iff.1 h2).1, h1, h2⟩

theorem exists_mask (s : Nat) (f : Nat → Bool) : ∃ mask, mask < 2 ^ s ∧ ∀ i < s, mask.testBit i = f i := by
  induction s with
  | zero => exact ⟨0, by simp, by intro i hi; omega⟩
  | succ s ih =>
    obtain ⟨m, h1, h2⟩ := ih
    cases hf : f s with
    | false =>
      refine ⟨m, by rw [Nat.pow_succ]; omega, ?_⟩
      intro i hi
      by_cases his : i = s
      · subst his; rw [hf]; exact Nat.testBit_lt_two_pow h1
      · exact h2 i (by omega)
    | true =>
      refine ⟨2 ^ s + m, by rw [Nat.pow_succ]; omega, ?_⟩
      intro i hi
      by_cases his : i = s
      · subst his; rw [hf, Nat.testBit_two_pow_add_eq, Nat.testBit_lt_two_pow h1]; rfl
      · rw [Nat.testBit_two_pow_add_gt (by omega)]; exact h2 i (by omega)

/-- **the enumeration of subsets** visits exactly the proper non-empty subsets -/
theorem mem_subsetEnum {n : Nat} {D : Finset Nat} (hD : ∀ x ∈ D, x < n) {E : Finset Nat} :
    E ∈ subsetEnum n D ↔ E ⊆ D ∧ E ≠ ∅ ∧ E ≠ D := by
  have hnd := bitsOf_nodup n D
  unfold subsetEnum
  simp only [List.mem_map, List.mem_range'_1]
  have hmem : ∀ x, x ∈ bitsOf n D ↔ x ∈ D := fun x => by
    rw [mem_bitsOf]; exact ⟨fun h => h.2, fun h => ⟨hD x h, h⟩⟩
  generalize bitsOf n D = set at hnd hmem
  constructor
  · rintro ⟨mask, ⟨h1, h2⟩, rfl⟩
    refine ⟨?_, ?_, ?_⟩
    · intro x hx
      obtain ⟨i, _, hi⟩ := (mem_maskSet hnd mask x).1 hx
      exact (hmem x).1 (List.mem_of_getElem? hi)
    · intro he
      obtain ⟨i, hi, hlt⟩ : ∃ i, mask.testBit i = true ∧ i < set.length := by
        obtain ⟨i, hi⟩ := Nat.exists_testBit_of_ne_zero (show mask ≠ 0 by omega)
        refine ⟨i, hi, ?_⟩
        by_contra hlt
        have : mask < 2 ^ i := lt_of_lt_of_le (show mask < 2 ^ set.length by omega) (Nat.pow_le_pow_right (by omega) (by omega))
        rw [Nat.testBit_lt_two_pow this] at hi
        cases hi
      have : set[i] ∈ maskSet set mask := (mem_maskSet hnd mask _).2 ⟨i, hi, List.getElem?_eq_getElem hlt⟩
      rw [he] at this
      simp at this
    · intro he
      have hall : ∀ i < set.length, mask.testBit i = true := by
        intro i hi
        have : set[i] ∈ maskSet set mask := by rw [he]; exact (hmem _).1 (List.getElem_mem hi)
        obtain ⟨j, hj1, hj2⟩ := (mem_maskSet hnd mask _).1 this
        have : i = j := (List.getElem?_inj hi hnd).1 (by rw [hj2, List.getElem?_eq_getElem hi])
        rw [this]; exact hj1
      have : mask = 2 ^ set.length - 1 := by
        apply Nat.eq_of_testBit_eq
        intro i
        rw [Nat.testBit_two_pow_sub_one]
        by_cases hi : i < set.length
        · rw [hall i hi]; simp [hi]
        · have : mask < 2 ^ i := lt_of_lt_of_le (show mask < 2 ^ set.length by omega) (Nat.pow_le_pow_right (by omega) (by omega))
          rw [Nat.testBit_lt_two_pow this]; simp [hi]
      omega
  · rintro ⟨h1, h2, h3⟩
    obtain ⟨mask, m1, m2⟩ := exists_mask set.length (fun i => decide (set.getD i 0 ∈ E))
    have hE : maskSet set mask = E := by
      ext x
      rw [mem_maskSet hnd]
      constructor
      · rintro ⟨i, i1, i2⟩
        have hi := (List.getElem?_eq_some_iff.1 i2).1
        rw [m2 i hi, decide_eq_true_eq, List.getD_eq_getElem?_getD, i2] at i1
        exact i1
      · intro hx
        obtain ⟨i, hi⟩ := List.mem_iff_getElem?.1 ((hmem x).2 (h1 hx))
        refine ⟨i, ?_, hi⟩
        rw [m2 i (List.getElem?_eq_some_iff.1 hi).1, decide_eq_true_eq, List.getD_eq_getElem?_getD, hi]
        exact hx
    refine ⟨mask, ⟨?_, ?_⟩, hE⟩
    · rcases Nat.eq_zero_or_pos mask with h0 | h0
      · exfalso; apply h2
        rw [← hE]
        ext x
        rw [mem_maskSet hnd, h0]
        simp
      · exact h0
    · have hne : mask ≠ 2 ^ set.length - 1 := by
        intro h0
        apply h3
        rw [← hE]
        ext x
        rw [mem_maskSet hnd, ← hmem]
        constructor
        · rintro ⟨i, _, hi⟩; exact List.mem_of_getElem? hi
        · intro hx
          obtain ⟨i, hi⟩ := List.mem_iff_getElem?.1 hx
          refine ⟨i, ?_, hi⟩
          rw [h0, Nat.testBit_two_pow_sub_one]
          simp [(List.getElem?_eq_some_iff.1 hi).1]
      have : 1 ≤ mask := by
        rcases Nat.eq_zero_or_pos mask with h0 | h0
        · exfalso; apply h2
          rw [← hE]
          ext x
          rw [mem_maskSet hnd, h0]
          simp
        · exact h0
      omega

end Verif.Steiner
