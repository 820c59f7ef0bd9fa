import Verif.Model.ConnectivitySet
import Mathlib.Tactic.Ring
namespace Verif

/-- bit `i` of a sequence of 64-bit words -/
def wbit (word : Nat → BitVec 64) (i : Nat) : Bool := (word (i / 64)).getLsbD (i % 64)

theorem ctz64_spec {x : BitVec 64} (hx : x ≠ 0) :
    ctz64 x < 64 ∧ x.getLsbD (ctz64 x) = true ∧ ∀ j, j < ctz64 x → x.getLsbD j = false := by
  unfold ctz64
  cases hf : (List.range 64).find? (fun i => x.getLsbD i) with
  | none =>
    exfalso; apply hx
    rw [List.find?_eq_none] at hf
    apply BitVec.eq_of_getLsbD_eq
    intro i hi
    have := hf i (List.mem_range.2 hi)
    simpa using this
  | some i =>
    simp only [Option.getD_some]
    have h1 := List.find?_some hf
    have h2 := List.mem_of_find?_eq_some hf
    refine ⟨List.mem_range.1 h2, h1, ?_⟩
    intro j hj
    rw [List.find?_range_eq_some] at hf
    have := hf.2.2 j hj
    simpa using this

namespace OneBit

variable {word : Nat → BitVec 64}

/-- The scan stops at the first position of a block that still contains a set bit. -/
theorem scan_spec (n : Nat) (c : Nat) (b : BitVec 64) (hc : c ≤ n * 64) :
    let r := scan word (n * 64) c b
    c ≤ r.1 ∧ r.1 ≤ n * 64 ∧ (∀ i, c ≤ i → i < r.1 → wbit word i = false) ∧
      (r.1 < n * 64 → r.2 = word (r.1 / 64) ∧ r.2 >>> (r.1 % 64) ≠ 0) := by
  fun_induction scan word (n * 64) c b with
  | case1 c b h b' hb =>
    simp only [ne_eq] at hb
    exact ⟨Nat.le_refl _, hc, fun i h1 h2 => by omega, fun _ => ⟨rfl, hb⟩⟩
  | case2 c b h b' hb ih =>
    have hm := Nat.mod_lt c (by decide : 64 > 0)
    have hle : c + (64 - c % 64) ≤ n * 64 := by omega
    obtain ⟨h1, h2, h3, h4⟩ := ih hle
    refine ⟨by omega, h2, ?_, h4⟩
    intro i hi1 hi2
    by_cases hlt : i < c + (64 - c % 64)
    · have hd : i / 64 = c / 64 := by omega
      have hz : b' >>> (c % 64) = 0 := by simpa using hb
      have : (b' >>> (c % 64)).getLsbD (i % 64 - c % 64) = false := by rw [hz]; simp
      rw [BitVec.getLsbD_ushiftRight] at this
      unfold wbit
      rw [hd]
      have he : c % 64 + (i % 64 - c % 64) = i % 64 := by omega
      rw [he] at this
      exact this
    · exact h3 i (by omega) hi2
  | case3 c b h =>
    exact ⟨Nat.le_refl _, hc, fun i h1 h2 => by omega, fun h' => absurd h' h⟩

/-- `next c` is the least set position `≥ c`, or the end. -/
theorem next_spec (n c : Nat) (hc : c ≤ n * 64) :
    let x := next word (n * 64) c
    c ≤ x ∧ x ≤ n * 64 ∧ (∀ i, c ≤ i → i < x → wbit word i = false) ∧
      (x < n * 64 → wbit word x = true) := by
  obtain ⟨h1, h2, h3, h4⟩ := scan_spec (word := word) n c 0 hc
  simp only [next]
  generalize scan word (n * 64) c 0 = r at *
  split
  · rename_i he
    rw [he] at h3 h1
    exact ⟨h1, Nat.le_refl _, h3, fun h => absurd h (Nat.lt_irrefl _)⟩
  · rename_i hne
    obtain ⟨h5, h6⟩ := h4 (by omega)
    have hm1 : max1 (r.2 >>> (r.1 % 64)) = r.2 >>> (r.1 % 64) := by
      unfold max1; rw [if_neg h6]
    rw [hm1]
    obtain ⟨c1, c2, c3⟩ := ctz64_spec h6
    generalize ctz64 (r.2 >>> (r.1 % 64)) = z at *
    rw [BitVec.getLsbD_ushiftRight] at c2
    have hz64 : r.1 % 64 + z < 64 := by
      by_contra hge
      have := BitVec.getLsbD_of_ge r.2 (r.1 % 64 + z) (by omega)
      rw [this] at c2; exact absurd c2 (by simp)
    have hlt : r.1 + z < n * 64 := by omega
    refine ⟨by omega, by omega, ?_, ?_⟩
    · intro i hi1 hi2
      by_cases hl : i < r.1
      · exact h3 i hi1 hl
      · have hj := c3 (i - r.1) (by omega)
        rw [BitVec.getLsbD_ushiftRight, h5] at hj
        unfold wbit
        have e1 : i / 64 = r.1 / 64 := by omega
        have e2 : i % 64 = r.1 % 64 + (i - r.1) := by omega
        rw [e1, e2]; exact hj
    · intro _
      unfold wbit
      have e1 : (r.1 + z) / 64 = r.1 / 64 := by omega
      have e2 : (r.1 + z) % 64 = r.1 % 64 + z := by omega
      rw [e1, e2, ← h5]; exact c2

theorem filter_range'_first {p : Nat → Bool} {c x N : Nat} (h1 : c ≤ x) (h2 : x < N)
    (h3 : ∀ i, c ≤ i → i < x → p i = false) (h4 : p x = true) :
    (List.range' c (N - c)).filter p = x :: (List.range' (x + 1) (N - (x + 1))).filter p := by
  have hsplit : List.range' c (N - c) =
      List.range' c (x - c) ++ x :: List.range' (x + 1) (N - (x + 1)) := by
    have e1 : N - c = (x - c) + (N - x) := by omega
    rw [e1, ← List.range'_append_1]
    have e2 : c + (x - c) = x := by omega
    have e3 : N - x = (N - (x + 1)) + 1 := by omega
    rw [e2, e3, List.range'_succ]
  rw [hsplit, List.filter_append, List.filter_cons_of_pos h4]
  have : (List.range' c (x - c)).filter p = [] := by
    rw [List.filter_eq_nil_iff]
    intro i hi
    rw [List.mem_range'_1] at hi
    rw [h3 i hi.1 (by omega)]; simp
  rw [this, List.nil_append]

theorem collect_spec (n : Nat) (fuel : Nat) : ∀ c, c ≤ n * 64 → n * 64 - c < fuel →
    collect word (n * 64) fuel (next word (n * 64) c) =
      (List.range' c (n * 64 - c)).filter (wbit word) := by
  induction fuel with
  | zero => intro c _ h; omega
  | succ f ih =>
    intro c hc hf
    obtain ⟨h1, h2, h3, h4⟩ := next_spec (word := word) n c hc
    rw [collect]
    generalize next word (n * 64) c = x at *
    split
    · rename_i he; subst he
      symm; rw [List.filter_eq_nil_iff]
      intro i hi
      rw [List.mem_range'_1] at hi
      rw [h3 i hi.1 (by omega)]; simp
    · rename_i hne
      rw [ih (x + 1) (by omega) (by omega)]
      exact (filter_range'_first h1 (by omega) h3 (h4 (by omega))).symm

/-- The iterator yields exactly the set positions in ascending order. -/
theorem iterate_eq (n fuel : Nat) (hf : n * 64 < fuel) :
    iterate fuel word n = (List.range (n * 64)).filter (wbit word) := by
  unfold iterate
  rw [collect_spec n fuel 0 (by omega) (by omega), Nat.sub_zero, List.range_eq_range']

end OneBit

namespace ConnSets

theorem one_shl_bit (p i : Nat) (hp : p < 64) :
    ((1 : BitVec 64) <<< p).getLsbD i = decide (i = p) := by
  rw [BitVec.getLsbD_shiftLeft]
  by_cases h : i = p
  · subst h; simp [hp]
  · by_cases h2 : i < p
    · simp [h, h2]
    · have : i - p ≠ 0 := by omega
      simp [h, this]

theorem contains_eq (s : ConnSets) (e p : Nat) :
    s.contains e p = wbit (fun i => s.bits (e * s.blocks + i)) p := by
  have hm : p % 64 < 64 := Nat.mod_lt _ (by decide)
  unfold contains wbit
  simp only []
  generalize s.bits (e * s.blocks + p / 64) = w
  cases hw : w.getLsbD (p % 64) with
  | false =>
    have : w &&& (1 : BitVec 64) <<< (p % 64) = 0 := by
      apply BitVec.eq_of_getLsbD_eq
      intro i hi
      rw [BitVec.getLsbD_and, one_shl_bit _ _ hm]
      by_cases h : i = p % 64
      · subst h; simp [hw]
      · simp [h]
    simpa using this
  | true =>
    have : w &&& (1 : BitVec 64) <<< (p % 64) ≠ 0 := by
      intro h0
      have := congrArg (fun x => BitVec.getLsbD x (p % 64)) h0
      simp only [BitVec.getLsbD_and, one_shl_bit _ _ hm] at this
      simp [hw] at this
    simpa using this

theorem connSet_eq (s : ConnSets) (e : Nat) :
    s.connSet e = (List.range (s.blocks * 64)).filter (s.contains e) := by
  unfold connSet
  rw [OneBit.iterate_eq _ _ (by omega)]
  congr 1
  funext p
  rw [contains_eq]

theorem toggle_contains (s : ConnSets) {e p e' p' : Nat} (hp : p / 64 < s.blocks)
    (hp' : p' / 64 < s.blocks) : (s.toggle e p).contains e' p' =
      if e' = e ∧ p' = p then !(s.contains e p) else s.contains e' p' := by
  rw [contains_eq, contains_eq, contains_eq]
  unfold wbit toggle
  simp only []
  have hm : p % 64 < 64 := Nat.mod_lt _ (by decide)
  by_cases hw : e' * s.blocks + p' / 64 = e * s.blocks + p / 64
  · have hee : e' = e := by
      generalize p / 64 = x at *
      generalize p' / 64 = y at *
      rcases Nat.lt_trichotomy e' e with hlt | heq | hgt
      · have h3 : (e' + 1) * s.blocks ≤ e * s.blocks := Nat.mul_le_mul_right _ hlt
        have h4 : (e' + 1) * s.blocks = e' * s.blocks + s.blocks := by ring
        omega
      · exact heq
      · have h3 : (e + 1) * s.blocks ≤ e' * s.blocks := Nat.mul_le_mul_right _ hgt
        have h4 : (e + 1) * s.blocks = e * s.blocks + s.blocks := by ring
        omega
    subst hee
    have hdiv : p' / 64 = p / 64 := by omega
    rw [if_pos hw, hdiv, BitVec.getLsbD_xor, one_shl_bit _ _ hm]
    by_cases hpp : p' = p
    · subst hpp; simp
    · have : p' % 64 ≠ p % 64 := by omega
      simp [hpp, this]
  · rw [if_neg hw]
    have : ¬ (e' = e ∧ p' = p) := by rintro ⟨rfl, rfl⟩; exact hw rfl
    rw [if_neg this]

theorem popcount_sum (word : Nat → BitVec 64) (n : Nat) :
    (List.range n).foldl (fun acc i => acc + popcount64 (word i)) 0 =
      ((List.range (n * 64)).filter (wbit word)).length := by
  induction n with
  | zero => simp
  | succ n ih =>
    rw [List.range_succ, List.foldl_append, ih]
    have e1 : (n + 1) * 64 = n * 64 + 64 := by ring
    rw [e1, List.range_add, List.filter_append, List.length_append]
    simp only [List.foldl_cons, List.foldl_nil]
    congr 1
    unfold popcount64
    rw [List.countP_eq_length_filter, List.filter_map, List.length_map]
    congr 1
    apply List.filter_congr
    intro i hi
    rw [List.mem_range] at hi
    simp only [Function.comp, wbit]
    have a1 : (n * 64 + i) / 64 = n := by omega
    have a2 : (n * 64 + i) % 64 = i := by omega
    rw [a1, a2]

theorem connectivity_eq (s : ConnSets) (e : Nat) :
    s.connectivity e = (s.connSet e).length := by
  unfold connectivity connSet
  rw [OneBit.iterate_eq _ _ (by omega), popcount_sum]

theorem init_blocks_le (k : Nat) : k ≤ (init k).blocks * 64 := by
  unfold init; simp only []
  split <;> omega

theorem init_contains (k e p : Nat) : (init k).contains e p = false := by
  rw [contains_eq]; simp [wbit, init]

theorem div_lt {k p : Nat} (h : p < k) : p / 64 < (init k).blocks := by
  have := init_blocks_le k; omega

end ConnSets
end Verif
