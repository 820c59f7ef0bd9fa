import Verif.Lemmas.Steiner2
import Verif.Lemmas.Steiner3
/-!
# Indices of block sets
-/
namespace Verif.Steiner

theorem bitsOf_sorted (n : Nat) (X : Finset Nat) : (bitsOf n X).Pairwise (· < ·) :=
  List.Pairwise.filter _ List.pairwise_lt_range

theorem bitsOf_lt {n : Nat} {X : Finset Nat} : ∀ x ∈ bitsOf n X, x < n := fun _ h => (mem_bitsOf.1 h).1

theorem bitsOf_length {n : Nat} {X : Finset Nat} (h : ∀ x ∈ X, x < n) : (bitsOf n X).length = X.card := by
  rw [← List.toFinset_card_of_nodup (bitsOf_nodup n X)]
  congr 1
  ext x
  rw [List.mem_toFinset, mem_bitsOf]
  exact ⟨fun h => h.2, fun hx => ⟨h x hx, hx⟩⟩

theorem idxLoop_foldl (k : Nat) (l : List Nat) : ∀ i mu last, l.foldl (idxLoop k) (i, mu, last) =
    (i + mu * val k l, mu * k ^ l.length, l.getLastD last) := by
  induction l with
  | nil => intro i mu last; simp [val]
  | cons b l ih =>
    intro i mu last
    rw [List.foldl_cons]
    unfold idxLoop
    simp only
    rw [show (fun s b => (s.1 + s.2.1 * b, s.2.1 * k, b)) = idxLoop k from rfl, ih]
    simp only [val, List.length_cons, Prod.mk.injEq]
    refine ⟨by ring, by ring, ?_⟩
    rw [List.getLastD_cons]

/-- digits of the index -/
def digits (l : List Nat) : List Nat := match l with
  | [a] => [a, a]
  | l => l

theorem setIdx_eq {k : Nat} (hk : 2 ≤ k) (X : Finset Nat) : setIdx k X = val k (digits (bitsOf k X)) := by
  unfold setIdx
  rw [idxLoop_foldl]
  simp only [Nat.zero_add, Nat.one_mul]
  generalize bitsOf k X = l
  match l with
  | [] => simp [val, digits]
  | [a] => simp [val, digits]; ring
  | a :: b :: l =>
    have : k ^ (a :: b :: l).length ≠ k := by
      intro h
      have : k ^ 2 ≤ k ^ (a :: b :: l).length := Nat.pow_le_pow_right (by omega) (by simp)
      rw [h] at this
      have : k * 2 ≤ k * k := Nat.mul_le_mul_left _ hk
      rw [Nat.pow_two] at *
      omega
    rw [if_neg this]
    rfl

theorem val_digits {k : Nat} (hk : 0 < k) : ∀ (l : List Nat), (∀ x ∈ l, x < k) → ∀ (m : List Nat), (∀ x ∈ m, x < k) →
    val k l = val k m → ∀ i, l.getD i 0 = m.getD i 0 := by
  have hzero : ∀ (m : List Nat), val k m = 0 → ∀ i, m.getD i 0 = 0 := by
    intro m
    induction m with
    | nil => intro _ i; simp
    | cons c m ih =>
      intro h i
      simp only [val] at h
      have h1 : c = 0 := by omega
      have h2 : val k m = 0 := by
        have : k * val k m = 0 := by omega
        rcases Nat.mul_eq_zero.1 this with h | h
        · omega
        · exact h
      cases i with
      | zero => simp [h1]
      | succ i => simpa using ih h2 i
  intro l
  induction l with
  | nil =>
    intro _ m hm h i
    rw [hzero m (by simpa [val] using h.symm) i]; simp
  | cons c l ih =>
    intro hl m hm h i
    cases m with
    | nil =>
      rw [hzero (c :: l) (by simpa [val] using h) i]; simp
    | cons d m =>
      simp only [val] at h
      have hc := hl c (by simp)
      have hd := hm d (by simp)
      have h1 : c = d := by
        have : (c + k * val k l) % k = (d + k * val k m) % k := by rw [h]
        rwa [Nat.add_mul_mod_self_left, Nat.add_mul_mod_self_left, Nat.mod_eq_of_lt hc, Nat.mod_eq_of_lt hd] at this
      subst h1
      have h2 : val k l = val k m := by
        have : k * val k l = k * val k m := by omega
        exact Nat.eq_of_mul_eq_mul_left hk this
      cases i with
      | zero => simp
      | succ i =>
        have := ih (fun x hx => hl x (by simp [hx])) m (fun x hx => hm x (by simp [hx])) h2 i
        simpa using this

theorem digits_lt {k : Nat} {l : List Nat} (h : ∀ x ∈ l, x < k) : ∀ x ∈ digits l, x < k := by
  unfold digits
  split
  · intro x hx; simp at hx; subst hx; exact h x (by simp)
  · exact h

/-- entries after the first one are positive in an increasing list -/
theorem sorted_pos {l : List Nat} (h : l.Pairwise (· < ·)) {i : Nat} (hi : 0 < i) (hl : i < l.length) : 0 < l.getD i 0 := by
  have := List.pairwise_iff_getElem.1 h 0 i (by omega) hl hi
  rw [List.getD_eq_getElem?_getD, List.getElem?_eq_getElem hl]
  simp only [Option.getD_some]
  omega

theorem digits_inj {l m : List Nat} (hl : l.Pairwise (· < ·)) (hm : m.Pairwise (· < ·)) (hln : l ≠ []) (hmn : m ≠ [])
    (h : ∀ i, (digits l).getD i 0 = (digits m).getD i 0) : l = m := by
  have big : ∀ (l m : List Nat), l.Pairwise (· < ·) → m.Pairwise (· < ·) → 2 ≤ l.length → (∀ i, l.getD i 0 = m.getD i 0) →
      m.length ≤ l.length := by
    intro l m _ hm h2 h
    by_contra hlt
    have h3 := sorted_pos hm (i := l.length) (by omega) (by omega)
    rw [← h, List.getD_eq_getElem?_getD, List.getElem?_eq_none (Nat.le_refl _)] at h3
    simp at h3
  match l, m with
  | [], _ => exact absurd rfl hln
  | _, [] => exact absurd rfl hmn
  | [a], [b] => have := h 0; simp [digits] at this; rw [this]
  | [a], b :: c :: m =>
    exfalso
    have h0 := h 0
    have h1 := h 1
    simp [digits] at h0 h1
    have := List.pairwise_iff_getElem.1 hm 0 1 (by simp) (by simp) (by omega)
    simp at this
    omega
  | b :: c :: l, [a] =>
    exfalso
    have h0 := h 0
    have h1 := h 1
    simp [digits] at h0 h1
    have := List.pairwise_iff_getElem.1 hl 0 1 (by simp) (by simp) (by omega)
    simp at this
    omega
  | a :: b :: l, c :: d :: m =>
    have h' : ∀ i, (a :: b :: l).getD i 0 = (c :: d :: m).getD i 0 := h
    have e1 := big _ _ hl hm (by simp) h'
    have e2 := big _ _ hm hl (by simp) (fun i => (h' i).symm)
    apply List.ext_getElem (by omega)
    intro i hi1 hi2
    have := h' i
    rwa [List.getD_eq_getElem?_getD, List.getD_eq_getElem?_getD, List.getElem?_eq_getElem hi1, List.getElem?_eq_getElem hi2] at this

theorem bitsOf_ne_nil {n : Nat} {X : Finset Nat} (h : ∀ x ∈ X, x < n) (hne : X.Nonempty) : bitsOf n X ≠ [] := by
  obtain ⟨x, hx⟩ := hne
  intro he
  have : x ∈ bitsOf n X := mem_bitsOf.2 ⟨h x hx, hx⟩
  rw [he] at this
  simp at this

/-- distinct sets have distinct indices -/
theorem setIdx_inj {k : Nat} (hk : 2 ≤ k) {X Y : Finset Nat} (hX : ∀ x ∈ X, x < k) (hY : ∀ x ∈ Y, x < k) (hXn : X.Nonempty)
    (hYn : Y.Nonempty) (h : setIdx k X = setIdx k Y) : X = Y := by
  rw [setIdx_eq hk, setIdx_eq hk] at h
  have h1 := val_digits (by omega) _ (digits_lt bitsOf_lt) _ (digits_lt bitsOf_lt) h
  have h2 := digits_inj (bitsOf_sorted k X) (bitsOf_sorted k Y) (bitsOf_ne_nil hX hXn) (bitsOf_ne_nil hY hYn) h1
  ext x
  constructor
  · intro hx
    have : x ∈ bitsOf k X := mem_bitsOf.2 ⟨hX x hx, hx⟩
    rw [h2] at this
    exact (mem_bitsOf.1 this).2
  · intro hx
    have : x ∈ bitsOf k Y := mem_bitsOf.2 ⟨hY x hx, hx⟩
    rw [← h2] at this
    exact (mem_bitsOf.1 this).2

/-- index of a pair of nodes -/
theorem setIdx_pair {k a b : Nat} (hk : 2 ≤ k) (hab : a ≤ b) (hb : b < k) : setIdx k {a, b} = idx2 k a b := by
  rw [setIdx_eq hk]
  have hl : ∀ x, x ∈ bitsOf k {a, b} ↔ x = a ∨ x = b := by
    intro x
    rw [mem_bitsOf]
    simp only [Finset.mem_insert, Finset.mem_singleton]
    constructor
    · exact fun h => h.2
    · rintro (rfl | rfl)
      · exact ⟨by omega, Or.inl rfl⟩
      · exact ⟨hb, Or.inr rfl⟩
  have hs := bitsOf_sorted k {a, b}
  have huniq : ∀ l : List Nat, l.Pairwise (· < ·) → (∀ x, x ∈ l ↔ x = a ∨ x = b) → l = if a = b then [a] else [a, b] := by
    intro l hp hm
    have hex : (if a = b then [a] else [a, b]).Pairwise (· < ·) := by
      split_ifs
      · simp
      · simp; omega
    refine List.Perm.eq_of_pairwise (fun x y _ _ h1 h2 => by omega) hp hex ?_
    refine (List.perm_ext_iff_of_nodup (hp.imp (fun h => Nat.ne_of_lt h)) (hex.imp (fun h => Nat.ne_of_lt h))).2 ?_
    intro x
    rw [hm]
    split_ifs with h
    · subst h; simp
    · simp
  rw [huniq _ hs hl]
  split_ifs with h
  · subst h; simp [digits, val, idx2]; ring
  · simp [digits, val, idx2]; ring

theorem setIdx_single {k a : Nat} (hk : 2 ≤ k) (ha : a < k) : setIdx k {a} = idx2 k a a := by
  have := setIdx_pair hk (Nat.le_refl a) ha
  simpa using this

/-- an index of a set is an index of an (ordered) pair only for sets of at most two elements -/
theorem setIdx_eq_idx2 {k u v : Nat} (hk : 2 ≤ k) {X : Finset Nat} (hX : ∀ x ∈ X, x < k) (hXn : X.Nonempty) (hu : u < k) (hv : v < k)
    (h : setIdx k X = idx2 k u v) : X = {u, v} := by
  by_cases huv : u ≤ v
  · rw [← setIdx_pair hk huv hv] at h
    refine setIdx_inj hk hX ?_ hXn ⟨u, by simp⟩ h
    intro x hx
    simp only [Finset.mem_insert, Finset.mem_singleton] at hx
    rcases hx with rfl | rfl <;> assumption
  · exfalso
    rw [setIdx_eq hk, show idx2 k u v = val k [u, v] by simp [val, idx2]; ring] at h
    have h1 := val_digits (by omega) _ (digits_lt bitsOf_lt) _ (by
      intro x hx; simp at hx; rcases hx with rfl | rfl <;> assumption) h
    have hs := bitsOf_sorted k X
    have hne := bitsOf_ne_nil hX hXn
    generalize bitsOf k X = l at h1 hs hne
    match l with
    | [] => exact hne rfl
    | [a] =>
      have h0 := h1 0
      have h2 := h1 1
      simp [digits] at h0 h2
      omega
    | a :: b :: l =>
      have h0 := h1 0
      have h2 := h1 1
      simp [digits] at h0 h2
      have := List.pairwise_iff_getElem.1 hs 0 1 (by simp) (by simp) (by omega)
      simp at this
      omega

theorem val_lt' {k : Nat} (hk : 0 < k) : ∀ l : List Nat, (∀ x ∈ l, x < k) → val k l < k ^ l.length := by
  intro l
  induction l with
  | nil => intro _; simp [val]
  | cons c l ih =>
    intro h
    have h1 := h c (by simp)
    have := ih (fun x hx => h x (by simp [hx]))
    simp only [val, List.length_cons]
    have h2 : k * (val k l + 1) ≤ k * k ^ l.length := Nat.mul_le_mul_left _ this
    rw [Nat.mul_add] at h2
    rw [Nat.pow_succ, Nat.mul_comm (k ^ l.length)]
    omega

/-- indices of sets of at most `s` blocks are within a table of `k^s` entries -/
theorem setIdx_lt {k s : Nat} (hk : 2 ≤ k) (hs : 2 ≤ s) {X : Finset Nat} (hX : ∀ x ∈ X, x < k) (hc : X.card ≤ s) : setIdx k X < k ^ s := by
  rw [setIdx_eq hk]
  refine lt_of_lt_of_le (val_lt' (by omega) _ (digits_lt bitsOf_lt)) (Nat.pow_le_pow_right (by omega) ?_)
  rw [← bitsOf_length hX] at hc
  generalize bitsOf k X = l at hc
  match l with
  | [] => simp [digits]
  | [a] => simpa [digits] using hs
  | a :: b :: l => exact hc

end Verif.Steiner
