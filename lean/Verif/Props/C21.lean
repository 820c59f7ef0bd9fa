import Verif.Lemmas.FileIO1
import Verif.Lemmas.Maps
/-!
# C21: partition files

`Text.PartText vs s` (Spec/FileFormat.lean): the text `s` consists of the integers `vs` separated by white space.
-/
namespace Verif
namespace FileIO
open Text
open SMap (wr)

theorem isSpace_iff (c : Char) : isSpace c = true ↔ White c := by
  simp [isSpace, White, or_assoc]

theorem isDigit_iff (c : Char) : isDigit c = true ↔ ('0' ≤ c ∧ c ≤ '9') := by simp [isDigit]

theorem white_not_digit {c : Char} (h : White c) : isDigit c = false := by
  rcases h with h | h | h | h | h | h <;> subst h <;> decide

theorem digit_not_white {c : Char} (h : '0' ≤ c ∧ c ≤ '9') : isSpace c = false := by
  cases hs : isSpace c with
  | false => rfl
  | true =>
    have := white_not_digit ((isSpace_iff c).1 hs)
    rw [(isDigit_iff c).2 h] at this
    cases this

theorem dropWhile_all {p : Char → Bool} {a b : List Char} (ha : ∀ c ∈ a, p c = true) (hb : ∀ c t, b = c :: t → p c = false) : (a ++ b).dropWhile p = b := by
  induction a with
  | nil =>
    cases b with
    | nil => rfl
    | cons c t => simp [List.dropWhile_cons, hb c t rfl]
  | cons c a ih =>
    rw [List.cons_append, List.dropWhile_cons, if_pos (ha c (by simp))]
    exact ih (fun x hx => ha x (List.mem_cons_of_mem _ hx))

theorem takeWhile_all {p : Char → Bool} {a b : List Char} (ha : ∀ c ∈ a, p c = true) (hb : ∀ c t, b = c :: t → p c = false) : (a ++ b).takeWhile p = a := by
  induction a with
  | nil =>
    cases b with
    | nil => rfl
    | cons c t => simp [List.takeWhile_cons, hb c t rfl]
  | cons c a ih =>
    rw [List.cons_append, List.takeWhile_cons, if_pos (ha c (by simp)), ih (fun x hx => ha x (List.mem_cons_of_mem _ hx))]

theorem decVal_eq (ds : List Char) : decVal ds = value ds := rfl

/-- reading one integer -/
theorem readInt_spec {v : Int} {ws ds t : List Char} (hw : ∀ c ∈ ws, White c) (hs : Signed v ds) (ht : t = [] ∨ ∃ c t', t = c :: t' ∧ White c)
    (hv : -2147483648 ≤ v ∧ v ≤ 2147483647) : readInt (ws ++ (ds ++ t)) = some (v, t) := by
  obtain ⟨n, digs, hn, hcase⟩ := hs
  have htd : ∀ c t', t = c :: t' → isDigit c = false := by
    intro c t' h
    rcases ht with rfl | ⟨c', t'', rfl, h'⟩
    · cases h
    · injection h with h1 h2
      subst h1
      exact white_not_digit h'
  have hdig : ∀ c ∈ digs, isDigit c = true := fun c hc => (isDigit_iff c).2 (hn.2.1 c hc)
  have hval : decVal digs = n := hn.2.2
  have htake : (digs ++ t).takeWhile isDigit = digs := takeWhile_all hdig htd
  have hdrop : (digs ++ t).dropWhile isDigit = t := dropWhile_all hdig htd
  have hfirst : ∀ c r, digs ++ t = c :: r → '0' ≤ c ∧ c ≤ '9' := by
    intro c r h
    cases digs with
    | nil => exact absurd rfl hn.1
    | cons d digs => injection h with h1 _; subst h1; exact hn.2.1 d (by simp)
  have hdw : (ws ++ (ds ++ t)).dropWhile isSpace = ds ++ t := by
    apply dropWhile_all (fun c hc => (isSpace_iff c).2 (hw c hc))
    intro c r h
    rcases hcase with ⟨rfl, -⟩ | ⟨rfl, -⟩ | ⟨rfl, -⟩
    · exact digit_not_white (hfirst c r h)
    · injection h with h1 _; subst h1; decide
    · injection h with h1 _; subst h1; decide
  unfold readInt
  dsimp only
  rw [hdw]
  rcases hcase with ⟨rfl, rfl⟩ | ⟨rfl, rfl⟩ | ⟨rfl, rfl⟩
  · cases ds with
    | nil => exact absurd rfl hn.1
    | cons d ds =>
      have hd := hn.2.1 d (by simp)
      have h1 : d ≠ '-' := by rintro rfl; revert hd; decide
      have h2 : d ≠ '+' := by rintro rfl; revert hd; decide
      have : signOf (d :: ds ++ t) = (false, d :: ds ++ t) := by
        simp [signOf, h1, h2]
      rw [this]
      dsimp only
      rw [htake, hdrop, hval, if_neg hn.1]
      simp only [Bool.false_eq_true, if_false]
      rw [if_neg (by omega)]
  · have : signOf ('+' :: digs ++ t) = (false, digs ++ t) := rfl
    rw [this]
    dsimp only
    rw [htake, hdrop, hval, if_neg hn.1]
    simp only [Bool.false_eq_true, if_false]
    rw [if_neg (by omega)]
  · have : signOf ('-' :: digs ++ t) = (true, digs ++ t) := rfl
    rw [this]
    dsimp only
    rw [htake, hdrop, hval, if_neg hn.1]
    simp only [if_true]
    rw [if_neg (by omega)]

theorem readInt_white {ws : List Char} (hw : ∀ c ∈ ws, White c) : readInt ws = none := by
  have : ws.dropWhile isSpace = [] := by
    have := dropWhile_all (p := isSpace) (a := ws) (b := []) (fun c hc => (isSpace_iff c).2 (hw c hc)) (by intro c t h; cases h)
    simpa using this
  unfold readInt
  dsimp only
  rw [this]
  rfl

theorem readPartLoop_spec {n : Nat} {vs : List Int} {s : List Char} (h : PartText vs s) : ∀ (fuel : Nat) (acc : List Int),
    (∀ v ∈ vs, -2147483648 ≤ v ∧ v ≤ 2147483647) → s.length < fuel → acc.length ≤ n →
    readPartLoop n fuel s acc = if acc.length + vs.length = n then .ok (acc ++ vs) else .error .parse := by
  induction h with
  | @nil ws hw =>
    intro fuel acc _ hf ha
    obtain ⟨fuel, rfl⟩ : ∃ k, fuel = k + 1 := ⟨fuel - 1, by omega⟩
    unfold readPartLoop
    rw [readInt_white hw]
    simp only [List.length_nil, Nat.add_zero, List.append_nil]
    by_cases hc : acc.length = n
    · rw [if_pos hc, if_neg (by omega)]
    · rw [if_neg hc, if_pos (by omega)]
  | @cons v vs ws ds t hw hs ht _ ih =>
    intro fuel acc hv hf ha
    obtain ⟨fuel, rfl⟩ : ∃ k, fuel = k + 1 := ⟨fuel - 1, by omega⟩
    have hds : 0 < ds.length := by
      obtain ⟨n, digs, hn, hc⟩ := hs
      have := List.length_pos_iff.2 hn.1
      rcases hc with ⟨rfl, -⟩ | ⟨rfl, -⟩ | ⟨rfl, -⟩ <;> simp <;> omega
    unfold readPartLoop
    rw [readInt_spec hw hs ht (hv v (by simp))]
    dsimp only
    simp only [List.length_append] at hf
    by_cases hc : acc.length ≥ n
    · rw [if_pos hc, if_neg (by simp; omega)]
    · rw [if_neg hc, ih fuel (acc ++ [v]) (fun x hx => hv x (List.mem_cons_of_mem _ hx)) (by omega) (by simp; omega)]
      simp only [List.length_append, List.length_cons, List.length_nil, List.append_assoc, List.singleton_append]
      have : (acc.length + (0 + 1) + vs.length = n) ↔ (acc.length + (vs.length + 1) = n) := by omega
      simp only [this]

/-- **C21**: reading a text with the integers `vs` for `n` nodes returns these integers if there are `n` of them and
reports an error otherwise. -/
theorem C21_read_partition (n : Nat) (vs : List Int) (s : List Char) (hs : PartText vs s) (hv : ∀ v ∈ vs, -2147483648 ≤ v ∧ v ≤ 2147483647) :
    readPartition n s = if vs.length = n then .ok vs else .error .parse := by
  unfold readPartition
  rw [readPartLoop_spec hs _ _ hv (by omega) (by simp)]
  simp

theorem numeral_toDigits (n : Nat) : Numeral n (Nat.toDigits 10 n) := by
  refine ⟨Nat.toDigits_ne_nil, ?_, ?_⟩
  · intro c hc
    have := Nat.isDigit_of_mem_toDigits (by omega) (by omega) hc
    simp only [Char.isDigit, Bool.and_eq_true, decide_eq_true_eq] at this
    exact this
  · have h := Nat.ofDigitChars_ten_toDigits (n := n)
    rw [Nat.ofDigitChars_eq_foldl] at h
    unfold value
    have e0 : '0'.toNat = 48 := by decide
    rw [e0] at h
    refine Eq.trans ?_ h
    congr 1
    funext a c
    omega

theorem signed_showInt (v : Int) : Signed v (showInt v) := by
  refine ⟨v.natAbs, Nat.toDigits 10 v.natAbs, numeral_toDigits _, ?_⟩
  unfold showInt
  split
  · exact Or.inr (Or.inr ⟨rfl, by omega⟩)
  · exact Or.inl ⟨rfl, by omega⟩

theorem partText_write (vs : List Int) (ws : List Char) (hw : ∀ c ∈ ws, White c) : ∃ t, ws ++ ((vs.map (fun v => showInt v ++ ['\n'])).flatten) = t ∧ PartText vs t := by
  induction vs generalizing ws with
  | nil => exact ⟨_, rfl, by simpa using PartText.nil hw⟩
  | cons v vs ih =>
    obtain ⟨t, h1, h2⟩ := ih ['\n'] (by simp [White])
    refine ⟨ws ++ (showInt v ++ t), ?_, ?_⟩
    · rw [← h1]; simp
    · exact PartText.cons hw (signed_showInt v) (Or.inr ⟨'\n', _, h1.symm, by simp [White]⟩) h2

theorem fold_wr (nodes : List Nat) (part : Nat → Int) (a : Nat → Int) (v : Nat) :
    nodes.foldl (fun (a : Nat → Int) v => wr a v (part v)) a v = if v ∈ nodes then part v else a v := by
  induction nodes generalizing a with
  | nil => rfl
  | cons x nodes ih =>
    rw [List.foldl_cons, ih]
    by_cases hv : v ∈ nodes
    · rw [if_pos hv, if_pos (List.mem_cons_of_mem _ hv)]
    · rw [if_neg hv]
      by_cases hx : v = x
      · subst hx; rw [wr_same, if_pos (by simp)]
      · rw [wr_other _ _ hx, if_neg (by simp [hx, hv])]

/-- the written file consists of the block ids of the nodes in order, `-1` for nodes that are not part of the hypergraph -/
theorem C21_written_text (n : Nat) (nodes : List Nat) (part : Nat → Int) :
    PartText ((List.range n).map (fun v => if v ∈ nodes then part v else -1)) (writePartition n nodes part) := by
  obtain ⟨t, h1, h2⟩ := partText_write ((List.range n).map (fun v => if v ∈ nodes then part v else -1)) [] (by simp)
  have : writePartition n nodes part = t := by
    rw [← h1]
    unfold writePartition
    dsimp only
    rw [List.nil_append, List.map_map]
    congr 1
    apply List.map_congr_left
    intro v _
    simp only [Function.comp_apply]
    rw [fold_wr]
  rw [this]
  exact h2

/-- **C21**: writing a partition and reading it back yields the same block ids, for every number of nodes, every
assignment of 32-bit block ids and every order in which the nodes are visited. -/
theorem C21_round_trip (n : Nat) (nodes : List Nat) (hnodes : ∀ v, v ∈ nodes ↔ v < n) (part : Nat → Int)
    (hp : ∀ v < n, -2147483648 ≤ part v ∧ part v ≤ 2147483647) :
    readPartition n (writePartition n nodes part) = .ok ((List.range n).map part) := by
  have heq : (List.range n).map (fun v => if v ∈ nodes then part v else -1) = (List.range n).map part := by
    apply List.map_congr_left
    intro v hv
    rw [if_pos ((hnodes v).2 (List.mem_range.1 hv))]
  have h := C21_written_text n nodes part
  rw [heq] at h
  rw [C21_read_partition n _ _ h (by
    intro v hv
    obtain ⟨u, hu, rfl⟩ := List.mem_map.1 hv
    exact hp u (List.mem_range.1 hu))]
  rw [if_pos (by simp)]

/-- **C21**: reading the written partition for a hypergraph with another number of nodes is an error. -/
theorem C21_wrong_size (n m : Nat) (hm : m ≠ n) (nodes : List Nat) (part : Nat → Int)
    (hp : ∀ v < n, -2147483648 ≤ part v ∧ part v ≤ 2147483647) :
    readPartition m (writePartition n nodes part) = .error .parse := by
  rw [C21_read_partition m _ _ (C21_written_text n nodes part) (by
    intro v hv
    obtain ⟨u, hu, rfl⟩ := List.mem_map.1 hv
    have := hp u (List.mem_range.1 hu)
    split
    · exact this
    · omega)]
  rw [if_neg (by simp; omega)]

/-- **Finding**: reading stops at the first character that does not belong to a number, so that trailing garbage is accepted,
e.g. a partition of three nodes whose third entry is not a number is read for two nodes. -/
theorem C21_trailing_garbage_accepted : readPartition 2 "0\n1\nx\n".toList = .ok [0, 1] := by decide +kernel

/-- a partition into blocks 0, 12 and 1 -/
theorem C21_example : writePartition 3 [2, 0, 1] (fun v => if v = 1 then 12 else if v = 2 then 1 else 0) = "0\n12\n1\n".toList := by decide +kernel

end FileIO
end Verif
