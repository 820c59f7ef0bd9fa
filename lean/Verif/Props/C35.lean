import Verif.Lemmas.CountingSort
import Mathlib.Data.Nat.Bitwise
/-!
# C35: reproducible random permutations

`counting_sort` and `random_grouping` produce one result for given input, seed and number of work packages: the
theorems quantify over all schedules of the parallel loops, all schedules of the parallel prefix sum and all
previous contents of the reused arrays.
-/
namespace Verif
open CSort

/-! ### specification -/

/-- the indices `0..n-1` ordered by key, indices with equal keys in increasing order -/
def stableOrder (K : Nat → Nat) (n B : Nat) : List Nat :=
  (List.range B).flatMap fun b => (List.range n).filter fun i => decide (K i = b)

/-- number of indices with a key smaller than `b` -/
def numSmaller (K : Nat → Nat) (n b : Nat) : Nat := ((List.range n).filter fun i => decide (K i < b)).length

/-! ### counting sort -/

/-- **C35 (counting sort).**  Whatever the number of tasks, the schedule, and the previous content of the output
array, `counting_sort` outputs the input elements in stable order of their keys, and `bucket_bounds[b]` is the
number of elements with a smaller key. -/
theorem C35_counting_sort {α : Type} (key : α → Nat) (inp : Nat → α) {n B numTasks : Nat} (hT : 1 ≤ numTasks)
    (hK : ∀ i < n, key (inp i) < B) {out : Nat → α} {bd : Nat → Nat} {res : Nat → α}
    (h : Sorts key inp n B numTasks out bd res) :
    (List.range n).map res = (stableOrder (fun i => key (inp i)) n B).map inp ∧
    ∀ b ≤ B, bd b = numSmaller (fun i => key (inp i)) n b := by
  have hoff : ∀ b, numSmaller (fun i => key (inp i)) n b = offset (fun i => key (inp i)) n b := by
    intro b; unfold numSmaller offset; rw [List.countP_eq_length_filter]
  cases h with
  | seq _ =>
    obtain ⟨h1, h2, h3⟩ := seqPlace_eq key inp n out n (Nat.le_refl n)
    constructor
    · refine out_eq _ n B inp hK ?_
      intro i hi
      unfold seqSort
      rw [h3]
      exact putAll_all (List.Perm.refl _) (pos_inj' _ n) out hi
    · intro b _
      rw [hoff]
      unfold seqSort
      cases b with
      | zero => rw [h2, offset_zero]
      | succ b => rw [h1, offset_succ]
  | par _ hs hc hp =>
    obtain ⟨h1, h2⟩ := parWrites_perm key inp hT hK hs hc
    constructor
    · refine out_eq _ n B inp hK ?_
      intro i hi
      exact putAll_all (hp.trans h1) (pos_inj' _ n) out hi
    · intro b hb
      rw [hoff]; exact h2 b hb

/-- the stable order is an order of all indices, sorted by key, ties by index -/
theorem C35_stable_order {K : Nat → Nat} {n B : Nat} (hK : ∀ i < n, K i < B) :
    (stableOrder K n B).Perm (List.range n) ∧
    (stableOrder K n B).Pairwise fun i j => K i < K j ∨ (K i = K j ∧ i < j) := by
  refine ⟨grouped_perm K n B hK, ?_⟩
  unfold stableOrder
  rw [List.pairwise_flatMap]
  constructor
  · intro b _
    refine List.Pairwise.imp_of_mem ?_ ((List.pairwise_lt_range (n := n)).filter _)
    intro x y hx hy hxy
    simp only [List.mem_filter, decide_eq_true_eq] at hx hy
    exact .inr ⟨by rw [hx.2, hy.2], hxy⟩
  · refine List.Pairwise.imp ?_ (List.pairwise_lt_range (n := B))
    intro a b hab x hx y hy
    simp only [List.mem_filter, decide_eq_true_eq] at hx hy
    left; omega

/-! ### random buckets -/

theorem bucketChunk_pos {n T : Nat} (hn : 1 ≤ n) (hT : 1 ≤ T) : 1 ≤ bucketChunk n T ∧ bucketChunk n T % 4 = 0 := by
  have h := le_idivCeil (n := n) hT
  have hc : 1 ≤ idivCeil n T := by
    rcases Nat.eq_zero_or_pos (idivCeil n T) with h0 | h0
    · rw [h0] at h; omega
    · exact h0
  unfold bucketChunk
  simp only
  split <;> omega

theorem byteOf_lt (x : BitVec 32) (i : Nat) : byteOf x i < 256 := Nat.mod_lt _ (by decide)

theorem bucketTask_pos (mt : Nat → Nat → BitVec 32) {n c seed i : Nat} (hc : c % 4 = 0) :
    ((bucketTask mt n c seed i).map Prod.fst).Perm (chunk n c i) := by
  have hlo : (bounds i n c).1 ≤ (bounds i n c).2 := by
    unfold bounds; simp only; rw [Nat.succ_mul]; omega
  have hlo4 : (bounds i n c).1 < (bounds i n c).2 → (bounds i n c).1 % 4 = 0 := by
    intro h
    have h' : (bounds i n c).1 = i * c := by
      unfold bounds at h ⊢; simp only at h ⊢; rw [Nat.succ_mul] at h; omega
    rw [h', Nat.mul_mod, hc]; simp
  unfold bucketTask chunk
  simp only
  revert hlo hlo4
  generalize (bounds i n c).1 = lo
  generalize (bounds i n c).2 = hi
  intro hlo hlo4
  have h4 : ∀ q, ((List.range q).flatMap fun q => (List.range 4).map fun r => lo + 4 * q + r) = List.range' lo (4 * q) := by
    intro q
    induction q with
    | zero => rfl
    | succ q ih =>
      rw [List.range_succ (n := q), List.flatMap_append, ih, show 4 * (q + 1) = 4 * q + 4 by omega, ← List.range'_append_1]
      simp [List.range_succ, List.range'_succ]
  rw [List.map_append, List.map_flatMap]
  simp only [List.map_map, Function.comp_def]
  rw [h4]
  split
  · rename_i hlt
    have := hlo4 hlt
    rw [List.map_map]
    simp only [Function.comp_def]
    have hr : ((List.range (hi % 4)).map fun j => hi - j - 1) = (List.range' (hi - hi % 4) (hi % 4)).reverse := by
      rw [List.reverse_range']
      refine List.map_congr_left ?_
      intro j hj
      have := List.mem_range.1 hj
      omega
    rw [hr, show hi - lo = 4 * ((hi - hi % 4 - lo) / 4) + hi % 4 by omega, ← List.range'_append_1,
      show lo + 4 * ((hi - hi % 4 - lo) / 4) = hi - hi % 4 by omega]
    exact (List.reverse_perm _).append_left _
  · have : lo = hi := by omega
    subst this
    rw [show (lo - lo % 4 - lo) / 4 = 0 by omega]
    simp

/-- `compute_buckets` writes every position below `n` exactly once -/
theorem bucketWrites_pos (mt : Nat → Nat → BitVec 32) {n T seed : Nat} (hn : 1 ≤ n) (hT : 1 ≤ T) :
    ((bucketWrites mt n T seed).map Prod.fst).Perm (List.range n) := by
  obtain ⟨hc, hc4⟩ := bucketChunk_pos hn hT
  unfold bucketWrites
  simp only
  rw [List.map_flatMap, ← chunks_range n (bucketChunk n T) (idivCeil n (bucketChunk n T))
    (by rw [Nat.mul_comm]; exact le_idivCeil hc)]
  refine List.Perm.flatMap_left _ ?_
  intro i _
  exact bucketTask_pos mt hc4

theorem bucketWrites_val (mt : Nat → Nat → BitVec 32) {n T seed : Nat} {w : Nat × Nat} (h : w ∈ bucketWrites mt n T seed) :
    w.2 < 256 := by
  unfold bucketWrites bucketTask at h
  simp only [List.mem_flatMap, List.mem_append, List.mem_map] at h
  obtain ⟨i, _, ⟨q, _, r, _, rfl⟩ | h⟩ := h
  · exact byteOf_lt _ _
  · split at h
    · simp only [List.mem_map] at h
      obtain ⟨j, _, rfl⟩ := h
      exact byteOf_lt _ _
    · cases h

/-- the random bucket of position `i`, defined without any schedule -/
def randomBucket (mt : Nat → Nat → BitVec 32) (n T seed i : Nat) : Nat := putAll (fun _ => 0) (bucketWrites mt n T seed) i

/-- **C35 (random buckets).**  The byte drawn for a position below `n` depends on the seed, `n` and the number of
work packages only: neither on the schedule nor on the previous content of the array.  All bytes are below 256, and
positions from `n` on keep their previous content. -/
theorem C35_buckets (mt : Nat → Nat → BitVec 32) {n T seed : Nat} (hn : 1 ≤ n) (hT : 1 ≤ T) (old : Nat → Nat)
    {ws : List (Nat × Nat)} (hp : ws.Perm (bucketWrites mt n T seed)) :
    (∀ i < n, putAll old ws i = randomBucket mt n T seed i ∧ randomBucket mt n T seed i < 256) ∧
    ∀ i, n ≤ i → putAll old ws i = old i := by
  have hpos := bucketWrites_pos mt (seed := seed) hn hT
  have hnd : ((bucketWrites mt n T seed).map Prod.fst).Nodup := hpos.nodup_iff.2 List.nodup_range
  constructor
  · intro i hi
    have hm : i ∈ (bucketWrites mt n T seed).map Prod.fst := hpos.mem_iff.2 (List.mem_range.2 hi)
    obtain ⟨⟨p, v⟩, hw, rfl⟩ := List.mem_map.1 hm
    have h2 : randomBucket mt n T seed p = v := putAll_mem hnd _ hw
    rw [h2]
    exact ⟨putAll_mem ((hp.map _).nodup_iff.2 hnd) old (hp.mem_iff.2 hw), bucketWrites_val mt hw⟩
  · intro i hi
    refine putAll_not_mem ws old i ?_
    rw [(hp.map _).mem_iff, hpos.mem_iff, List.mem_range]
    omega

/-- **C35 (reproducible grouping).**  `random_grouping` (input `0..n-1`) always returns the same array and the same
bucket bounds, which depend on the seed, the number of nodes and the configured number of work packages, whatever
the schedule and whatever the reused arrays contained; the array contains every node exactly once, and the bounds
split it into consecutive ranges. -/
theorem C35_random_grouping (mt : Nat → Nat → BitVec 32) {n T : Nat} (seed : Nat) (hn : 1 ≤ n) (hT : 1 ≤ T) :
    ∃ (perm : List Nat) (bds : Nat → Nat),
      (∀ (buckets out bd res : Nat → Nat), Grouping mt (fun i => i) n T seed buckets out bd res →
        (List.range n).map res = perm ∧ ∀ b ≤ 256, bd b = bds b) ∧
      perm.Perm (List.range n) ∧
      bds 0 = 0 ∧ bds 256 = n ∧ ∀ b, bds b ≤ bds (b + 1) := by
  have hb : ∀ i < n, randomBucket mt n T seed i < 256 := fun i hi =>
    ((C35_buckets mt hn hT (fun _ => 0) (List.Perm.refl _)).1 i hi).2
  refine ⟨stableOrder (randomBucket mt n T seed) n 256, numSmaller (randomBucket mt n T seed) n, ?_, (C35_stable_order hb).1,
    by simp [numSmaller], ?_, ?_⟩
  · intro buckets out bd res h
    obtain ⟨hp, hs⟩ := h
    have hB := C35_buckets mt hn hT buckets hp
    rename_i ws
    have hsame : ∀ i < n, putAll buckets ws i = randomBucket mt n T seed i := fun i hi => (hB.1 i hi).1
    obtain ⟨h1, h2⟩ := C35_counting_sort (putAll buckets ws) (fun i => i) hT
      (fun i hi => by rw [hsame i hi]; exact hb i hi) hs
    constructor
    · rw [h1, List.map_id']
      unfold stableOrder
      refine List.flatMap_congr fun b _ => List.filter_congr fun i hi => ?_
      simp only [hsame i (List.mem_range.1 hi)]
    · intro b hb'
      rw [h2 b hb']
      unfold numSmaller
      congr 1
      refine List.filter_congr fun i hi => ?_
      simp only [hsame i (List.mem_range.1 hi)]
  · have : (List.range n).filter (fun i => decide (randomBucket mt n T seed i < 256)) = List.range n := by
      rw [List.filter_eq_self]
      intro i hi
      simpa using hb i (List.mem_range.1 hi)
    unfold numSmaller
    rw [this]; simp
  · intro b
    unfold numSmaller
    rw [← List.countP_eq_length_filter, ← List.countP_eq_length_filter]
    refine List.countP_mono_left ?_
    intro i _ h
    simp only [decide_eq_true_eq] at h ⊢
    omega

/-- a grouping always has a result: the quantification above is not empty -/
theorem C35_grouping_exists (mt : Nat → Nat → BitVec 32) (inp buckets out : Nat → Nat) {n T : Nat} (seed : Nat)
    (h : n ≤ 2 ^ 17) : ∃ bd res, Grouping mt inp n T seed buckets out bd res :=
  ⟨_, _, .mk (List.Perm.refl _) (.seq (by omega))⟩

/-- **C35 (grouping of arbitrary elements).**  `sample_buckets_and_group_by` returns a permutation of its input
elements for every schedule (the bucket array always contains bytes). -/
theorem C35_group_by_perm (mt : Nat → Nat → BitVec 32) {inp : Nat → Nat} {n T seed : Nat} (hn : 1 ≤ n) (hT : 1 ≤ T)
    {buckets out bd res : Nat → Nat} (hbytes : ∀ i, buckets i < 256)
    (h : Grouping mt inp n T seed buckets out bd res) :
    ((List.range n).map res).Perm ((List.range n).map inp) ∧ bd 0 = 0 ∧ bd 256 = n := by
  obtain ⟨hp, hs⟩ := h
  rename_i ws
  have hB := C35_buckets mt hn hT buckets hp
  have hlt : ∀ i, putAll buckets ws i < 256 := by
    intro i
    by_cases hi : i < n
    · rw [(hB.1 i hi).1]; exact (hB.1 i hi).2
    · rw [hB.2 i (by omega)]; exact hbytes i
  obtain ⟨h1, h2⟩ := C35_counting_sort (putAll buckets ws) inp hT (fun i _ => hlt _) hs
  refine ⟨?_, ?_, ?_⟩
  · rw [h1]
    exact ((C35_stable_order (K := fun i => putAll buckets ws (inp i)) (fun i _ => hlt _)).1).map inp
  · rw [h2 0 (by omega)]; simp [numSmaller]
  · rw [h2 256 (by omega)]
    unfold numSmaller
    rw [List.filter_eq_self.2 (by intro i _; simpa using hlt _)]; simp

/-- **C35 (negative).**  `sample_buckets_and_group_by` indexes the bucket array with the *elements*, not with their
positions, and `compute_buckets(n)` refreshes only `n` positions.  When elements are `≥ n` (deterministic label
propagation passes the ids of the active nodes) the result depends on what earlier calls left in the array. -/
theorem C35_group_by_stale : ∃ (mt : Nat → Nat → BitVec 32) (inp b1 b2 : Nat → Nat) (bd1 bd2 res1 res2 : Nat → Nat),
    Grouping mt inp 2 1 0 b1 (fun _ => 0) bd1 res1 ∧ Grouping mt inp 2 1 0 b2 (fun _ => 0) bd2 res2 ∧
    (List.range 2).map inp = [5, 7] ∧ (List.range 2).map res1 = [5, 7] ∧ (List.range 2).map res2 = [7, 5] := by
  refine ⟨fun _ _ => 0, fun i => if i = 0 then 5 else 7, fun _ => 0, fun i => if i = 5 then 1 else 0, _, _, _, _,
    .mk (List.Perm.refl _) (.seq (by omega)), .mk (List.Perm.refl _) (.seq (by omega)), ?_, ?_, ?_⟩ <;> decide +kernel

/-- a concrete run of `random_grouping` -/
example : (stableOrder (randomBucket (fun _ i => BitVec.ofNat 32 (0x01020003 + i)) 5 2 9) 5 256) = [1, 3, 2, 0, 4] := by
  decide +kernel

/-! ### Feistel permutation -/

/-- round function applications stay inside the masks, and the last `m` rounds can be undone -/
theorem feistel_rounds_append (F : Nat → Nat → Nat) (ks : List Nat) (k : Nat) (s m : Nat × Nat) :
    Feistel.rounds F (ks ++ [k]) s m =
      let s' := Feistel.rounds F ks s m
      let lm := if ks.length % 2 = 0 then m.1 else m.2
      (s'.2, (F k s'.2 &&& lm) ^^^ s'.1) := by
  induction ks generalizing s m with
  | nil => rfl
  | cons a ks ih =>
    rw [List.cons_append]
    show Feistel.rounds F (ks ++ [k]) _ _ = _
    rw [ih]
    simp only [List.length_cons]
    rcases Nat.mod_two_eq_zero_or_one ks.length with h | h
    · rw [if_pos h, if_neg (by omega)]; rfl
    · rw [if_neg (by omega), if_pos (by omega)]; rfl

/-- decryption rounds undo encryption rounds -/
theorem feistel_undo (F : Nat → Nat → Nat) (ks : List Nat) : ∀ (s m : Nat × Nat),
    let e := Feistel.rounds F ks s m
    Feistel.rounds F ks.reverse (e.2, e.1) (if ks.length % 2 = 0 then (m.2, m.1) else m) = (s.2, s.1) := by
  induction ks using List.reverseRecOn with
  | nil => intro s m; rfl
  | append_singleton ks k ih =>
    intro s m
    rw [feistel_rounds_append, List.reverse_append]
    simp only [List.reverse_cons, List.reverse_nil, List.nil_append, List.cons_append, List.length_append, List.length_cons,
      List.length_nil, Nat.zero_add]
    have h := ih s m
    simp only at h
    rcases Nat.mod_two_eq_zero_or_one ks.length with h0 | h0
    · rw [if_pos h0] at h
      rw [if_pos h0, if_neg (by omega)]
      rw [Feistel.rounds]
      rw [← Nat.xor_assoc, Nat.xor_self, Nat.zero_xor]
      exact h
    · rw [if_neg (by omega)] at h
      rw [if_neg (by omega), if_pos (by omega)]
      rw [Feistel.rounds]
      rw [← Nat.xor_assoc, Nat.xor_self, Nat.zero_xor]
      exact h

theorem feistel_rounds_lt (F : Nat → Nat → Nat) (a b : Nat) (ks : List Nat) (s : Nat × Nat) (h1 : s.1 < 2 ^ a) (h2 : s.2 < 2 ^ b) :
    let e := Feistel.rounds F ks s (2 ^ a - 1, 2 ^ b - 1)
    (ks.length % 2 = 0 → e.1 < 2 ^ a ∧ e.2 < 2 ^ b) ∧ (ks.length % 2 = 1 → e.1 < 2 ^ b ∧ e.2 < 2 ^ a) := by
  induction ks generalizing s a b with
  | nil => exact ⟨fun _ => ⟨h1, h2⟩, fun h => by simp at h⟩
  | cons k ks ih =>
    have hr : (F k s.2 &&& (2 ^ a - 1)) ^^^ s.1 < 2 ^ a := by
      refine Nat.xor_lt_two_pow ?_ h1
      rw [Nat.and_two_pow_sub_one_eq_mod]
      exact Nat.mod_lt _ (Nat.two_pow_pos a)
    have := ih b a (s.2, (F k s.2 &&& (2 ^ a - 1)) ^^^ s.1) h2 hr
    simp only [List.length_cons]
    exact ⟨fun h => this.2 (by omega), fun h => this.1 (by omega)⟩

theorem shiftOr_eq {a l r : Nat} (h : l < 2 ^ a) : (r <<< a) ||| l = r * 2 ^ a + l := by
  rw [Nat.shiftLeft_eq, Nat.mul_comm, Nat.two_pow_add_eq_or_of_lt h]

theorem shiftOr_parts {a l r : Nat} (h : l < 2 ^ a) :
    ((r <<< a) ||| l) >>> a = r ∧ ((r <<< a) ||| l) &&& (2 ^ a - 1) = l := by
  rw [shiftOr_eq h, Nat.shiftRight_eq_div_pow, Nat.and_two_pow_sub_one_eq_mod]
  constructor
  · rw [Nat.add_comm, Nat.add_mul_div_right _ _ (Nat.two_pow_pos a), Nat.div_eq_of_lt h, Nat.zero_add]
  · rw [Nat.add_comm, Nat.add_mul_mod_self_right, Nat.mod_eq_of_lt h]

/-- **C35 (Feistel permutation).**  For every number of rounds, all keys and every round function, `encrypt` maps
`[0, 2^bits)` into itself and `decrypt` inverts it, so `encrypt` is a bijection on that range. -/
theorem C35_feistel (p : Feistel) (F : Nat → Nat → Nat) {x : Nat} (hx : x < 2 ^ (p.leftBits + p.rightBits)) :
    p.encrypt F x < 2 ^ (p.leftBits + p.rightBits) ∧ p.decrypt F (p.encrypt F x) = x := by
  have hl : x >>> p.rightBits < 2 ^ p.leftBits := by
    rw [Nat.shiftRight_eq_div_pow, Nat.div_lt_iff_lt_mul (Nat.two_pow_pos _), ← Nat.pow_add]; exact hx
  have hr : x &&& (2 ^ p.rightBits - 1) < 2 ^ p.rightBits := by
    rw [Nat.and_two_pow_sub_one_eq_mod]; exact Nat.mod_lt _ (Nat.two_pow_pos _)
  have hlt := feistel_rounds_lt F p.leftBits p.rightBits p.keys (x >>> p.rightBits, x &&& (2 ^ p.rightBits - 1)) hl hr
  have hun := feistel_undo F p.keys (x >>> p.rightBits, x &&& (2 ^ p.rightBits - 1)) (2 ^ p.leftBits - 1, 2 ^ p.rightBits - 1)
  unfold Feistel.encrypt Feistel.decrypt
  simp only at hlt hun ⊢
  revert hlt hun
  generalize Feistel.rounds F p.keys (x >>> p.rightBits, x &&& (2 ^ p.rightBits - 1)) (2 ^ p.leftBits - 1, 2 ^ p.rightBits - 1) = e
  intro hlt hun
  have hfin : (((x >>> p.rightBits) <<< p.rightBits) ||| (x &&& (2 ^ p.rightBits - 1))) = x := by
    rw [shiftOr_eq hr, Nat.shiftRight_eq_div_pow, Nat.and_two_pow_sub_one_eq_mod]
    exact Nat.div_add_mod' x _
  rcases Nat.mod_two_eq_zero_or_one p.keys.length with h | h
  · obtain ⟨h1, h2⟩ := hlt.1 h
    have hps : p.plantShift = p.leftBits := by unfold Feistel.plantShift; rw [if_pos h]
    rw [if_pos h] at hun
    obtain ⟨g1, g2⟩ := shiftOr_parts (r := e.2) h1
    constructor
    · rw [hps, shiftOr_eq h1, Nat.pow_add, Nat.mul_comm (2 ^ p.leftBits)]
      calc e.2 * 2 ^ p.leftBits + e.1 < e.2 * 2 ^ p.leftBits + 2 ^ p.leftBits := by omega
        _ = (e.2 + 1) * 2 ^ p.leftBits := by rw [Nat.succ_mul]
        _ ≤ 2 ^ p.rightBits * 2 ^ p.leftBits := Nat.mul_le_mul_right _ h2
    · rw [hps, if_pos h]
      simp only
      rw [g1, g2, hun]
      exact hfin
  · obtain ⟨h1, h2⟩ := hlt.2 h
    have hps : p.plantShift = p.rightBits := by unfold Feistel.plantShift; rw [if_neg (by omega)]
    rw [if_neg (by omega)] at hun
    obtain ⟨g1, g2⟩ := shiftOr_parts (r := e.2) h1
    constructor
    · rw [hps, shiftOr_eq h1, Nat.pow_add]
      calc e.2 * 2 ^ p.rightBits + e.1 < e.2 * 2 ^ p.rightBits + 2 ^ p.rightBits := by omega
        _ = (e.2 + 1) * 2 ^ p.rightBits := by rw [Nat.succ_mul]
        _ ≤ 2 ^ p.leftBits * 2 ^ p.rightBits := Nat.mul_le_mul_right _ h2
    · rw [hps, if_neg (by omega)]
      simp only
      rw [g1, g2, hun]
      exact hfin

theorem numBits_spec {entries : Nat} : ∀ fuel bits, bits + fuel = 64 → entries ≤ 2 ^ 64 → bits ≤ 63 →
    entries ≤ 2 ^ 62 → bits ≤ 62 → entries ≤ 2 ^ numBits entries fuel bits (2 ^ bits) ∧ numBits entries fuel bits (2 ^ bits) ≤ 62 := by
  intro fuel
  induction fuel with
  | zero => intro bits h _ h2; omega
  | succ fuel ih =>
    intro bits h h1 h2 h3 h4
    rw [numBits]
    split
    · rename_i hc
      have hb : bits < 62 := by
        by_contra hn
        have : bits = 62 := by omega
        subst this; omega
      have hp : 2 ^ bits * 2 % 2 ^ 64 = 2 ^ (bits + 1) := by
        rw [← Nat.pow_succ]; exact Nat.mod_eq_of_lt (Nat.pow_lt_pow_right (by omega) (by omega))
      rw [hp]
      exact ih (bits + 1) (by omega) h1 (by omega) h3 (by omega)
    · rename_i hc
      have : 2 ^ bits ≠ 0 := by have := Nat.two_pow_pos bits; omega
      exact ⟨by omega, h4⟩

/-- `create_permutation(rounds, entries)` chooses enough bits for all entries -/
theorem C35_feistel_bits (keys : List Nat) {entries : Nat} (h : entries ≤ 2 ^ 62) :
    entries ≤ 2 ^ ((Feistel.create keys entries).leftBits + (Feistel.create keys entries).rightBits) := by
  have := (numBits_spec (entries := entries) 64 0 rfl (by omega) (by omega) h (by omega)).1
  unfold Feistel.create
  simp only
  rw [show numBits entries 64 0 1 / 2 + (numBits entries 64 0 1 / 2 + numBits entries 64 0 1 % 2) = numBits entries 64 0 1 by omega]
  exact this

example : ((List.range 8).map ((Feistel.create [3, 5, 7] 7).encrypt (fun k r => k * 3 + r * r + 1))) =
    [0, 4, 2, 6, 1, 5, 3, 7] := by
  decide +kernel

end Verif
