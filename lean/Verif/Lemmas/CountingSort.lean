import Mathlib.Data.List.Perm.Basic
import Verif.Model.CountingSort
import Verif.Props.C30
import Mathlib.Data.List.Nodup
import Mathlib.Data.List.Range
import Mathlib.Data.List.Count
import Mathlib.Tactic.Common
/-! Counting sort: auxiliary lemmas -/
namespace Verif
namespace CSort

section puts
variable {α : Type}

theorem put_apply (a : Nat → α) (p : Nat) (v : α) (x : Nat) : put a p v x = if x = p then v else a x := rfl

theorem range_split {n i : Nat} (hi : i < n) : List.range n = List.range i ++ i :: (List.range' (i + 1) (n - i - 1)) := by
  rw [← List.range'_succ, List.range_eq_range', List.range_eq_range']
  have := List.range'_append_1 (s := 0) (m := i) (n := n - i - 1 + 1)
  rw [Nat.zero_add] at this
  rw [this]; congr 1; omega

theorem putAll_not_mem (ws : List (Nat × α)) : ∀ (a : Nat → α) (p : Nat), p ∉ ws.map Prod.fst → putAll a ws p = a p := by
  induction ws with
  | nil => intro a p _; rfl
  | cons w ws ih =>
    intro a p hp
    simp only [List.map_cons, List.mem_cons, not_or] at hp
    show putAll (put a w.1 w.2) ws p = a p
    rw [ih _ _ hp.2]
    simp [put, hp.1]

theorem putAll_mem {ws : List (Nat × α)} (hn : (ws.map Prod.fst).Nodup) : ∀ (a : Nat → α) {p : Nat} {v : α},
    (p, v) ∈ ws → putAll a ws p = v := by
  induction ws with
  | nil => intro a p v h; cases h
  | cons w ws ih =>
    intro a p v h
    simp only [List.map_cons, List.nodup_cons] at hn
    show putAll (put a w.1 w.2) ws p = v
    rcases List.mem_cons.1 h with h | h
    · subst h
      rw [putAll_not_mem ws _ _ hn.1]
      simp [put]
    · exact ih hn.2 _ h

/-- writing every position once, with a value given by `g`, in any order -/
theorem putAll_all {ws : List (Nat × α)} {n : Nat} {pos : Nat → Nat} {v : Nat → α}
    (h : ws.Perm ((List.range n).map fun i => (pos i, v i))) (hinj : ∀ i < n, ∀ j < n, pos i = pos j → i = j)
    (a : Nat → α) {i : Nat} (hi : i < n) : putAll a ws (pos i) = v i := by
  refine putAll_mem ?_ a ?_
  · rw [(h.map Prod.fst).nodup_iff, List.map_map]
    refine List.Nodup.map_on ?_ List.nodup_range
    intro x hx y hy he
    exact hinj x (List.mem_range.1 hx) y (List.mem_range.1 hy) he
  · rw [h.mem_iff]
    exact List.mem_map.2 ⟨i, List.mem_range.2 hi, rfl⟩
end puts

section pos
variable (K : Nat → Nat) (n B : Nat)

/-- number of elements in smaller buckets -/
def offset (b : Nat) : Nat := (List.range n).countP fun i => decide (K i < b)
/-- number of earlier elements of a bucket -/
def rankIn (i b : Nat) : Nat := (List.range i).countP fun j => decide (K j = b)
/-- final position of element `i` -/
def pos (i : Nat) : Nat := offset K n (K i) + rankIn K i (K i)
/-- indices grouped by bucket -/
def grouped : List Nat := (List.range B).flatMap fun b => (List.range n).filter fun i => decide (K i = b)

theorem offset_zero : offset K n 0 = 0 := by
  unfold offset; rw [List.countP_eq_zero]; simp

theorem offset_succ (b : Nat) : offset K n (b + 1) = offset K n b + rankIn K n b := by
  unfold offset rankIn
  induction List.range n with
  | nil => rfl
  | cons a l ih =>
    simp only [List.countP_cons, ih]
    rcases Nat.lt_trichotomy (K a) b with h | h | h
    · simp [h, show K a < b + 1 by omega, show ¬ K a = b by omega]; omega
    · simp [h]; omega
    · simp [show ¬ K a < b by omega, show ¬ K a < b + 1 by omega, show ¬ K a = b by omega]

theorem rankIn_succ (i b : Nat) : rankIn K (i + 1) b = rankIn K i b + if K i = b then 1 else 0 := by
  unfold rankIn
  rw [List.range_succ, List.countP_append]
  simp [List.countP_cons]

theorem rankIn_mono {i j : Nat} (h : i ≤ j) (b : Nat) : rankIn K i b ≤ rankIn K j b := by
  induction h with
  | refl => exact Nat.le_refl _
  | step _ ih => rw [rankIn_succ]; omega

theorem grouped_prefix_length (b : Nat) : (grouped K n b).length = offset K n b := by
  induction b with
  | zero => rw [offset_zero]; rfl
  | succ b ih =>
    unfold grouped at ih ⊢
    rw [List.range_succ, List.flatMap_append, List.length_append, ih, offset_succ]
    simp [rankIn, List.countP_eq_length_filter]

theorem offset_full (hK : ∀ i < n, K i < B) : offset K n B = n := by
  have : offset K n B = (List.range n).length := by
    unfold offset; rw [List.countP_eq_length]; intro a ha; simpa using hK a (List.mem_range.1 ha)
  simpa using this

theorem grouped_length (hK : ∀ i < n, K i < B) : (grouped K n B).length = n := by
  rw [grouped_prefix_length, offset_full K n B hK]

theorem filter_getElem? {p : Nat → Bool} {n i : Nat} (hi : i < n) (hp : p i = true) :
    ((List.range n).filter p)[(List.range i).countP p]? = some i := by
  rw [range_split hi, List.filter_append, List.filter_cons, if_pos hp, List.countP_eq_length_filter,
    List.getElem?_append_right (Nat.le_refl _)]
  simp

theorem grouped_pos {i : Nat} (hi : i < n) (hK : K i < B) : (grouped K n B)[pos K n i]? = some i := by
  have hsplit : grouped K n B = grouped K n (K i) ++ (((List.range n).filter fun j => decide (K j = K i)) ++
      ((List.range' (K i + 1) (B - K i - 1)).flatMap fun b => (List.range n).filter fun i => decide (K i = b))) := by
    unfold grouped
    rw [range_split hK, List.flatMap_append, List.flatMap_cons]
  have h1 := filter_getElem? (p := fun j => decide (K j = K i)) hi (by simp)
  rw [hsplit, pos, List.getElem?_append_right (by rw [grouped_prefix_length]; omega), grouped_prefix_length,
    Nat.add_sub_cancel_left]
  rw [List.getElem?_append_left]
  · exact h1
  · by_contra hn
    unfold rankIn at hn
    rw [List.getElem?_eq_none (by omega)] at h1
    cases h1

theorem pos_inj (hK : ∀ i < n, K i < n + B) : ∀ i < n, ∀ j < n, pos K n i = pos K n j → i = j := by
  intro i hi j hj h
  have h1 := grouped_pos K n (n + B) hi (hK i hi)
  have h2 := grouped_pos K n (n + B) hj (hK j hj)
  rw [h, h2] at h1
  exact (Option.some.inj h1).symm

theorem pos_inj' : ∀ i < n, ∀ j < n, pos K n i = pos K n j → i = j := by
  refine pos_inj K n (((List.range n).map K).sum + 1) ?_
  intro i hi
  have : K i ≤ ((List.range n).map K).sum := by
    have hm : K i ∈ (List.range n).map K := List.mem_map_of_mem (List.mem_range.2 hi)
    have gen : ∀ (l : List Nat) (x : Nat), x ∈ l → x ≤ l.sum := by
      intro l
      induction l with
      | nil => intro x hx; cases hx
      | cons a l ih =>
        intro x hx
        rw [List.sum_cons]
        rcases List.mem_cons.1 hx with h | h
        · omega
        · have := ih x h; omega
    exact gen _ _ hm
  omega

theorem grouped_nodup : (grouped K n B).Nodup := by
  unfold grouped
  rw [List.nodup_flatMap]
  refine ⟨fun b _ => List.nodup_range.filter _, ?_⟩
  refine List.Pairwise.imp ?_ (List.nodup_range (n := B))
  intro a b hab x hx hy
  simp only [List.mem_filter, decide_eq_true_eq] at hx hy
  exact hab (hx.2.symm.trans hy.2)

theorem mem_grouped (hK : ∀ i < n, K i < B) {i : Nat} : i ∈ grouped K n B ↔ i < n := by
  unfold grouped
  simp only [List.mem_flatMap, List.mem_range, List.mem_filter, decide_eq_true_eq]
  constructor
  · rintro ⟨_, _, h, _⟩; exact h
  · intro h; exact ⟨K i, hK i h, h, rfl⟩

theorem grouped_perm (hK : ∀ i < n, K i < B) : (grouped K n B).Perm (List.range n) :=
  (List.perm_ext_iff_of_nodup (grouped_nodup K n B) List.nodup_range).2
    (fun i => by rw [mem_grouped K n B hK, List.mem_range])

/-- every position is the position of an element -/
theorem pos_surj (hK : ∀ i < n, K i < B) {p : Nat} (hp : p < n) : ∃ i < n, pos K n i = p := by
  have hl := grouped_length K n B hK
  have hp' : p < (grouped K n B).length := by omega
  have hm : (grouped K n B)[p] < n := (mem_grouped K n B hK).1 (List.getElem_mem hp')
  refine ⟨(grouped K n B)[p], hm, ?_⟩
  have h1 := grouped_pos K n B hm (hK _ hm)
  have h2 : pos K n (grouped K n B)[p] < (grouped K n B).length := by
    by_contra hn
    rw [List.getElem?_eq_none (by omega)] at h1; cases h1
  rw [List.getElem?_eq_getElem h2] at h1
  have h3 := Option.some.inj h1
  exact (List.Nodup.getElem_inj_iff (grouped_nodup K n B)).1 h3

/-- any array with element `i` at its position is the grouped list -/
theorem out_eq {α : Type} (inp : Nat → α) (hK : ∀ i < n, K i < B) {out : Nat → α}
    (h : ∀ i < n, out (pos K n i) = inp i) : (List.range n).map out = (grouped K n B).map inp := by
  apply List.ext_getElem?
  intro p
  by_cases hp : p < n
  · obtain ⟨i, hi, rfl⟩ := pos_surj K n B hK hp
    rw [List.getElem?_map, List.getElem?_map, grouped_pos K n B hi (hK i hi), List.getElem?_range hp]
    simp [h i hi]
  · rw [List.getElem?_eq_none, List.getElem?_eq_none]
    · simp [grouped_length K n B hK]; omega
    · simp; omega
end pos

section sequential
variable {α : Type} (key : α → Nat) (inp : Nat → α)

theorem seqCount_eq (n b : Nat) : seqCount key inp n b = if 2 ≤ b then rankIn (fun i => key (inp i)) n (b - 2) else 0 := by
  induction n generalizing b with
  | zero => simp [seqCount, rankIn]
  | succ n ih =>
    unfold seqCount at ih ⊢
    rw [List.range_succ, List.foldl_append]
    simp only [List.foldl_cons, List.foldl_nil]
    rw [put_apply, rankIn_succ]
    split
    · rename_i h
      rw [ih, h]; simp
    · rename_i h
      rw [ih]
      split
      · rw [if_neg (by omega)]; rfl
      · rfl

theorem partialSum_eq (n j : Nat) : partialSum (seqCount key inp n) (j + 1) = offset (fun i => key (inp i)) n j := by
  induction j with
  | zero => simp [partialSum, List.range_succ, seqCount_eq, offset_zero]
  | succ j ih =>
    have : partialSum (seqCount key inp n) (j + 1 + 1) = partialSum (seqCount key inp n) (j + 1) + seqCount key inp n (j + 2) := by
      unfold partialSum
      rw [List.range_succ (n := j + 1 + 1), List.map_append, List.sum_append]; simp
    rw [this, ih, seqCount_eq, offset_succ]; simp

theorem seqPlace_succ (m : Nat) (bg : Nat → Nat) (out : Nat → α) : seqPlace key inp (m + 1) bg out =
    (put (seqPlace key inp m bg out).1 (key (inp m) + 1) ((seqPlace key inp m bg out).1 (key (inp m) + 1) + 1),
     put (seqPlace key inp m bg out).2 ((seqPlace key inp m bg out).1 (key (inp m) + 1)) (inp m)) := by
  unfold seqPlace
  rw [List.range_succ, List.foldl_append]; rfl

theorem seqPlace_eq (n : Nat) (out : Nat → α) : ∀ m ≤ n,
    let s := seqPlace key inp m (partialSum (seqCount key inp n)) out
    (∀ b, s.1 (b + 1) = offset (fun i => key (inp i)) n b + rankIn (fun i => key (inp i)) m b) ∧
    s.1 0 = 0 ∧
    s.2 = putAll out ((List.range m).map fun i => (pos (fun i => key (inp i)) n i, inp i)) := by
  intro m
  induction m with
  | zero =>
    intro _
    refine ⟨fun b => ?_, ?_, rfl⟩
    · show partialSum _ (b + 1) = _
      rw [partialSum_eq]; rfl
    · show partialSum _ 0 = 0
      simp [partialSum, List.range_succ, seqCount_eq]
  | succ m ih =>
    intro hm
    obtain ⟨h1, h2, h3⟩ := ih (by omega)
    rw [seqPlace_succ]
    simp only [List.range_succ, List.map_append, List.map_cons, List.map_nil]
    refine ⟨fun b => ?_, ?_, ?_⟩
    · rw [put_apply, rankIn_succ]
      split
      · rename_i h
        have h : b = key (inp m) := by omega
        rw [h1, ← h]; simp; omega
      · rename_i h
        rw [h1, if_neg (by omega)]; rfl
    · rw [put_apply, if_neg (by omega)]; exact h2
    · unfold putAll at h3 ⊢
      rw [List.foldl_append, ← h3]
      simp only [List.foldl_cons, List.foldl_nil]
      rw [h1]; rfl
end sequential

section parallel
variable {α : Type} (key : α → Nat) (inp : Nat → α)

theorem chunk_append (n c t : Nat) : List.range (bounds t n c).2 = List.range (bounds t n c).1 ++ chunk n c t := by
  have : (bounds t n c).1 ≤ (bounds t n c).2 := by
    unfold bounds; simp only; rw [Nat.succ_mul]; omega
  unfold chunk
  have h := List.range'_append_1 (s := 0) (m := (bounds t n c).1) (n := (bounds t n c).2 - (bounds t n c).1)
  rw [Nat.zero_add] at h
  rw [List.range_eq_range', List.range_eq_range', h]
  congr 1; omega

theorem bounds_succ (n c t : Nat) : (bounds (t + 1) n c).1 = (bounds t n c).2 := rfl

theorem chunks_range (n c T : Nat) (h : n ≤ T * c) : (List.range T).flatMap (chunk n c) = List.range n := by
  have : ∀ m, (List.range m).flatMap (chunk n c) = List.range (bounds m n c).1 := by
    intro m
    induction m with
    | zero => simp [bounds]
    | succ m ih => rw [List.range_succ, List.flatMap_append, ih, bounds_succ, chunk_append]; simp
  rw [this]
  unfold bounds; simp only; congr 1; omega

theorem le_idivCeil {n T : Nat} (hT : 1 ≤ T) : n ≤ T * idivCeil n T := by
  unfold idivCeil
  have h1 := Nat.div_add_mod (n + T - 1) T
  have h2 := Nat.mod_lt (n + T - 1) (show 0 < T by omega)
  omega

/-- a counting loop -/
theorem count_foldl (l : List Nat) (e : Nat → Nat) (b : Nat) :
    (l.foldl (fun e i => put e (key (inp i)) (e (key (inp i)) + 1)) e) b = e b + l.countP fun j => decide (key (inp j) = b) := by
  induction l generalizing e with
  | nil => simp
  | cons a l ih =>
    rw [List.foldl_cons, ih, List.countP_cons, put_apply]
    by_cases h : b = key (inp a)
    · subst h; simp; omega
    · have h' : ¬ key (inp a) = b := fun h'' => h h''.symm
      simp [h, h']

theorem accumulate_eq (e : Nat → Nat → Nat) (T : Nat) (hT : 1 ≤ T) :
    ∀ t < T, ∀ b, accumulate e T t b = ((List.range (t + 1)).map fun s => e s b).sum := by
  have key : ∀ m, ∀ t b, ((List.range' 1 m).foldl (fun (e : Nat → Nat → Nat) i => put e i (fun b => e i b + e (i - 1) b)) e) t b =
      if t ≤ m then ((List.range (t + 1)).map fun s => e s b).sum else e t b := by
    intro m
    induction m with
    | zero =>
      intro t b
      simp only [List.range'_zero, List.foldl_nil]
      split
      · rename_i h
        have : t = 0 := by omega
        subst this; simp
      · rfl
    | succ m ih =>
      intro t b
      rw [List.range'_concat, List.foldl_append]
      simp only [List.foldl_cons, List.foldl_nil, Nat.one_mul]
      rw [put_apply]
      split
      · rename_i h
        subst h
        show _ + _ = _
        rw [ih, ih, if_neg (by omega), if_pos (by omega), if_pos (by omega), show 1 + m - 1 = m by omega,
          List.range_succ (n := 1 + m), List.map_append, List.sum_append, Nat.add_comm 1 m]
        simp; omega
      · rename_i h
        rw [ih]
        split
        · rw [if_pos (by omega)]
        · rw [if_neg (by omega)]
  intro t ht b
  unfold accumulate
  rw [key, if_pos (by omega)]

theorem accumulate_count (n c T : Nat) (hT : 1 ≤ T) {t : Nat} (ht : t < T) (b : Nat) :
    accumulate (fun t => localCount key inp n c t) T t b = rankIn (fun i => key (inp i)) (bounds t n c).2 b := by
  rw [accumulate_eq _ _ hT t ht]
  clear ht
  induction t with
  | zero =>
    simp only [localCount, count_foldl]
    have := chunk_append n c 0
    have hb : (bounds 0 n c).1 = 0 := by simp [bounds]
    rw [hb] at this
    unfold rankIn
    rw [this]; simp
  | succ t ih =>
    rw [List.range_succ (n := t + 1), List.map_append, List.sum_append, ih, ← bounds_succ]
    simp only [localCount, count_foldl, List.map_cons, List.map_nil, List.sum_cons, List.sum_nil]
    unfold rankIn
    rw [chunk_append n c (t + 1), List.countP_append]; simp

theorem foldRange_offset (K : Nat → Nat) (n : Nat) (total : Nat → Nat) (B : Nat) (h : ∀ b < B, total b = rankIn K n b) :
    ∀ j ≤ B, foldRange (· + ·) 0 total 0 j = offset K n j := by
  intro j
  induction j with
  | zero => intro _; rw [foldRange_self, offset_zero]
  | succ j ih =>
    intro hj
    rw [foldRange_succ _ (Nat.zero_le _), ih (by omega), offset_succ, h j (by omega)]

theorem finLoop_below {f : Nat → Nat → Nat} {a b l n : Nat} {st : (Nat → Nat) × Nat} {y : Nat} (hy : y < b) :
    (ScanSt.finLoop f a b l n st).1 y = st.1 y := by
  unfold ScanSt.finLoop
  generalize List.range' l n = xs
  induction xs generalizing st with
  | nil => rfl
  | cons x xs ih =>
    rw [List.foldl_cons, ih]
    simp only
    rw [if_neg (by omega)]

theorem run_below {f : Nat → Nat → Nat} {z a b : Nat} {steps : List ScanStep} {y : Nat} (hy : y < b) :
    ∀ {s : ScanSt Nat}, (steps.foldl (ScanSt.step f z a b) s).mem y = s.mem y := by
  induction steps with
  | nil => intro s; rfl
  | cons st steps ih =>
    intro s
    rw [List.foldl_cons, ih]
    cases st with
    | fin c l r => exact finLoop_below hy
    | _ => rfl

theorem parBegins_eq {K : Nat → Nat} {n B : Nat} {total : Nat → Nat} {steps : List ScanStep} {g : ScanGhost}
    (ht : ∀ b < B, total b = rankIn K n b) (hs : ScanGhost.Steps B ScanGhost.init steps g) (hc : g.Complete B) :
    ∀ j ≤ B, parBegins total B steps j = offset K n j := by
  intro j hj
  unfold parBegins
  cases j with
  | zero =>
    rw [offset_zero]
    unfold ScanSt.parallelPrefixSum
    split
    · unfold ScanSt.sequential
      rw [finLoop_below (by omega)]
      simp [prefixMem]
    · unfold ScanSt.run
      rw [run_below (by omega)]
      simp [prefixMem]
  | succ j =>
    have h := (C30_parallel_prefix_sum (f := (· + ·)) (z := 0) (a := 0) (b := B + 1) (n := B)
      (fun x y w => Nat.add_assoc x y w) (fun x y => Nat.add_comm x y) (fun x => Nat.zero_add x)
      (.inr (.inl (by omega))) (prefixMem total B) hs hc).1 j (by omega)
    rw [show B + (j + 1) = B + 1 + j by omega, h]
    refine foldRange_offset K n _ B ?_ (j + 1) hj
    intro b hb
    simp only [prefixMem, Nat.zero_add, if_pos hb]
    exact ht b hb

theorem taskWrites_eq {n B c : Nat} {begins ends : Nat → Nat} {t : Nat}
    (hb : ∀ j < B, begins j = offset (fun i => key (inp i)) n j) (hK : ∀ i < n, key (inp i) < B)
    (he : ∀ b, ends b = rankIn (fun i => key (inp i)) (bounds t n c).2 b) :
    taskWrites key inp n c begins ends t = ((chunk n c t).reverse.map fun i => (pos (fun i => key (inp i)) n i, inp i)) := by
  unfold taskWrites chunk
  have hle : (bounds t n c).2 ≤ n := by unfold bounds; simp only; omega
  have hle' : (bounds t n c).1 ≤ (bounds t n c).2 := by
    unfold bounds; simp only; rw [Nat.succ_mul]; omega
  revert hle hle' he
  generalize (bounds t n c).1 = lo
  generalize (bounds t n c).2 = hi
  intro he hle hle'
  obtain ⟨d, rfl⟩ : ∃ d, hi = lo + d := ⟨hi - lo, by omega⟩
  rw [Nat.add_sub_cancel_left]
  -- generalize the accumulated list
  have gen : ∀ d (ends : Nat → Nat) (acc : List (Nat × α)), lo + d ≤ n →
      (∀ b, ends b = rankIn (fun i => key (inp i)) (lo + d) b) →
      ((List.range' lo d).reverse.foldl (fun (s : (Nat → Nat) × List (Nat × α)) i =>
        (put s.1 (key (inp i)) (s.1 (key (inp i)) - 1), s.2 ++ [(begins (key (inp i)) + (s.1 (key (inp i)) - 1), inp i)])) (ends, acc)).2 =
      acc ++ ((List.range' lo d).reverse.map fun i => (pos (fun i => key (inp i)) n i, inp i)) := by
    intro d
    induction d with
    | zero => intro ends acc _ _; simp
    | succ d ih =>
      intro ends acc hn he
      rw [List.range'_concat, List.reverse_append]
      simp only [List.reverse_cons, List.reverse_nil, List.nil_append, List.cons_append, List.foldl_cons, Nat.one_mul, List.map_cons]
      have hs : ∀ b, ends b = rankIn (fun i => key (inp i)) (lo + d) b + if key (inp (lo + d)) = b then 1 else 0 := by
        intro b; rw [he, ← Nat.add_assoc, rankIn_succ]
      rw [ih _ _ (by omega)]
      · rw [hb _ (hK _ (by omega)), hs]
        simp [pos]
      · intro b
        rw [put_apply]
        split
        · rename_i h; rw [hs, if_pos rfl, h]; rfl
        · rename_i h; rw [hs, if_neg (fun h' => h h'.symm)]; rfl
  simpa using gen d ends [] hle he

theorem parWrites_perm {n B T : Nat} (hT : 1 ≤ T) (hK : ∀ i < n, key (inp i) < B) {steps : List ScanStep} {g : ScanGhost}
    (hs : ScanGhost.Steps B ScanGhost.init steps g) (hc : g.Complete B) :
    (parWrites key inp n B T steps).Perm ((List.range n).map fun i => (pos (fun i => key (inp i)) n i, inp i)) ∧
    ∀ j ≤ B, parBounds key inp n B T steps j = offset (fun i => key (inp i)) n j := by
  have hcov := le_idivCeil (n := n) hT
  have hlast : (bounds (T - 1) n (idivCeil n T)).2 = n := by
    unfold bounds; simp only; rw [show T - 1 + 1 = T by omega]; omega
  have hbeg : ∀ j ≤ B, parBegins (accumulate (fun t => localCount key inp n (idivCeil n T) t) T (T - 1)) B steps j =
      offset (fun i => key (inp i)) n j := by
    refine parBegins_eq ?_ hs hc
    intro b _
    rw [accumulate_count key inp n _ T hT (by omega), hlast]
  refine ⟨?_, hbeg⟩
  unfold parWrites
  have : ((List.range T).flatMap fun t => taskWrites key inp n (idivCeil n T)
      (parBegins (accumulate (fun t => localCount key inp n (idivCeil n T) t) T (T - 1)) B steps)
      (accumulate (fun t => localCount key inp n (idivCeil n T) t) T t) t) =
      (List.range T).flatMap fun t => (chunk n (idivCeil n T) t).reverse.map fun i => (pos (fun i => key (inp i)) n i, inp i) := by
    apply List.flatMap_congr
    intro t ht
    exact taskWrites_eq key inp (fun j hj => hbeg j (by omega)) hK
      (fun b => accumulate_count key inp n _ T hT (List.mem_range.1 ht) b)
  simp only
  rw [this, ← chunks_range n (idivCeil n T) T hcov, List.map_flatMap]
  apply List.Perm.flatMap_left
  intro t _
  exact (List.reverse_perm _).map _
end parallel

end CSort
end Verif
