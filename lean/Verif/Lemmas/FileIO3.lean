import Verif.Lemmas.FileIO2
/-!
Ranges of lines and the lists read from them.
-/
namespace Verif
namespace FileIO
open Text
open SMap (wr)

variable {f : File} {pos : Nat} {s t : List Char}

theorem nextLine_le (h : pos ≤ f.length) : pos ≤ nextLineUnchecked f pos ∧ nextLineUnchecked f pos ≤ f.length := by
  unfold nextLineUnchecked
  split
  · rename_i off ho
    have := List.findIdx?_eq_some_iff_findIdx_eq.1 ho
    have h1 := this.1
    simp only [List.length_drop] at h1
    unfold File.length at *
    omega
  · exact ⟨h, Nat.le_refl _⟩

theorem splitSkip_le : ∀ (fuel pos pos' : Nat), splitSkip f fuel pos = .ok pos' → pos ≤ f.length → pos ≤ pos' ∧ pos' ≤ f.length := by
  intro fuel
  induction fuel with
  | zero => intro pos pos' h _; simp [splitSkip] at h
  | succ fuel ih =>
    intro pos pos' h hl
    unfold splitSkip at h
    cases hr : rd f pos with
    | error e => rw [hr] at h; cases h
    | ok c =>
      rw [hr, ok_bind] at h
      split at h
      · have := nextLine_le hl
        have := ih _ _ h this.2
        omega
      · injection h with h
        omega

/-- the ranges cover the lines from `i` to `N` -/
inductive Cov (ls : List Nat) : Nat → Nat → List LineRange → Prop
  | nil (i) : Cov ls i i []
  | cons {i j N rs} : i < j → Cov ls j N rs → Cov ls i N (⟨ls.getD i 0, ls.getD j 0, i, j - i⟩ :: rs)

theorem Cov.le {ls : List Nat} {i N : Nat} {rs : List LineRange} (h : Cov ls i N rs) : i ≤ N := by
  induction h with
  | nil => exact Nat.le_refl _
  | cons h1 _ ih => omega

theorem rangeEnd_spec (ls : List Nat) (bytes sp : Nat) : ∀ (fuel i : Nat), i + 1 < ls.length → ls.length ≤ i + fuel →
    i < rangeEnd ls bytes sp fuel i ∧ rangeEnd ls bytes sp fuel i < ls.length ∧
      (rangeEnd ls bytes sp fuel i + 1 < ls.length → bytes ≤ ls.getD (rangeEnd ls bytes sp fuel i) 0 - sp) := by
  intro fuel
  induction fuel with
  | zero => intro i h1 h2; omega
  | succ fuel ih =>
    intro i h1 h2
    unfold rangeEnd
    dsimp only
    split
    · rename_i hc
      simp only [Bool.and_eq_true, decide_eq_true_eq] at hc
      have := ih (i + 1) hc.1 (by omega)
      exact ⟨by omega, this.2⟩
    · rename_i hc
      simp only [Bool.and_eq_true, decide_eq_true_eq, not_and] at hc
      exact ⟨by omega, h1, fun h => by have := hc h; omega⟩

theorem mono_of {ls : List Nat} {N : Nat} (h : ∀ i < N, ls.getD i 0 ≤ ls.getD (i + 1) 0) : ∀ {i j : Nat}, i ≤ j → j ≤ N → ls.getD i 0 ≤ ls.getD j 0 := by
  intro i j hij
  induction hij with
  | refl => intro _; exact Nat.le_refl _
  | step _ ih => intro hj; exact Nat.le_trans (ih (by omega)) (h _ (by omega))

theorem strict_of {ls : List Nat} {N : Nat} (hm : ∀ i < N, ls.getD i 0 ≤ ls.getD (i + 1) 0) (h : Strict ls N) {i j : Nat} (hij : i < j) (hj : j ≤ N)
    (he : ls.getD i 0 = ls.getD j 0) : i + 1 = N := by
  apply Classical.byContradiction
  intro hn
  have h1 := h i (by omega)
  have h2 := mono_of hm (i := i + 1) (j := j) (by omega) hj
  omega

/-- all lines are covered, except possibly an empty range for the last one -/
theorem rangeLoop_spec {ls : List Nat} {N bytes : Nat} (hN : ls.length = N + 1) (hm : ∀ i < N, ls.getD i 0 ≤ ls.getD (i + 1) 0) (hst : Strict ls N) (hb : 0 < bytes) :
    ∀ (fuel i : Nat), i ≤ N → N < i + fuel →
    (∃ N', Cov ls i N' (rangeLoop ls bytes fuel i) ∧ (N' = N ∨ (N' + 1 = N ∧ ls.getD N' 0 = ls.getD N 0))) ∧
    (1 ≤ (rangeLoop ls bytes fuel i).length → ((rangeLoop ls bytes fuel i).length - 1) * bytes < ls.getD N 0 - ls.getD i 0) := by
  intro fuel
  induction fuel with
  | zero => intro i h1 h2; omega
  | succ fuel ih =>
    intro i hi hf
    unfold rangeLoop
    split
    · rename_i h1
      dsimp only
      obtain ⟨e1, e2, e3⟩ := rangeEnd_spec ls bytes (ls.getD i 0) ls.length i h1 (by omega)
      generalize rangeEnd ls bytes (ls.getD i 0) ls.length i = j at *
      have hle := mono_of hm (i := i) (j := j) (by omega) (by omega)
      have hle2 := mono_of hm (i := j) (j := N) (by omega) (Nat.le_refl _)
      obtain ⟨⟨N', c1, c2⟩, c3⟩ := ih j (by omega) (by omega)
      split
      · rename_i hd
        refine ⟨⟨N', ?_, c2⟩, ?_⟩
        · have : ls.getD i 0 + (ls.getD j 0 - ls.getD i 0) = ls.getD j 0 := by omega
          rw [this]
          exact .cons e1 c1
        · intro _
          simp only [List.cons_append, List.nil_append, List.length_cons, Nat.add_sub_cancel]
          rcases Nat.eq_zero_or_pos (rangeLoop ls bytes fuel j).length with h0 | h0
          · rw [h0]; omega
          · have h4 := c3 h0
            have h5 : j + 1 < ls.length := by
              apply Classical.byContradiction
              intro hn
              have : rangeLoop ls bytes fuel j = [] := by
                cases fuel with
                | zero => rfl
                | succ fuel => unfold rangeLoop; rw [if_neg hn]
              rw [this] at h0; simp at h0
            have h6 := e3 h5
            obtain ⟨k, hk⟩ : ∃ k, (rangeLoop ls bytes fuel j).length = k + 1 := ⟨(rangeLoop ls bytes fuel j).length - 1, by omega⟩
            rw [hk] at h4 ⊢
            rw [Nat.add_sub_cancel] at h4
            rw [Nat.add_mul, Nat.one_mul]
            omega
      · rename_i hd
        have heq : ls.getD i 0 = ls.getD j 0 := by omega
        have hl := strict_of hm hst e1 (by omega) heq
        have hj : j = N := by omega
        have hnil : rangeLoop ls bytes fuel j = [] := by
          cases fuel with
          | zero => rfl
          | succ fuel => unfold rangeLoop; rw [if_neg (by omega)]
        rw [hnil]
        refine ⟨⟨i, .nil i, Or.inr ⟨hl, by rw [heq, hj]⟩⟩, by simp⟩
    · have : i = N := by omega
      subst this
      exact ⟨⟨i, .nil i, Or.inl rfl⟩, by simp⟩

/-- what is known behind the lines: comments and something else, or comments up to the end -/
def Tail (f : File) (t : List Char) (pos : Nat) : Prop :=
  ∃ u, Comments t u ∧ ((hd u ≠ '%' ∧ At f pos u) ∨ (End u ∧ pos = f.length))

theorem tail_skip (hg : Good f) {u : List Char} {p : Nat} (h : At f p t) (hc : Comments t u) (hu : hd u ≠ '%' ∨ End u) :
    ∃ pos', splitSkip f (f.length + 1) p = .ok pos' ∧ ((hd u ≠ '%' ∧ At f pos' u) ∨ (End u ∧ pos' = f.length)) := by
  have hl := h.len
  rcases hu with hu | hu
  · obtain ⟨p', h1, h2⟩ := splitSkip_spec hg hc hu (f.length + 1) p h (by omega)
    exact ⟨p', h1, Or.inl ⟨hu, h2⟩⟩
  · exact ⟨_, splitSkip_end hg hc hu (f.length + 1) p h (by omega), Or.inr ⟨hu, rfl⟩⟩

/-- `split_lines` on lines with the numbers `nss`, followed by comments and `u` -/
theorem splitLines_spec (hg : Good f) {R : Nat} (hR : 0 < R) {nss : List (List Nat)} {u : List Char} (h : Lines nss s t) (hat : At f pos s)
    (hnl : AfterNl f pos ∨ nss = []) (hc : Comments t u) (hu : hd u ≠ '%' ∨ End u) :
    ∃ pos' rs ls N', splitLines f R pos nss.length = .ok (pos', rs) ∧
      ((hd u ≠ '%' ∧ At f pos' u) ∨ (End u ∧ pos' = f.length)) ∧ Found f nss ls ∧ Cov ls 0 N' rs ∧
      (N' = nss.length ∨ (N' + 1 = nss.length ∧ nss.getD N' [] = [])) ∧ rs.length ≤ R := by
  have hlen := hat.len
  have hf0 : Found f [] [pos] := ⟨rfl, by simp⟩
  obtain ⟨pos', ls', h1, ⟨r, h2⟩, h3⟩ := splitLoop_spec hg (tl := fun t' p => t' = t ∧ At f p t)
    (by rintro t' p ⟨rfl, hp⟩; obtain ⟨p', h1, -⟩ := tail_skip hg hp hc hu; exact ⟨p', h1⟩) h (f.length + 2) pos [] [pos] hat hf0 rfl (by simp) hnl
    (by omega) (fun p hp => ⟨rfl, hp⟩)
  simp only [List.length_nil, Nat.zero_add, List.nil_append] at h1 h3
  -- the list of positions in both cases
  have key : ∃ ls, splitLines f R pos nss.length = .ok (pos', rangeLoop ls ((pos' - pos) / R + 1) ls.length 0) ∧ Found f nss ls ∧ Strict ls nss.length ∧
      ls.getD 0 0 = pos ∧ ls.getD nss.length 0 ≤ pos' ∧ ((hd u ≠ '%' ∧ At f pos' u) ∨ (End u ∧ pos' = f.length)) := by
    rcases h3 with ⟨a, b, p, c1, c2, c3, -⟩ | ⟨a, b, c, d, e, g⟩
    · refine ⟨ls', ?_, a, fun i hi => b i (by omega), ?_, ?_, ?_⟩
      · unfold splitLines
        rw [h1, ok_bind]
        dsimp only
        rw [if_neg (by rw [a.1]; omega), ok_bind, if_neg (by rw [a.1]; omega)]
      · rw [h2]; rfl
      · rw [c2]
        have := c1.len
        exact (splitSkip_le _ _ _ c3 (by omega)).1
      · obtain ⟨p', e1, e2⟩ := tail_skip hg c1 hc hu
        rw [e1] at c3
        injection c3 with c3
        exact c3 ▸ e2
    · have hlen' := e.1
      simp only [List.length_append, List.length_cons, List.length_nil] at hlen'
      refine ⟨ls' ++ [pos'], ?_, e, ?_, ?_, ?_, ?_⟩
      · unfold splitLines
        rw [h1, ok_bind]
        dsimp only
        rw [if_pos a, b.2, ok_bind, if_pos rfl, ok_bind, if_neg (by simp; omega)]
      · intro i hi
        rw [getD_append_left (by omega), getD_append_left (by omega)]
        exact g i hi
      · rw [getD_append_left (by rw [h2]; simp), h2]; rfl
      · have : nss.length = ls'.length := by omega
        rw [this, getD_append_last]
      · subst d
        have hu0 : u = [] := by
          generalize hk : ([] : List Char) = k at hc
          cases hc with
          | nil => rfl
          | cons => cases hk
        subst hu0
        exact Or.inr ⟨Or.inl rfl, c⟩
  obtain ⟨ls, k1, k2, k3, k4, k5, k6⟩ := key
  have hm : ∀ i < nss.length, ls.getD i 0 ≤ ls.getD (i + 1) 0 := fun i hi => (k2.2 i hi).lt.1
  obtain ⟨⟨N', c1, c2⟩, c3⟩ := rangeLoop_spec (N := nss.length) (bytes := (pos' - pos) / R + 1) k2.1 hm k3 (Nat.succ_pos _) ls.length 0 (by omega) (by rw [k2.1]; omega)
  refine ⟨pos', _, ls, N', k1, k6, k2, c1, ?_, ?_⟩
  · rcases c2 with c2 | ⟨c2, c4⟩
    · exact Or.inl c2
    · refine Or.inr ⟨c2, ?_⟩
      have := k2.2 N' (by omega)
      rw [c2, c4] at this
      exact this.eq rfl
  · apply Classical.byContradiction
    intro hn
    have h4 := c3 (by omega)
    rw [k4] at h4
    have h5 : pos' - pos < ((pos' - pos) / R + 1) * R := by
      have := Nat.lt_mul_div_succ (pos' - pos) hR
      rw [Nat.mul_comm]; exact this
    have h6 : R * ((pos' - pos) / R + 1) ≤ ((rangeLoop ls ((pos' - pos) / R + 1) ls.length 0).length - 1) * ((pos' - pos) / R + 1) :=
      Nat.mul_le_mul_right _ (by omega)
    rw [Nat.mul_comm] at h5
    omega

/-- one line as it is read by `line` -/
def Reads {α : Type} (f : File) (line : Nat → Nat → Nat → M (α × Nat)) (nss : List (List Nat)) (res : Nat → α) : Prop :=
  ∀ k < nss.length, ∀ (fin pos : Nat) (l e s' : List Char), Line (nss.getD k []) l → At f pos (l ++ (e ++ s')) → (Eol e ∨ (e = [] ∧ s' = [])) →
    pos + l.length + e.length ≤ fin → line k fin pos = .ok (res k, pos + l.length + e.length)

theorem readRange_spec {α : Type} (hg : Good f) {line : Nat → Nat → Nat → M (α × Nat)} {nss : List (List Nat)} {res : Nat → α} (hr : Reads f line nss res)
    {ls : List Nat} (hf : Found f nss ls) (fin : Nat) : ∀ (cnt id : Nat), id + cnt ≤ nss.length → ls.getD (id + cnt) 0 ≤ fin →
    readRange f line fin cnt id (ls.getD id 0) = .ok ((List.range' id cnt).map res) := by
  have hm : ∀ i < nss.length, ls.getD i 0 ≤ ls.getD (i + 1) 0 := fun i hi => (hf.2 i hi).lt.1
  intro cnt
  induction cnt with
  | zero => intro id _ _; rfl
  | succ cnt ih =>
    intro id h1 h2
    unfold readRange
    obtain ⟨s, l, e, s', a1, a2, a3, a4, a5⟩ := hf.2 id (by omega)
    have hl := a1.len
    obtain ⟨p, b1, b2⟩ := skipComments_spec hg a2 (Line.hd_ne a3 a4) (f.length + 1) _ a1 (by omega)
    rw [b1, ok_bind]
    have hp : p + l.length + e.length = ls.getD (id + 1) 0 := by
      have x := b2.app.app.len
      have y := a5.len
      omega
    have hle := mono_of hm (i := id + 1) (j := id + (cnt + 1)) (by omega) h1
    rw [hr id (by omega) fin p l e s' a3 b2 a4 (by omega), ok_bind]
    dsimp only
    rw [hp, ih (id + 1) (by omega) (by rw [show id + 1 + cnt = id + (cnt + 1) by omega]; exact h2), ok_bind]
    rfl

theorem readRanges_spec {α : Type} (hg : Good f) {line : Nat → Nat → Nat → M (α × Nat)} {nss : List (List Nat)} {res : Nat → α} (hr : Reads f line nss res)
    {ls : List Nat} (hf : Found f nss ls) {R i N' : Nat} {rs : List LineRange} (hc : Cov ls i N' rs) (hN : N' ≤ nss.length) (hR : rs.length ≤ R) :
    ∃ loc, readRanges f R line rs = .ok loc ∧ loc.length = rs.length ∧ loc.flatten = (List.range' i (N' - i)).map res := by
  unfold readRanges
  rw [if_neg (by omega)]
  clear hR
  induction hc with
  | nil i => exact ⟨[], rfl, rfl, by simp⟩
  | @cons i j N rs hij hc ih =>
    obtain ⟨loc, h1, h2, h3⟩ := ih hN
    have hle := hc.le
    have hb := readRange_spec hg hr hf (ls.getD j 0) (j - i) i (by omega) (by rw [show i + (j - i) = j by omega])
    refine ⟨(List.range' i (j - i)).map res :: loc, ?_, by simp [h2], ?_⟩
    · rw [List.mapM_cons]
      dsimp only
      rw [hb, ok_bind, h1, ok_bind]
      rfl
    · rw [List.flatten_cons, h3, ← List.map_append]
      congr 1
      have : N - i = (j - i) + (N - j) := by omega
      rw [this, ← List.range'_append (s := i) (m := j - i) (n := N - j) (step := 1)]
      congr 2
      omega

/-! ### Copying -/

theorem copyOne_spec {α : Type} (size start : Nat) (t : Nat → α) (l : List α) (i : Nat) :
    copyOne size start t l i = if start ≤ i ∧ i < start + l.length ∧ i < size then l.getD (i - start) (t i) else t i := by
  unfold copyOne
  suffices H : ∀ m ≤ l.length, ((List.range m).foldl (fun t j => if start + j < min (start + l.length) size then
      (match l[j]? with | some x => wr t (start + j) x | none => t) else t) t) i =
      if start ≤ i ∧ i < start + m ∧ i < size then l.getD (i - start) (t i) else t i by
    exact H l.length (Nat.le_refl _)
  intro m
  induction m with
  | zero => intro _; rw [if_neg (by omega)]; rfl
  | succ m ih =>
    intro hm
    rw [List.range_succ, List.foldl_append, List.foldl_cons, List.foldl_nil]
    have hget : l[m]? = some l[m] := List.getElem?_eq_getElem (by omega)
    rw [hget]
    dsimp only
    by_cases hb : start + m < min (start + l.length) size
    · rw [if_pos hb]
      by_cases hi : i = start + m
      · subst hi
        rw [wr_same, if_pos (by omega), show start + m - start = m by omega, List.getD_eq_getElem?_getD, hget]; rfl
      · rw [wr_other _ _ (by omega), ih (by omega)]
        by_cases hc : start ≤ i ∧ i < start + m ∧ i < size
        · rw [if_pos hc, if_pos (by omega)]
        · rw [if_neg hc, if_neg (by omega)]
    · rw [if_neg hb, ih (by omega)]
      by_cases hc : start ≤ i ∧ i < start + m ∧ i < size
      · rw [if_pos hc, if_pos (by omega)]
      · rw [if_neg hc, if_neg (by omega)]

/-- number of entries before list `k` -/
def off {α : Type} (source : List (List α)) (k : Nat) : Nat := ((source.take k).map List.length).sum

theorem off_succ {α : Type} {source : List (List α)} {k : Nat} (h : k < source.length) : off source (k + 1) = off source k + (source.getD k []).length := by
  unfold off
  rw [List.take_add_one, List.getElem?_eq_getElem h, List.map_append, List.sum_append]
  simp [List.getD_eq_getElem?_getD, List.getElem?_eq_getElem h]

theorem off_mono {α : Type} {source : List (List α)} {j k : Nat} (h : j ≤ k) : off source j ≤ off source k := by
  induction h with
  | refl => exact Nat.le_refl _
  | @step k _ ih =>
    refine Nat.le_trans ih ?_
    by_cases hk : k < source.length
    · have := off_succ hk
      unfold off at *; simp only [Nat.succ_eq_add_one] at *; omega
    · unfold off
      rw [List.take_of_length_le (by omega), List.take_of_length_le (by simp only [Nat.succ_eq_add_one]; omega)]

theorem off_sep {α : Type} {source : List (List α)} {j k i : Nat} (hj : off source j ≤ i ∧ i < off source j + (source.getD j []).length)
    (hk : off source k ≤ i ∧ i < off source k + (source.getD k []).length) : j = k := by
  have hlj : j < source.length := by
    apply Classical.byContradiction; intro hn
    rw [List.getD_eq_getElem?_getD, List.getElem?_eq_none (by omega)] at hj
    simp at hj; omega
  have hlk : k < source.length := by
    apply Classical.byContradiction; intro hn
    rw [List.getD_eq_getElem?_getD, List.getElem?_eq_none (by omega)] at hk
    simp at hk; omega
  have e1 := off_succ hlj
  have e2 := off_succ hlk
  rcases Nat.lt_trichotomy j k with h | h | h
  · have := off_mono (source := source) (j := j + 1) (k := k) h; omega
  · exact h
  · have := off_mono (source := source) (j := k + 1) (k := j) h; omega

theorem copyToGlobal_at {α : Type} {source : List (List α)} {size : Nat} {t : Nat → α} {ord : List Nat} {k r : Nat} (hk : k ∈ ord)
    (hr : r < (source.getD k []).length) (hs : off source k + r < size) (d : α) :
    (copyToGlobal source size t ord).1 (off source k + r) = (source.getD k []).getD r d := by
  unfold copyToGlobal
  dsimp only
  suffices H : ∀ (ord : List Nat) (t : Nat → α), (k ∈ ord ∨ t (off source k + r) = (source.getD k []).getD r d) →
      (ord.foldl (fun t i => copyOne size ((source.take i).map List.length).sum t (source.getD i [])) t) (off source k + r) = (source.getD k []).getD r d from
    H ord t (Or.inl hk)
  intro ord
  induction ord with
  | nil =>
    intro t h
    rcases h with h | h
    · simp at h
    · exact h
  | cons j ord ih =>
    intro t h
    rw [List.foldl_cons]
    apply ih
    by_cases hj : j = k
    · right
      subst hj
      rw [copyOne_spec]
      have : ((source.take j).map List.length).sum = off source j := rfl
      rw [this, if_pos (by omega), show off source j + r - off source j = r by omega]
      generalize source.getD j [] = l at hr ⊢
      rw [List.getD_eq_getElem?_getD, List.getD_eq_getElem?_getD, List.getElem?_eq_getElem hr]; rfl
    · rcases h with h | h
      · left
        rcases List.mem_cons.1 h with h | h
        · exact absurd h.symm hj
        · exact h
      · right
        rw [copyOne_spec, if_neg]
        · exact h
        · intro hc
          exact hj (off_sep (source := source) (i := off source k + r) ⟨hc.1, hc.2.1⟩ ⟨by omega, by omega⟩)

theorem off_length {α : Type} (source : List (List α)) : off source source.length = source.flatten.length := by
  unfold off
  rw [List.take_length, List.length_flatten]

theorem map_flatten_of_at {α : Type} {source : List (List α)} {g : Nat → α} (d : α)
    (h : ∀ k r, k < source.length → r < (source.getD k []).length → g (off source k + r) = (source.getD k []).getD r d) :
    ∀ m ≤ source.length, (List.range (off source m)).map g = (source.take m).flatten := by
  intro m
  induction m with
  | zero => intro _; rfl
  | succ m ih =>
    intro hm
    rw [off_succ (by omega), List.range_add, List.map_append, ih (by omega), List.map_map, List.take_add_one,
      List.getElem?_eq_getElem (by omega), List.flatten_append]
    congr 1
    have hs : source.getD m [] = source[m] := by
      rw [List.getD_eq_getElem?_getD, List.getElem?_eq_getElem (by omega)]; rfl
    simp only [Option.toList_some, List.flatten_cons, List.flatten_nil, List.append_nil]
    rw [← hs]
    apply List.ext_getElem
    · simp
    · intro r h1 h2
      simp only [List.getElem_map, List.getElem_range, Function.comp_apply]
      rw [h m r (by omega) h2, List.getD_eq_getElem?_getD, List.getElem?_eq_getElem h2]; rfl

/-- `copy_to_global_list` concatenates the lists, whatever the order of the iterations -/
theorem copyToGlobal_spec {α : Type} (source : List (List α)) (t : Nat → α) (d : α) (ord : List Nat) (ho : ∀ k < source.length, k ∈ ord) :
    (List.range source.flatten.length).map (copyToGlobal source source.flatten.length t ord).1 = source.flatten ∧
    (copyToGlobal source source.flatten.length t ord).2 = source.flatten.length := by
  constructor
  · have h := map_flatten_of_at (source := source) (g := (copyToGlobal source source.flatten.length t ord).1) d (by
      intro k r hk hr
      refine copyToGlobal_at (ho k hk) hr ?_ d
      have e1 := off_succ hk
      have e2 := off_mono (source := source) (j := k + 1) (k := source.length) hk
      rw [off_length] at e2
      omega) source.length (Nat.le_refl _)
    rw [off_length, List.take_length] at h
    exact h
  · unfold copyToGlobal
    rw [List.length_flatten]

end FileIO
end Verif
