import Verif.Lemmas.Rollback3
/-!
# The best prefix is found by every execution of the parallel scan
-/
namespace Verif.Rollback

/-! ### The order on prefixes -/

theorem Prefix.lt_iff {a b : Prefix} : a.lt b = true ↔
    b.gain < a.gain ∨ (a.gain = b.gain ∧ (a.heaviest < b.heaviest ∨ (a.heaviest = b.heaviest ∧ a.best < b.best))) := by
  unfold Prefix.lt
  simp only [Bool.or_eq_true, Bool.and_eq_true, decide_eq_true_eq, beq_iff_eq, gt_iff_lt]

/-- `a` is at least as good as `b` -/
def Prefix.le (a b : Prefix) : Prop := ¬ b.lt a = true

theorem Prefix.le_iff {a b : Prefix} : a.le b ↔
    b.gain < a.gain ∨ (a.gain = b.gain ∧ (a.heaviest < b.heaviest ∨ (a.heaviest = b.heaviest ∧ a.best ≤ b.best))) := by
  unfold Prefix.le
  rw [Prefix.lt_iff]
  omega

theorem Prefix.le_refl (a : Prefix) : a.le a := by rw [Prefix.le_iff]; omega

theorem Prefix.le_trans {a b c : Prefix} (h : a.le b) (h' : b.le c) : a.le c := by
  rw [Prefix.le_iff] at *; omega

theorem Prefix.min_le_left (a b : Prefix) : (Prefix.min a b).le a := by
  unfold Prefix.min
  split_ifs with h
  · rw [Prefix.le_iff]; rw [Prefix.lt_iff] at h; omega
  · exact Prefix.le_refl _

theorem Prefix.min_le_right (a b : Prefix) : (Prefix.min a b).le b := by
  unfold Prefix.min
  split_ifs with h
  · exact Prefix.le_refl _
  · exact h

theorem Prefix.min_cases (a b : Prefix) : Prefix.min a b = a ∨ Prefix.min a b = b := by
  unfold Prefix.min; split_ifs <;> simp

/-! ### Sums over the sequence -/

section
variable (k : Nat) (nw : Nat → Int) (ms : List FMMove) (gain : Nat → Int) (Wmax W : Nat → Int)

/-- gain of the first `i` entries -/
def cumGain : Nat → Int
  | 0 => 0
  | i + 1 => cumGain i + (match ms[i]? with | some m => (match m.src with | some _ => gain i | none => 0) | none => 0)

/-- block weights after the first `i` entries -/
def wAt : Nat → Nat → Int
  | 0 => W
  | i + 1 => match ms[i]? with
    | some m => (match m.src with
      | some src => addW (addW (wAt i) src (-nw m.node)) m.dst (nw m.node)
      | none => wAt i)
    | none => wAt i

def accSum (x : Nat) : Int := if x = 0 then 0 else cumGain ms gain (x - 1)
def accW (x : Nat) : Nat → Int := if x = 0 then fun _ => 0 else wAt nw ms W (x - 1)

/-- a body that accumulated positions `a .. b` -/
def BodyIs (b : Body) (x y : Nat) : Prop :=
  x ≤ y ∧ b.sum = accSum ms gain y - accSum ms gain x ∧ ∀ c, b.wts c = accW nw ms W y c - accW nw ms W x c

theorem wAt_succ_sub (i c : Nat) (X : Nat → Int) {m : FMMove} {src : Nat} (hm : ms[i]? = some m)
    (hs : m.src = some src) (d : Nat → Int) (hX : ∀ c, X c = wAt nw ms W i c - d c) :
    addW (addW X src (-nw m.node)) m.dst (nw m.node) c = wAt nw ms W (i + 1) c - d c := by
  have : wAt nw ms W (i + 1) = addW (addW (wAt nw ms W i) src (-nw m.node)) m.dst (nw m.node) := by
    rw [wAt, hm]; simp only [hs]
  rw [this]
  unfold addW
  simp only [hX]
  split_ifs <;> omega

theorem preScan_spec (n : Nat) : ∀ (l a : Nat) (b : Body), BodyIs nw ms gain W b a (l + 1) →
    BodyIs nw ms gain W (preScan nw ms gain l n b) a (l + n + 1) := by
  induction n with
  | zero => intro l a b h; exact h
  | succ n ih =>
    intro l a b h
    unfold preScan
    rw [List.range'_succ, List.foldl_cons]
    have := ih (l + 1) a
    unfold preScan at this
    rw [show l + (n + 1) + 1 = l + 1 + n + 1 by omega]
    apply this
    obtain ⟨h1, h2, h3⟩ := h
    have e1 : accSum ms gain (l + 1 + 1) = cumGain ms gain (l + 1) := by simp [accSum]
    have e2 : accSum ms gain (l + 1) = cumGain ms gain l := by simp [accSum]
    have e3 : accW nw ms W (l + 1 + 1) = wAt nw ms W (l + 1) := by simp [accW]
    have e4 : accW nw ms W (l + 1) = wAt nw ms W l := by simp [accW]
    cases hm : ms[l]? with
    | none =>
      refine ⟨by omega, ?_, ?_⟩
      · rw [e1, cumGain, hm, h2, e2]; simp
      · intro c; rw [e3, wAt, hm, h3, e4]
    | some m =>
      cases hs : m.src with
      | none =>
        refine ⟨by omega, ?_, ?_⟩
        · simp only [hs]; rw [e1, cumGain, hm, h2, e2]; simp [hs]
        · intro c; simp only [hs]; rw [e3, wAt, hm, h3, e4]; simp only [hs]
      | some src =>
        refine ⟨by omega, ?_, ?_⟩
        · simp only [hs]; rw [e1, cumGain, hm, h2, e2]; simp only [hs]; omega
        · intro c; simp only [hs]; rw [e3]
          exact wAt_succ_sub nw ms W l c b.wts hm hs _ (fun c => by rw [h3, e4])

/-! ### Counting overloaded blocks -/

theorem countP_update (p q : Nat → Bool) (b : Nat) (h : ∀ c, c ≠ b → p c = q c) (n : Nat) :
    (List.range n).countP q + (if b < n ∧ p b = true then 1 else 0) =
      (List.range n).countP p + (if b < n ∧ q b = true then 1 else 0) := by
  induction n with
  | zero => simp
  | succ n ih =>
    rw [List.range_succ, List.countP_append, List.countP_append, List.countP_singleton, List.countP_singleton]
    by_cases hb : b = n
    · subst hb
      simp only [Nat.lt_irrefl, false_and, if_false, Nat.add_zero] at ih
      simp only [Nat.lt_succ_self, true_and]
      rw [ih]; omega
    · rw [h n (Ne.symm hb)]
      have e : (b < n + 1) ↔ (b < n) := by omega
      simp only [e]; omega

theorem countOver_addW (X : Nat → Int) (b : Nat) (hb : b < k) (x : Int) :
    countOver k Wmax (addW X b x) + (if X b > Wmax b then 1 else 0) =
      countOver k Wmax X + (if X b + x > Wmax b then 1 else 0) := by
  unfold countOver
  have := countP_update (fun c => decide (X c > Wmax c)) (fun c => decide (addW X b x c > Wmax c)) b
    (fun c hc => by simp [addW, hc]) k
  simp only [hb, true_and, decide_eq_true_eq] at this
  have e : addW X b x b = X b + x := by simp [addW]
  rw [e] at this
  exact this

theorem countOver_zero (X : Nat → Int) : countOver k Wmax X = 0 ↔ ∀ b < k, X b ≤ Wmax b := by
  unfold countOver
  rw [List.countP_eq_zero]
  simp

/-! ### Candidates -/

/-- the prefix ending with entry `i` -/
def prefixAt (i : Nat) : Prefix :=
  { gain := cumGain ms gain (i + 1), best := i + 1, heaviest := maxElement k (wAt nw ms W (i + 1)) }

/-- entry `i` is a move after which the partition is balanced and the gain so far is not negative -/
structure Cand (i : Nat) : Prop where
  valid : ∃ m : FMMove, ms[i]? = some m ∧ m.src ≠ none
  balanced : ∀ b < k, wAt nw ms W (i + 1) b ≤ Wmax b
  nonneg : 0 ≤ cumGain ms gain (i + 1)

structure FinInv (l i : Nat) (s : FinSt) : Prop where
  sum : s.body.sum = cumGain ms gain i
  wts : ∀ c, s.body.wts c = wAt nw ms W i c
  over : s.over = countOver k Wmax s.body.wts
  cur : s.cur = Prefix.default ∨ ∃ j, l ≤ j ∧ j < i ∧ Cand k nw ms gain Wmax W j ∧ s.cur = prefixAt k nw ms gain W j
  best : ∀ j, l ≤ j → j < i → Cand k nw ms gain Wmax W j → s.cur.le (prefixAt k nw ms gain W j)

variable {k nw ms gain Wmax W}

theorem FinInv.step (hm : ∀ m ∈ ms, ∀ b, m.src = some b → b < k ∧ m.dst < k ∧ b ≠ m.dst ∧ 0 ≤ nw m.node)
    {l i : Nat} (hli : l ≤ i) {s : FinSt} (h : FinInv k nw ms gain Wmax W l i s) :
    FinInv k nw ms gain Wmax W l (i + 1) (finIter k nw ms gain Wmax s i) := by
  have hskip : (∀ m, ms[i]? = some m → m.src = none) → FinInv k nw ms gain Wmax W l (i + 1) s := by
    intro hs
    have e1 : cumGain ms gain (i + 1) = cumGain ms gain i := by
      rw [cumGain]
      cases hh : ms[i]? with
      | none => simp
      | some m => simp [hs m hh]
    have e2 : wAt nw ms W (i + 1) = wAt nw ms W i := by
      rw [wAt]
      cases hh : ms[i]? with
      | none => rfl
      | some m => simp only [hs m hh]
    refine ⟨by rw [e1]; exact h.sum, by rw [e2]; exact h.wts, h.over, ?_, ?_⟩
    · rcases h.cur with hc | ⟨j, h1, h2, h3⟩
      · exact Or.inl hc
      · exact Or.inr ⟨j, h1, by omega, h3⟩
    · intro j h1 h2 h3
      by_cases hj : j = i
      · subst hj
        obtain ⟨m, h4, h5⟩ := h3.valid
        exact absurd (hs m h4) h5
      · exact h.best j h1 (by omega) h3
  unfold finIter
  cases hi : ms[i]? with
  | none => exact hskip (by rw [hi]; simp)
  | some m =>
    cases hs : m.src with
    | none => simp only [hs]; exact hskip (by rw [hi]; intro m' h'; cases h'; exact hs)
    | some src =>
      simp only [hs]
      obtain ⟨hsk, hdk, hne, hnw⟩ := hm m (List.mem_of_getElem? hi) src hs
      have hsum : s.body.sum + gain i = cumGain ms gain (i + 1) := by
        rw [cumGain, hi, h.sum]; simp [hs]
      have hw2 : addW (addW s.body.wts src (-nw m.node)) m.dst (nw m.node) = wAt nw ms W (i + 1) := by
        funext c
        have := wAt_succ_sub nw ms W i c s.body.wts hi hs (fun _ => 0) (fun c => by rw [h.wts]; simp)
        rw [this]; simp
      have hover : (if (!decide (addW s.body.wts src (-nw m.node) m.dst > Wmax m.dst) &&
            decide (addW (addW s.body.wts src (-nw m.node)) m.dst (nw m.node) m.dst > Wmax m.dst)) = true then
            (if (decide (s.body.wts src > Wmax src) && decide (addW s.body.wts src (-nw m.node) src ≤ Wmax src)) = true
              then s.over - 1 else s.over) + 1
          else if (decide (s.body.wts src > Wmax src) && decide (addW s.body.wts src (-nw m.node) src ≤ Wmax src)) = true
              then s.over - 1 else s.over) =
          countOver k Wmax (addW (addW s.body.wts src (-nw m.node)) m.dst (nw m.node)) := by
        have c1 := countOver_addW k Wmax s.body.wts src hsk (-nw m.node)
        have c2 := countOver_addW k Wmax (addW s.body.wts src (-nw m.node)) m.dst hdk (nw m.node)
        have e1 : addW s.body.wts src (-nw m.node) src = s.body.wts src + -nw m.node := by simp [addW]
        have e2 : addW (addW s.body.wts src (-nw m.node)) m.dst (nw m.node) m.dst =
            addW s.body.wts src (-nw m.node) m.dst + nw m.node := by simp [addW]
        rw [e1, e2, h.over]
        simp only [Bool.and_eq_true, Bool.not_eq_true', decide_eq_false_iff_not, decide_eq_true_eq]
        generalize addW s.body.wts src (-nw m.node) m.dst = y at *
        generalize countOver k Wmax (addW (addW s.body.wts src (-nw m.node)) m.dst (nw m.node)) = C2 at *
        generalize countOver k Wmax (addW s.body.wts src (-nw m.node)) = C1 at *
        generalize countOver k Wmax s.body.wts = C0 at *
        split_ifs at * <;> omega
      rw [hover, hsum, hw2]
      have hcurg : 0 ≤ s.cur.gain := by
        rcases h.cur with hc | ⟨j, _, _, h3, h4⟩
        · rw [hc]; exact Int.le_refl 0
        · rw [h4]; exact h3.nonneg
      refine ⟨rfl, fun _ => rfl, rfl, ?_, ?_⟩
      · simp only
        split_ifs with hc
        · simp only [Bool.and_eq_true, beq_iff_eq, decide_eq_true_eq, countOver_zero] at hc
          rcases Prefix.min_cases s.cur ⟨cumGain ms gain (i + 1), i + 1,
              maxElement k (wAt nw ms W (i + 1))⟩ with he | he
          · rw [he]
            rcases h.cur with hc | ⟨j, h1, h2, h3⟩
            · exact Or.inl hc
            · exact Or.inr ⟨j, h1, by omega, h3⟩
          · rw [he]
            exact Or.inr ⟨i, hli, by omega, ⟨⟨m, hi, by rw [hs]; simp⟩, hc.1, by omega⟩, rfl⟩
        · rcases h.cur with hc | ⟨j, h1, h2, h3⟩
          · exact Or.inl hc
          · exact Or.inr ⟨j, h1, by omega, h3⟩
      · intro j h1 h2 h3
        simp only
        by_cases hj : j = i
        · subst hj
          split_ifs with hc
          · exact Prefix.min_le_right _ _
          · simp only [Bool.and_eq_true, beq_iff_eq, decide_eq_true_eq, countOver_zero, not_and] at hc
            have := hc h3.balanced
            rw [Prefix.le_iff]
            left
            show cumGain ms gain (j + 1) < _
            omega
        · have := h.best j h1 (by omega) h3
          split_ifs with hc
          · exact Prefix.le_trans (Prefix.min_le_left _ _) this
          · exact this

theorem finIter_fold (hm : ∀ m ∈ ms, ∀ b, m.src = some b → b < k ∧ m.dst < k ∧ b ≠ m.dst ∧ 0 ≤ nw m.node)
    {l : Nat} (n : Nat) : ∀ (i : Nat) (s : FinSt), l ≤ i → FinInv k nw ms gain Wmax W l i s →
    FinInv k nw ms gain Wmax W l (i + n) ((List.range' i n).foldl (finIter k nw ms gain Wmax) s) := by
  induction n with
  | zero => intro i s _ h; exact h
  | succ n ih =>
    intro i s hi h
    rw [List.range'_succ, List.foldl_cons, show i + (n + 1) = i + 1 + n by omega]
    exact ih _ _ (by omega) (h.step hm hi)

/-- result of one final scan -/
theorem finScan_spec (hm : ∀ m ∈ ms, ∀ b, m.src = some b → b < k ∧ m.dst < k ∧ b ≠ m.dst ∧ 0 ≤ nw m.node)
    (hh : ∀ j, Cand k nw ms gain Wmax W j → (prefixAt k nw ms gain W j).heaviest < maxHNW)
    {l n : Nat} {b : Body} (hb : BodyIs nw ms gain W b 0 (l + 1)) (lb : Prefix) :
    BodyIs nw ms gain W (finScan k nw ms gain Wmax l n b lb).1 0 (l + n + 1) ∧
    ((finScan k nw ms gain Wmax l n b lb).2 = lb ∨ ∃ j, l ≤ j ∧ j < l + n ∧ Cand k nw ms gain Wmax W j ∧
      (finScan k nw ms gain Wmax l n b lb).2 = prefixAt k nw ms gain W j) ∧
    (finScan k nw ms gain Wmax l n b lb).2.le lb ∧
    (∀ j, l ≤ j → j < l + n → Cand k nw ms gain Wmax W j →
      (finScan k nw ms gain Wmax l n b lb).2.le (prefixAt k nw ms gain W j)) := by
  obtain ⟨h1, h2, h3⟩ := hb
  have h0 : FinInv k nw ms gain Wmax W l l
      { body := b, over := countOver k Wmax b.wts, cur := Prefix.default } := by
    refine ⟨?_, ?_, rfl, Or.inl rfl, ?_⟩
    · simp only [h2]; simp [accSum]
    · intro c; simp only [h3]; simp [accW]
    · intro j _ _; omega
  have hI := finIter_fold hm n l _ (Nat.le_refl l) h0
  unfold finScan
  generalize (List.range' l n).foldl (finIter k nw ms gain Wmax)
      { body := b, over := countOver k Wmax b.wts, cur := Prefix.default } = s at hI
  simp only
  refine ⟨⟨by omega, ?_, ?_⟩, ?_, ?_, ?_⟩
  · rw [hI.sum]; simp [accSum]
  · intro c; rw [hI.wts]; simp [accW]
  · split_ifs with hc
    · rcases hI.cur with he | ⟨j, h4, h5, h6, h7⟩
      · rw [he] at hc; exact absurd rfl hc
      · rcases Prefix.min_cases lb s.cur with he | he
        · exact Or.inl he
        · exact Or.inr ⟨j, h4, h5, h6, by rw [he, h7]⟩
    · exact Or.inl rfl
  · split_ifs with hc
    · exact Prefix.min_le_left _ _
    · exact Prefix.le_refl _
  · intro j h4 h5 h6
    have hle := hI.best j h4 h5 h6
    split_ifs with hc
    · exact Prefix.le_trans (Prefix.min_le_right _ _) hle
    · exfalso
      rcases hI.cur with he | ⟨j', _, _, _, he⟩
      · rw [he, Prefix.le_iff] at hle
        have hg := h6.nonneg
        have hv := hh j h6
        have e1 : Prefix.default.gain = 0 := rfl
        have e2 : Prefix.default.heaviest = maxHNW := rfl
        have e3 : (prefixAt k nw ms gain W j).gain = cumGain ms gain (j + 1) := rfl
        rw [e1, e2, e3] at hle
        omega
      · rw [he] at hc; exact hc (by simp [prefixAt])

/-! ### The whole scan -/

/-- threads that executed a final scan -/
def finThreads (steps : List BStep) : List Nat :=
  steps.filterMap (fun s => match s with | .fin _ _ _ t => some t | _ => none)

structure ScanInv (k : Nat) (nw : Nat → Int) (ms : List FMMove) (gain : Nat → Int) (Wmax W : Nat → Int)
    (g : BGhost) (s : BScan) (ths : List Nat) : Prop where
  body : ∀ c a b, g.cov c = some (a, b) → BodyIs nw ms gain W (s.body c) a b
  best : ∀ t, s.best t = Prefix.default ∨ ∃ j, Cand k nw ms gain Wmax W j ∧ s.best t = prefixAt k nw ms gain W j
  found : ∀ j, g.done j = true → Cand k nw ms gain Wmax W j → ∃ t ∈ ths, (s.best t).le (prefixAt k nw ms gain W j)

theorem bodyIs_empty (p : Nat) : BodyIs nw ms gain W { sum := 0, wts := fun _ => 0 } p p := by
  refine ⟨Nat.le_refl _, ?_, fun c => ?_⟩ <;> simp

theorem bodyIs_join {b b' : Body} {x y z : Nat} (h : BodyIs nw ms gain W b x y) (h' : BodyIs nw ms gain W b' y z) :
    BodyIs nw ms gain W { sum := b'.sum + b.sum, wts := fun c => b'.wts c + b.wts c } x z := by
  obtain ⟨h1, h2, h3⟩ := h
  obtain ⟨h4, h5, h6⟩ := h'
  refine ⟨by omega, ?_, fun c => ?_⟩
  · simp only; omega
  · simp only [h3, h6]; omega

theorem ScanInv.step (hm : ∀ m ∈ ms, ∀ b, m.src = some b → b < k ∧ m.dst < k ∧ b ≠ m.dst ∧ 0 ≤ nw m.node)
    (hh : ∀ j, Cand k nw ms gain Wmax W j → (prefixAt k nw ms gain W j).heaviest < maxHNW)
    {n : Nat} {g g' : BGhost} {st : BStep} (hst : BGhost.Step n g st g') {s : BScan} {ths : List Nat}
    (h : ScanInv k nw ms gain Wmax W g s ths) :
    ScanInv k nw ms gain Wmax W g' (BScan.step k nw ms gain Wmax s st) (ths ++ finThreads [st]) := by
  cases hst with
  | split c p =>
    refine ⟨?_, h.best, ?_⟩
    · intro x a b hx
      simp only [BScan.step] at hx ⊢
      split_ifs at hx ⊢ with hc
      · cases hx; exact bodyIs_empty _
      · exact h.body x a b hx
    · intro j hj hc
      obtain ⟨t, h1, h2⟩ := h.found j hj hc
      exact ⟨t, by simp [h1], h2⟩
  | @pre c l r a hcov hlr hrn =>
    refine ⟨?_, h.best, ?_⟩
    · intro x a' b hx
      simp only [BScan.step] at hx ⊢
      split_ifs at hx ⊢ with hc
      · cases hx
        have := preScan_spec nw ms gain W (r - l) l a _ (h.body c a (l + 1) hcov)
        rwa [show l + (r - l) + 1 = r + 1 by omega] at this
      · exact h.body x a' b hx
    · intro j hj hc
      obtain ⟨t, h1, h2⟩ := h.found j hj hc
      exact ⟨t, by simp [h1], h2⟩
  | @fin c l r t hcov hlr hrn hdone =>
    obtain ⟨f1, f2, f3, f4⟩ := finScan_spec hm hh (n := r - l) (h.body c 0 (l + 1) hcov) (s.best t)
    rw [show l + (r - l) + 1 = r + 1 by omega] at f1
    rw [show l + (r - l) = r by omega] at f2 f4
    refine ⟨?_, ?_, ?_⟩
    · intro x a' b hx
      simp only [BScan.step] at hx ⊢
      split_ifs at hx ⊢ with hc
      · cases hx; exact f1
      · exact h.body x a' b hx
    · intro x
      simp only [BScan.step]
      split_ifs with hx
      · rcases f2 with f2 | ⟨j, _, _, f5, f6⟩
        · rw [f2]; exact h.best t
        · exact Or.inr ⟨j, f5, f6⟩
      · exact h.best x
    · intro j hj hc
      simp only at hj
      by_cases hjr : l ≤ j ∧ j < r
      · refine ⟨t, by simp [finThreads], ?_⟩
        simp only [BScan.step, if_true]
        exact f4 j hjr.1 hjr.2 hc
      · rw [if_neg hjr] at hj
        obtain ⟨t', h1, h2⟩ := h.found j hj hc
        refine ⟨t', by simp [h1], ?_⟩
        simp only [BScan.step]
        split_ifs with hx
        · subst hx; exact Prefix.le_trans f3 h2
        · exact h2
  | @join right left a b c hne hl hr =>
    refine ⟨?_, h.best, ?_⟩
    · intro x a' b' hx
      simp only [BScan.step] at hx ⊢
      split_ifs at hx ⊢ with hc
      · cases hx; exact bodyIs_join (h.body left _ _ hl) (h.body right _ _ hr)
      · exact h.body x a' b' hx
    · intro j hj hc
      obtain ⟨t, h1, h2⟩ := h.found j hj hc
      exact ⟨t, by simp [h1], h2⟩
  | @assign c d =>
    refine ⟨?_, h.best, ?_⟩
    · intro x a' b' hx
      simp only [BScan.step] at hx ⊢
      split_ifs at hx ⊢ with hc
      exact h.body x a' b' hx
    · intro j hj hc
      obtain ⟨t, h1, h2⟩ := h.found j hj hc
      exact ⟨t, by simp [h1], h2⟩

theorem ScanInv.steps (hm : ∀ m ∈ ms, ∀ b, m.src = some b → b < k ∧ m.dst < k ∧ b ≠ m.dst ∧ 0 ≤ nw m.node)
    (hh : ∀ j, Cand k nw ms gain Wmax W j → (prefixAt k nw ms gain W j).heaviest < maxHNW)
    {n : Nat} {g g' : BGhost} {sts : List BStep} (hst : BGhost.Steps n g sts g') : ∀ {s : BScan} {ths : List Nat},
    ScanInv k nw ms gain Wmax W g s ths →
    ScanInv k nw ms gain Wmax W g' (sts.foldl (BScan.step k nw ms gain Wmax) s) (ths ++ finThreads sts) := by
  induction hst with
  | nil g => intro s ths h; simpa [finThreads] using h
  | @cons g g' g'' st sts h1 _ ih =>
    intro s ths h
    have := ih (h.step hm hh h1)
    rw [List.foldl_cons]
    have e : ths ++ finThreads (st :: sts) = ths ++ finThreads [st] ++ finThreads sts := by
      rw [List.append_assoc]; congr 1
      unfold finThreads
      rw [← List.filterMap_append]; rfl
    rw [e]; exact this

theorem finalize_spec (best : Nat → Prefix) (threads : List Nat) : ∀ p : Prefix,
    (threads.foldl (fun res t => Prefix.min res (best t)) p).le p ∧
    (∀ t ∈ threads, (threads.foldl (fun res t => Prefix.min res (best t)) p).le (best t)) ∧
    (threads.foldl (fun res t => Prefix.min res (best t)) p = p ∨
      ∃ t ∈ threads, threads.foldl (fun res t => Prefix.min res (best t)) p = best t) := by
  induction threads with
  | nil => intro p; exact ⟨Prefix.le_refl _, by simp, Or.inl rfl⟩
  | cons t ts ih =>
    intro p
    obtain ⟨h1, h2, h3⟩ := ih (Prefix.min p (best t))
    simp only [List.foldl_cons]
    refine ⟨Prefix.le_trans h1 (Prefix.min_le_left _ _), ?_, ?_⟩
    · intro t' ht'
      rcases List.mem_cons.1 ht' with rfl | ht'
      · exact Prefix.le_trans h1 (Prefix.min_le_right _ _)
      · exact h2 t' ht'
    · rcases h3 with h3 | ⟨t', h4, h5⟩
      · rcases Prefix.min_cases p (best t) with he | he
        · left; rw [h3, he]
        · right; exact ⟨t, by simp, by rw [h3, he]⟩
      · right; exact ⟨t', by simp [h4], h5⟩

/-- **The scan returns the best prefix**, whatever the execution of `parallel_scan`. -/
theorem scan_best (hm : ∀ m ∈ ms, ∀ b, m.src = some b → b < k ∧ m.dst < k ∧ b ≠ m.dst ∧ 0 ≤ nw m.node)
    (hh : ∀ j, Cand k nw ms gain Wmax W j → (prefixAt k nw ms gain W j).heaviest < maxHNW)
    (hW : maxElement k W ≤ maxHNW)
    {g : BGhost} {sts : List BStep} (hst : BGhost.Steps ms.length BGhost.init sts g) (hc : g.Complete ms.length)
    {threads : List Nat} (ht : ∀ t ∈ finThreads sts, t ∈ threads) :
    let r := finalize k W (BScan.run k nw ms gain Wmax W sts).best threads
    (r = { gain := 0, best := 0, heaviest := maxElement k W } ∨
      ∃ j, Cand k nw ms gain Wmax W j ∧ r = prefixAt k nw ms gain W j) ∧
    r.le { gain := 0, best := 0, heaviest := maxElement k W } ∧
    (∀ j, Cand k nw ms gain Wmax W j → r.le (prefixAt k nw ms gain W j)) := by
  have h0 : ScanInv k nw ms gain Wmax W BGhost.init
      { body := fun _ => { sum := 0, wts := W }, best := fun _ => Prefix.default } [] := by
    refine ⟨?_, fun _ => Or.inl rfl, ?_⟩
    · intro c a b hcov
      unfold BGhost.init at hcov
      simp only at hcov
      split_ifs at hcov with h
      cases hcov
      refine ⟨by omega, ?_, fun c => ?_⟩
      · simp [accSum, cumGain]
      · simp [accW, wAt]
    · intro j hj; simp [BGhost.init] at hj
  have hI := h0.steps hm hh hst
  rw [List.nil_append] at hI
  intro r
  obtain ⟨f1, f2, f3⟩ := finalize_spec (BScan.run k nw ms gain Wmax W sts).best threads
    { gain := 0, best := 0, heaviest := maxElement k W }
  change r.le _ at f1
  change ∀ t ∈ threads, r.le _ at f2
  change r = _ ∨ ∃ t ∈ threads, r = _ at f3
  refine ⟨?_, f1, ?_⟩
  · rcases f3 with f3 | ⟨t, _, f4⟩
    · exact Or.inl f3
    · rcases hI.best t with hb | ⟨j, h1, h2⟩
      · left
        have e : r = Prefix.default := f4.trans hb
        rw [e, Prefix.le_iff] at f1
        have e1 : Prefix.default.gain = 0 := rfl
        have e2 : Prefix.default.heaviest = maxHNW := rfl
        rw [e1, e2] at f1
        have : maxHNW = maxElement k W := by
          have h3 := f1
          rcases h3 with h3 | ⟨_, h3 | ⟨h3, _⟩⟩
          · exact absurd h3 (by simp)
          · simp only at h3; omega
          · exact h3
        rw [e, ← this]; rfl
      · exact Or.inr ⟨j, h1, f4.trans h2⟩
  · intro j hj
    obtain ⟨m, hjm, _⟩ := hj.valid
    have hlt : j < ms.length := (List.getElem?_eq_some_iff.1 hjm).1
    obtain ⟨t, h1, h2⟩ := hI.found j (hc j hlt) hj
    exact Prefix.le_trans (f2 t (ht t h1)) h2

end
end Verif.Rollback
