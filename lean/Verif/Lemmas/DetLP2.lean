import Verif.Model.DetLP
import Verif.Lemmas.Maps
import Mathlib.Tactic.SplitIfs
import Mathlib.Data.List.Basic
import Mathlib.Data.List.Nodup
import Mathlib.Data.List.Range
/-! # The loops that revert moves -/
namespace Verif
namespace DetLP
open SMap (wr)

variable {Γ : Type} {c : Cfg Γ}

/-- change of the weight of block `b` by the move `m` -/
def delta (c : Cfg Γ) (m : Mv) (b : Nat) : Int := (if m.dst = b then c.H.nw m.node else 0) - (if m.src = b then c.H.nw m.node else 0)

theorem addWt_two (w : Nat → Int) (m : Mv) (b : Nat) :
    addWt (addWt w m.src (-c.H.nw m.node)) m.dst (c.H.nw m.node) b = w b + delta c m b := by
  unfold addWt delta
  by_cases h1 : b = m.dst <;> by_cases h2 : b = m.src
  · rw [← h1, ← h2]; simp
  · subst h1; simp [h2, Ne.symm h2]
  · subst h2; simp [h1, Ne.symm h1]; try omega
  · simp [h1, h2, Ne.symm h1, Ne.symm h2]

theorem addWt_back (w : Nat → Int) (m : Mv) (b : Nat) :
    addWt (addWt w m.dst (-c.H.nw m.node)) m.src (c.H.nw m.node) b = w b - delta c m b := by
  unfold addWt delta
  by_cases h1 : b = m.dst <;> by_cases h2 : b = m.src
  · rw [← h1, ← h2]; simp
  · subst h1; simp [h2, Ne.symm h2]; omega
  · subst h2; simp [h1, Ne.symm h1]
  · simp [h1, h2, Ne.symm h1, Ne.symm h2]

theorem weightsAfter_eq (sm : List Mv) : ∀ (w : Nat → Int) (b : Nat), weightsAfter c w sm b = w b + (sm.map (fun m => delta c m b)).sum := by
  induction sm with
  | nil => intro w b; simp [weightsAfter]
  | cons m sm ih =>
    intro w b
    unfold weightsAfter at ih ⊢
    rw [List.foldl_cons, ih, addWt_two, List.map_cons, List.sum_cons]; omega

/-- change of the weight of block `b` by the moves that are still valid -/
def validSum (c : Cfg Γ) (sm : List Mv) (valid : Nat → Bool) (b : Nat) : Int :=
  (sm.zipIdx.map (fun x => if valid x.2 = true then delta c x.1 b else 0)).sum

theorem sum_filter_map {α : Type} (l : List α) (p : α → Bool) (f : α → Int) :
    ((l.filter p).map f).sum = (l.map (fun x => if p x = true then f x else 0)).sum := by
  induction l with
  | nil => rfl
  | cons a l ih => by_cases h : p a = true <;> simp [List.filter_cons, h, ih]

theorem validMoves_sum (sm : List Mv) (t : RSt) (b : Nat) :
    ((validMoves sm t).map (fun m => delta c m b)).sum = validSum c sm t.valid b := by
  unfold validMoves validSum
  rw [List.map_map, sum_filter_map]; rfl

theorem zipIdx_upd (f g : Mv → Nat → Int) (i : Nat) : ∀ (sm : List Mv) (n : Nat), (∀ m j, j ≠ i → f m j = g m j) →
    (sm.zipIdx n).map (fun x => f x.1 x.2) = (sm.zipIdx n).map (fun x => g x.1 x.2) ∨ n ≤ i := by
  intro sm
  induction sm with
  | nil => intro n _; left; rfl
  | cons m sm ih =>
    intro n h
    rcases Nat.lt_or_ge i n with hi | hi
    · left
      refine List.map_congr_left (fun x hx => h x.1 x.2 ?_)
      have := List.mem_zipIdx hx
      omega
    · right; exact hi

theorem validSum_wr (sm : List Mv) (valid : Nat → Bool) (i : Nat) {m : Mv} (hm : sm[i]? = some m) (hv : valid i = true) (b : Nat) :
    validSum c sm (wr valid i false) b = validSum c sm valid b - delta c m b := by
  unfold validSum
  suffices ∀ (sm : List Mv) (n j : Nat), sm[j]? = some m → i = n + j →
      ((sm.zipIdx n).map (fun x => if wr valid i false x.2 = true then delta c x.1 b else 0)).sum =
      ((sm.zipIdx n).map (fun x => if valid x.2 = true then delta c x.1 b else 0)).sum - delta c m b from this sm 0 i hm (by omega)
  intro sm
  induction sm with
  | nil => intro n j h; simp at h
  | cons a sm ih =>
    intro n j h hij
    rw [List.zipIdx_cons, List.map_cons, List.sum_cons, List.map_cons, List.sum_cons]
    cases j with
    | zero =>
      simp only [List.getElem?_cons_zero, Option.some.injEq] at h
      subst h
      have hin : i = n := by omega
      subst hin
      have : (sm.zipIdx (i + 1)).map (fun x => if wr valid i false x.2 = true then delta c x.1 b else 0) =
          (sm.zipIdx (i + 1)).map (fun x => if valid x.2 = true then delta c x.1 b else 0) := by
        refine List.map_congr_left (fun x hx => ?_)
        have := List.mem_zipIdx hx
        have h2 : x.2 ≠ i := by omega
        rw [wr_other _ _ h2]
      rw [this]
      simp only [wr_same, hv]
      simp
    | succ j =>
      rw [List.getElem?_cons_succ] at h
      rw [ih (n + 1) j h (by omega)]
      have h2 : n ≠ i := by omega
      dsimp only
      rw [wr_other _ _ h2]
      omega

theorem validSum_pos {sm : List Mv} {valid : Nat → Bool} {b : Nat} (hw : ∀ m ∈ sm, 0 ≤ c.H.nw m.node) (h : 0 < validSum c sm valid b) :
    ∃ i m, sm[i]? = some m ∧ valid i = true ∧ m.dst = b := by
  by_contra hn
  have : validSum c sm valid b ≤ 0 := by
    unfold validSum
    suffices ∀ l : List (Mv × Nat), (∀ x ∈ l, (if valid x.2 = true then delta c x.1 b else 0) ≤ 0) →
        (l.map (fun x => if valid x.2 = true then delta c x.1 b else 0)).sum ≤ 0 by
      refine this _ (fun x hx => ?_)
      have h1 := List.mem_zipIdx' hx
      have h2 : sm[x.2]? = some x.1 := by rw [List.getElem?_eq_getElem h1.1, ← h1.2]
      split_ifs with hv
      · have h3 : x.1.dst ≠ b := fun hh => hn ⟨x.2, x.1, h2, hv, hh⟩
        have h4 := hw x.1 (List.mem_of_getElem? h2)
        unfold delta
        rw [if_neg h3]
        split_ifs <;> omega
      · omega
    intro l
    induction l with
    | nil => intro _; simp
    | cons x l ih =>
      intro hl
      rw [List.map_cons, List.sum_cons]
      have := hl x (by simp)
      have := ih (fun y hy => hl y (by simp [hy]))
      omega
  omega

/-! ### Number of overloaded blocks -/

theorem filter_range_change {k d : Nat} {P Q : Nat → Bool} (hd : d < k) (h : ∀ b, b ≠ d → P b = Q b) :
    ((List.range k).filter Q).length + (if P d = true then 1 else 0) = ((List.range k).filter P).length + (if Q d = true then 1 else 0) := by
  suffices ∀ l : List Nat, l.Nodup → ((l.filter Q).length + (if d ∈ l ∧ P d = true then 1 else 0) = (l.filter P).length + (if d ∈ l ∧ Q d = true then 1 else 0)) by
    have := this (List.range k) List.nodup_range
    simpa [hd] using this
  intro l
  induction l with
  | nil => intro _; simp
  | cons a l ih =>
    intro hn
    rw [List.nodup_cons] at hn
    have ih := ih hn.2
    by_cases ha : a = d
    · subst ha
      simp only [hn.1, false_and, if_false, Nat.add_zero] at ih
      by_cases h1 : P a = true <;> by_cases h2 : Q a = true <;> simp [List.filter_cons, h1, h2, ih]
    · have hda : d ≠ a := Ne.symm ha
      rw [List.filter_cons, List.filter_cons, h a ha]
      simp only [List.mem_cons, hda, false_or]
      cases Q a <;> simp only [if_true, if_false, List.length_cons, Bool.false_eq_true] <;> omega

theorem overloaded_addWt (w : Nat → Int) {d : Nat} (hd : d < c.k) (x : Int) :
    overloaded c (addWt w d x) + (if c.maxw d < w d then 1 else 0) = overloaded c w + (if c.maxw d < w d + x then 1 else 0) := by
  unfold overloaded
  have := filter_range_change (k := c.k) (d := d) (P := fun b => decide (c.maxw b < w b)) (Q := fun b => decide (c.maxw b < addWt w d x b)) hd
    (by intro b hb; simp [addWt, hb])
  simpa [addWt] using this

theorem overloaded_zero {w : Nat → Int} : overloaded c w = 0 ↔ ∀ b < c.k, w b ≤ c.maxw b := by
  unfold overloaded
  rw [List.length_eq_zero_iff, List.filter_eq_nil_iff]
  simp

/-- the moves are between different blocks of the partition and weights are not negative -/
def OkMoves (c : Cfg Γ) (sm : List Mv) : Prop := ∀ m ∈ sm, m.src < c.k ∧ m.dst < c.k ∧ m.src ≠ m.dst ∧ 0 ≤ c.H.nw m.node

/-- the counters are exact -/
structure RInv (c : Cfg Γ) (wt : Nat → Int) (sm : List Mv) (t : RSt) : Prop where
  pw : ∀ b, t.pw b = wt b + validSum c sm t.valid b
  over : t.over = overloaded c t.pw

theorem validSum_all (sm : List Mv) (b : Nat) : validSum c sm (fun _ => true) b = (sm.map (fun m => delta c m b)).sum := by
  unfold validSum
  simp only [if_true]
  congr 1
  suffices ∀ n, (sm.zipIdx n).map (fun x => delta c x.1 b) = sm.map (fun m => delta c m b) from this 0
  induction sm with
  | nil => intro n; rfl
  | cons a sm ih => intro n; rw [List.zipIdx_cons, List.map_cons, List.map_cons, ih]

theorem rstart_inv (wt : Nat → Int) (sm : List Mv) : RInv c wt sm (rstart c wt sm) := by
  refine ⟨fun b => ?_, rfl⟩
  show weightsAfter c wt sm b = _
  rw [weightsAfter_eq]
  show _ = wt b + validSum c sm (fun _ => true) b
  rw [validSum_all]

theorem revert_pw {wt : Nat → Int} {sm : List Mv} {t : RSt} (hp : ∀ b, t.pw b = wt b + validSum c sm t.valid b) {i : Nat} {m : Mv}
    (hm : sm[i]? = some m) (hv : t.valid i = true) (b : Nat) :
    (revertMove c i m t).pw b = wt b + validSum c sm (revertMove c i m t).valid b := by
  show addWt (addWt t.pw m.dst (-c.H.nw m.node)) m.src (c.H.nw m.node) b = wt b + validSum c sm (wr t.valid i false) b
  rw [addWt_back, validSum_wr sm t.valid i hm hv, hp b]; omega

/-- effect of a revert on the number of overloaded blocks -/
theorem revert_over (hok : OkMoves c sm) {t : RSt} {i : Nat} {m : Mv} (hm : sm[i]? = some m) (hd : t.pw m.dst > c.maxw m.dst) :
    overloaded c (revertMove c i m t).pw + (if (revertMove c i m t).pw m.dst ≤ c.maxw m.dst then 1 else 0) =
      overloaded c t.pw + (if t.pw m.src + c.H.nw m.node > c.maxw m.src ∧ t.pw m.src ≤ c.maxw m.src then 1 else 0) ∧
    1 ≤ overloaded c t.pw := by
  obtain ⟨h1, h2, h3, h4⟩ := hok m (List.mem_of_getElem? hm)
  have e1 := overloaded_addWt (c := c) t.pw h2 (-c.H.nw m.node)
  have e2 := overloaded_addWt (c := c) (addWt t.pw m.dst (-c.H.nw m.node)) h1 (c.H.nw m.node)
  have e3 : addWt t.pw m.dst (-c.H.nw m.node) m.src = t.pw m.src := by simp [addWt, h3]
  have e4 : (revertMove c i m t).pw m.dst = t.pw m.dst + -c.H.nw m.node := by
    show addWt (addWt t.pw m.dst (-c.H.nw m.node)) m.src (c.H.nw m.node) m.dst = _
    simp [addWt, Ne.symm h3]
  rw [e3] at e2
  have e5 : overloaded c (revertMove c i m t).pw = overloaded c (addWt (addWt t.pw m.dst (-c.H.nw m.node)) m.src (c.H.nw m.node)) := rfl
  rw [e5, e4]
  refine ⟨?_, ?_⟩
  · split_ifs at * <;> omega
  · by_contra hlt
    have : overloaded c t.pw = 0 := by omega
    have := overloaded_zero.1 this m.dst h2
    omega

theorem loop1_inv {wt : Nat → Int} {sm : List Mv} (hok : OkMoves c sm) : ∀ (j : Nat) (t : RSt), RInv c wt sm t → (∀ p < j, t.valid p = true) →
    RInv c wt sm (loop1 c sm j t) := by
  intro j
  induction j with
  | zero => intro t h _; exact h
  | succ j ih =>
    intro t h hv
    unfold loop1
    split_ifs with h0
    · exact h
    · cases hm : sm[j]? with
      | none => exact h
      | some m =>
        dsimp only
        split_ifs with hc
        · refine ih _ ⟨fun b => revert_pw h.pw hm (hv j (by omega)) b, ?_⟩ ?_
          · have := revert_over hok hm hc.1
            rw [if_neg (c := t.pw m.src + c.H.nw m.node > c.maxw m.src ∧ t.pw m.src ≤ c.maxw m.src) (by omega)] at this
            have ho : (revertMove c j m t).over = if (revertMove c j m t).pw m.dst ≤ c.maxw m.dst then t.over - 1 else t.over := rfl
            rw [ho, h.over]
            split_ifs at * <;> omega
          · intro p hp
            show wr t.valid j false p = true
            rw [wr_other _ _ (by omega)]; exact hv p (by omega)
        · exact ih _ h (fun p hp => hv p (by omega))

/-! ### The second loop -/

/-- number of valid moves -/
def nvalid (sm : List Mv) (valid : Nat → Bool) : Nat := ((List.range sm.length).filter valid).length

theorem nvalid_wr {sm : List Mv} {valid : Nat → Bool} {i : Nat} (hi : i < sm.length) (hv : valid i = true) :
    nvalid sm (wr valid i false) + 1 = nvalid sm valid := by
  unfold nvalid
  have := filter_range_change (k := sm.length) (d := i) (P := valid) (Q := wr valid i false) hi (fun b hb => (wr_other _ _ hb).symm)
  rw [hv] at this
  simpa [wr_same] using this

/-- no valid move at or behind the current position goes to an overloaded block -/
def Clean (c : Cfg Γ) (sm : List Mv) (t : RSt) : Prop :=
  ∀ p m, t.j ≤ p → sm[p]? = some m → t.valid p = true → t.pw m.dst ≤ c.maxw m.dst

/-- invariant of the second loop -/
structure LInv (c : Cfg Γ) (wt : Nat → Int) (sm : List Mv) (t : RSt) : Prop extends RInv c wt sm t where
  hj : t.j ≤ sm.length
  hlast : t.last ≤ sm.length
  hlj : t.last = 0 ∨ t.j < t.last
  seen : ∀ p, t.j ≤ p → p < sm.length → t.valid p = true → p < t.last

open Classical in
/-- measure of the second loop -/
noncomputable def mu (c : Cfg Γ) (sm : List Mv) (t : RSt) : Nat :=
  nvalid sm t.valid * (2 * (sm.length + 1)) + (if Clean c sm t then 0 else sm.length + 1) + t.j

theorem exists_valid {wt : Nat → Int} {sm : List Mv} (hok : OkMoves c sm) (hb : ∀ b < c.k, wt b ≤ c.maxw b) {t : RSt} (h : RInv c wt sm t)
    (ho : t.over ≠ 0) : ∃ p m, sm[p]? = some m ∧ t.valid p = true ∧ t.pw m.dst > c.maxw m.dst := by
  rw [h.over] at ho
  have : ¬ ∀ b < c.k, t.pw b ≤ c.maxw b := fun hh => ho (overloaded_zero.2 hh)
  push Not at this
  obtain ⟨b, hbk, hlt⟩ := this
  have h1 := h.pw b
  have h2 := hb b hbk
  obtain ⟨i, m, a1, a2, a3⟩ := validSum_pos (c := c) (sm := sm) (valid := t.valid) (b := b) (fun m hm => (hok m hm).2.2.2) (by omega)
  exact ⟨i, m, a1, a2, by rw [a3]; exact hlt⟩

open Classical in
theorem step2_spec {wt : Nat → Int} {sm : List Mv} (hok : OkMoves c sm) (hb : ∀ b < c.k, wt b ≤ c.maxw b) {t : RSt} (h : LInv c wt sm t)
    (ho : t.over ≠ 0) : ∃ t1, step2 c sm t = some t1 ∧ LInv c wt sm t1 ∧ mu c sm t1 < mu c sm t := by
  obtain ⟨p, m0, p1, p2, p3⟩ := exists_valid hok hb h.toRInv ho
  have hp : p < sm.length := (List.getElem?_eq_some_iff.1 p1).1
  -- position of this iteration
  obtain ⟨j, hj⟩ : ∃ j, j = (if t.j = 0 then t.last else t.j) := ⟨_, rfl⟩
  have hj0 : j ≠ 0 := by
    rw [hj]
    split_ifs with h0
    · have := h.seen p (by omega) hp p2; omega
    · exact h0
  have hjl : j ≤ sm.length := by
    rw [hj]; split_ifs
    · exact h.hlast
    · exact h.hj
  obtain ⟨last, hlast⟩ : ∃ l, l = (if t.j = 0 then 0 else t.last) := ⟨_, rfl⟩
  have hll : last ≤ sm.length := by rw [hlast]; split_ifs; omega; exact h.hlast
  have hseen : ∀ p, j ≤ p → p < sm.length → t.valid p = true → p < last := by
    intro p a1 a2 a3
    rw [hlast]
    split_ifs with h0
    · rw [if_pos h0] at hj
      have := h.seen p (by omega) a2 a3
      omega
    · rw [if_neg h0] at hj
      exact h.seen p (by omega) a2 a3
  have hlj : last = 0 ∨ j - 1 < last := by
    rw [hlast]
    split_ifs with h0
    · left; rfl
    · rw [if_neg h0] at hj
      have := h.hlj
      omega
  have hclean : (t.j = 0 → ¬ Clean c sm t) := by
    intro h0 hc
    have := hc p m0 (by omega) p1 p2
    omega
  obtain ⟨m, hm⟩ : ∃ m, sm[j - 1]? = some m := ⟨sm[j-1]'(by omega), List.getElem?_eq_getElem (by omega)⟩
  have hstep : step2 c sm t = some
      (let t1 := if t.valid (j - 1) = true ∧ t.pw m.dst > c.maxw m.dst then
          revertMove c (j - 1) m
            (if t.pw m.src + c.H.nw m.node > c.maxw m.src ∧ t.pw m.src ≤ c.maxw m.src then { t with over := t.over + 1 } else t)
        else t
      { t1 with j := j - 1, last := if last = 0 ∧ t1.valid (j - 1) = true then j else last }) := by
    unfold step2
    rw [← hj, ← hlast]
    dsimp only
    rw [if_neg hj0, hm]
  rw [hstep]
  refine ⟨_, rfl, ?_⟩
  have hN : t.j ≤ sm.length := h.hj
  by_cases hc : t.valid (j - 1) = true ∧ t.pw m.dst > c.maxw m.dst
  · rw [if_pos hc]
    set t0 := (if t.pw m.src + c.H.nw m.node > c.maxw m.src ∧ t.pw m.src ≤ c.maxw m.src then { t with over := t.over + 1 } else t) with ht0
    have e1 : t0.pw = t.pw := by rw [ht0]; split_ifs <;> rfl
    have e2 : t0.valid = t.valid := by rw [ht0]; split_ifs <;> rfl
    have e3 : t0.over = t.over + (if t.pw m.src + c.H.nw m.node > c.maxw m.src ∧ t.pw m.src ≤ c.maxw m.src then 1 else 0) := by
      rw [ht0]; split_ifs <;> rfl
    have hv : (revertMove c (j - 1) m t0).valid = wr t.valid (j - 1) false := by
      show wr t0.valid _ _ = _
      rw [e2]
    have hv' : (revertMove c (j - 1) m t0).valid (j - 1) = false := by rw [hv, wr_same]
    have hover := revert_over (c := c) hok (t := t0) hm (by rw [e1]; exact hc.2)
    rw [e1] at hover
    have hnv := nvalid_wr (sm := sm) (valid := t.valid) (i := j - 1) (by omega) hc.1
    refine ⟨⟨⟨?_, ?_⟩, ?_, ?_, ?_, ?_⟩, ?_⟩
    · exact fun b => revert_pw (t := t0) (by rw [e1, e2]; exact h.pw) hm (by rw [e2]; exact hc.1) b
    · show (revertMove c (j - 1) m t0).over = overloaded c (revertMove c (j - 1) m t0).pw
      have hO : (revertMove c (j - 1) m t0).over = if (revertMove c (j - 1) m t0).pw m.dst ≤ c.maxw m.dst then t0.over - 1 else t0.over := rfl
      rw [hO, e3, h.over]
      obtain ⟨o1, o2⟩ := hover
      split_ifs at * <;> omega
    · show j - 1 ≤ _; omega
    · show (if last = 0 ∧ (revertMove c (j - 1) m t0).valid (j - 1) = true then j else last) ≤ _
      split_ifs <;> omega
    · show (if last = 0 ∧ (revertMove c (j - 1) m t0).valid (j - 1) = true then j else last) = 0 ∨ j - 1 < (if last = 0 ∧ (revertMove c (j - 1) m t0).valid (j - 1) = true then j else last)
      rw [hv', if_neg (by simp)]
      exact hlj
    · intro p' a1 a2 a3
      have a1 : j - 1 ≤ p' := a1
      have a3 : (revertMove c (j - 1) m t0).valid p' = true := a3
      show p' < (if last = 0 ∧ (revertMove c (j - 1) m t0).valid (j - 1) = true then j else last)
      rw [hv', if_neg (by simp)]
      have : p' ≠ j - 1 := by rintro rfl; rw [hv'] at a3; cases a3
      rw [hv, wr_other _ _ this] at a3
      exact hseen p' (by omega) a2 a3
    · unfold mu
      show nvalid sm (revertMove c (j - 1) m t0).valid * _ + _ + (j - 1) < _
      rw [hv]
      have hle : ∀ q : Prop, (if q then 0 else sm.length + 1) ≤ sm.length + 1 := by intro q; split_ifs <;> omega
      refine Nat.lt_of_le_of_lt (Nat.add_le_add_right (Nat.add_le_add_left (hle _) _) _) ?_
      rw [← hnv, Nat.add_mul]
      omega
  · rw [if_neg hc]
    refine ⟨⟨⟨h.pw, h.over⟩, ?_, ?_, ?_, ?_⟩, ?_⟩
    · show j - 1 ≤ _; omega
    · show (if last = 0 ∧ t.valid (j - 1) = true then j else last) ≤ _
      split_ifs <;> omega
    · show (if last = 0 ∧ t.valid (j - 1) = true then j else last) = 0 ∨ j - 1 < (if last = 0 ∧ t.valid (j - 1) = true then j else last)
      split_ifs
      · right; omega
      · exact hlj
    · intro p' a1 a2 a3
      have a1 : j - 1 ≤ p' := a1
      have a3 : t.valid p' = true := a3
      show p' < (if last = 0 ∧ t.valid (j - 1) = true then j else last)
      by_cases he : p' = j - 1
      · subst he
        split_ifs with hh
        · omega
        · have hl0 : last ≠ 0 := fun h0 => hh ⟨h0, a3⟩
          omega
      · have := hseen p' (by omega) a2 a3
        split_ifs with hh
        · omega
        · exact this
    · unfold mu
      show nvalid sm t.valid * _ + _ + (j - 1) < _
      have hcl : Clean c sm t ∨ t.j = 0 → Clean c sm { t with j := j - 1, last := if last = 0 ∧ t.valid (j - 1) = true then j else last } := by
        intro hh p' m' a1 a2 a3
        have a1 : j - 1 ≤ p' := a1
        have a3 : t.valid p' = true := a3
        show t.pw m'.dst ≤ c.maxw m'.dst
        by_cases he : p' = j - 1
        · subst he
          rw [hm] at a2; cases a2
          by_contra hgt
          exact hc ⟨a3, by omega⟩
        · have hlt : p' < sm.length := (List.getElem?_eq_some_iff.1 a2).1
          by_cases h0 : t.j = 0
          · rw [if_pos h0] at hj hlast
            have := hseen p' (by omega) hlt a3
            omega
          · rw [if_neg h0] at hj
            rcases hh with hh | hh
            · exact hh p' m' (by omega) a2 a3
            · exact absurd hh h0
      by_cases h0 : t.j = 0
      · rw [if_pos (hcl (Or.inr h0)), if_neg (hclean h0)]
        omega
      · rw [if_neg h0] at hj
        by_cases hh : Clean c sm t
        · rw [if_pos (hcl (Or.inl hh)), if_pos hh]; omega
        · have hle : ∀ q : Prop, (if q then 0 else sm.length + 1) ≤ sm.length + 1 := by intro q; split_ifs <;> omega
          refine Nat.lt_of_le_of_lt (Nat.add_le_add_right (Nat.add_le_add_left (hle _) _) _) ?_
          rw [if_neg hh]; omega

/-- the second loop ends -/
theorem loop2_total {wt : Nat → Int} {sm : List Mv} (hok : OkMoves c sm) (hb : ∀ b < c.k, wt b ≤ c.maxw b) : ∀ {t : RSt}, LInv c wt sm t →
    ∃ t', Loop2 c sm t t' ∧ RInv c wt sm t' ∧ t'.over = 0 := by
  suffices ∀ (n : Nat) (t : RSt), mu c sm t = n → LInv c wt sm t → ∃ t', Loop2 c sm t t' ∧ RInv c wt sm t' ∧ t'.over = 0 from
    fun {t} h => this _ t rfl h
  intro n
  induction n using Nat.strong_induction_on with
  | _ n ih =>
    intro t hn h
    by_cases ho : t.over = 0
    · exact ⟨t, .done t ho, h.toRInv, ho⟩
    · obtain ⟨t1, h1, h2, h3⟩ := step2_spec hok hb h ho
      obtain ⟨t2, h4, h5⟩ := ih _ (by omega) t1 rfl h2
      exact ⟨t2, .step t t1 t2 ho h1 h4, h5⟩

theorem loop2_det {sm : List Mv} {t t1 t2 : RSt} (h1 : Loop2 c sm t t1) (h2 : Loop2 c sm t t2) : t1 = t2 := by
  induction h1 with
  | done t h => cases h2 with
    | done _ _ => rfl
    | step _ _ _ h' _ _ => exact absurd h h'
  | step t u v ho hs _ ih => cases h2 with
    | done _ h' => exact absurd h' ho
    | step _ u' _ _ hs' ht' => rw [hs] at hs'; cases hs'; exact ih ht'

theorem reverted_total {wt : Nat → Int} {sm : List Mv} (hok : OkMoves c sm) : ∃ t, Reverted c wt sm t := by
  unfold Reverted
  dsimp only
  split_ifs with h
  · have hi := loop1_inv hok sm.length (rstart c wt sm) (rstart_inv wt sm) (fun _ _ => rfl)
    obtain ⟨t, ht, _⟩ := loop2_total (c := c) (wt := wt) hok (overloaded_zero.1 h.2)
      (t := { loop1 c sm sm.length (rstart c wt sm) with j := sm.length, last := 0 })
      ⟨⟨hi.pw, hi.over⟩, Nat.le_refl _, Nat.zero_le _, Or.inl rfl, fun p h1 h2 _ => absurd h1 (by simp; omega)⟩
    exact ⟨t, ht⟩
  · exact ⟨_, rfl⟩

theorem reverted_det {wt : Nat → Int} {sm : List Mv} {t t' : RSt} (h : Reverted c wt sm t) (h' : Reverted c wt sm t') : t = t' := by
  unfold Reverted at h h'
  dsimp only at h h'
  split_ifs at h h' with hc
  · exact loop2_det h h'
  · rw [h, h']

/-- the result of the loops: the weights are exact, and balanced if the input is balanced -/
theorem reverted_spec {wt : Nat → Int} {sm : List Mv} (hok : OkMoves c sm) {t : RSt} (h : Reverted c wt sm t) :
    RInv c wt sm t ∧ ((∀ b < c.k, wt b ≤ c.maxw b) → ∀ b < c.k, t.pw b ≤ c.maxw b) := by
  have hi := loop1_inv hok sm.length (rstart c wt sm) (rstart_inv wt sm) (fun _ _ => rfl)
  unfold Reverted at h
  dsimp only at h
  split_ifs at h with hc
  · obtain ⟨t', ht, h1, h2⟩ := loop2_total (c := c) (wt := wt) hok (overloaded_zero.1 hc.2)
      (t := { loop1 c sm sm.length (rstart c wt sm) with j := sm.length, last := 0 })
      ⟨⟨hi.pw, hi.over⟩, Nat.le_refl _, Nat.zero_le _, Or.inl rfl, fun p h1 h2 _ => absurd h1 (by simp; omega)⟩
    have := loop2_det h ht
    subst this
    exact ⟨h1, fun _ => overloaded_zero.1 (h1.over ▸ h2)⟩
  · subst h
    refine ⟨hi, fun hb => overloaded_zero.1 ?_⟩
    have := overloaded_zero.2 hb
    rw [← hi.over]; omega

end DetLP
end Verif
