import Verif.Lemmas.DetLP1
import Verif.Lemmas.DetLP3
import Mathlib.Algebra.BigOperators.Group.Finset.Basic
import Mathlib.Algebra.BigOperators.Group.Finset.Piecewise
import Mathlib.Algebra.Order.BigOperators.Group.Finset
import Mathlib.Tactic.Linarith
/-! # The prefixes of the block pairs keep the partition balanced -/
namespace Verif
namespace DetLP

variable {Γ : Type} {c : Cfg Γ}

theorem sorted_countP {α : Type} (f : α → Nat) (x : Nat) : ∀ (l : List α), l.Pairwise (fun a b => f a ≤ f b) → ∀ i a, l[i]? = some a →
    (i < l.countP (fun a => decide (f a < x)) ↔ f a < x) := by
  intro l
  induction l with
  | nil => intro _ i a h; simp at h
  | cons b l ih =>
    intro hs i a h
    rw [List.pairwise_cons] at hs
    rw [List.countP_cons]
    by_cases hb : f b < x
    · simp only [hb, decide_true, if_true]
      cases i with
      | zero => simp at h; subst h; simp [hb]
      | succ i =>
        have := ih hs.2 i a (by simpa using h)
        constructor
        · intro hh; exact this.1 (by omega)
        · intro hh; have := this.2 hh; omega
    · simp only [hb, decide_false]
      have h0 : l.countP (fun a => decide (f a < x)) = 0 := by
        rw [List.countP_eq_zero]
        intro y hy
        have := hs.1 y hy
        simp; omega
      rw [h0]
      have ha : f b ≤ f a := by
        cases i with
        | zero => simp at h; subst h; omega
        | succ i => exact hs.1 a (List.mem_of_getElem? (by simpa using h))
      simp; omega

/-- weight of the moves at the positions from `a` to before `e` -/
def segW (c : Cfg Γ) (sm : List Mv) (a e : Nat) : Int := (((sm.take e).drop a).map (fun m => c.H.nw m.node)).sum

theorem zipIdx_seg {α : Type} (f : α → Int) : ∀ (l : List α) (n a e : Nat),
    ((l.zipIdx n).map (fun x => if a + n ≤ x.2 ∧ x.2 < e + n then f x.1 else 0)).sum = (((l.take e).drop a).map f).sum := by
  intro l
  induction l with
  | nil => intro n a e; simp
  | cons b l ih =>
    intro n a e
    rw [List.zipIdx_cons, List.map_cons, List.sum_cons]
    cases e with
    | zero =>
      have := ih (n + 1) a 0
      rw [List.take_zero, List.drop_nil] at this ⊢
      have e1 : ((l.zipIdx (n + 1)).map (fun x => if a + n ≤ x.2 ∧ x.2 < 0 + n then f x.1 else 0)) = (l.zipIdx (n + 1)).map (fun _ => (0 : Int)) := by
        apply List.map_congr_left
        intro x hx
        have := List.fst_mem_of_mem_zipIdx hx
        have h2 := List.le_snd_of_mem_zipIdx hx
        rw [if_neg (by omega)]
      rw [e1]; simp
    | succ e =>
      have h2 : ∀ a', ((l.zipIdx (n + 1)).map (fun x => if a' + (n + 1) ≤ x.2 ∧ x.2 < e + 1 + n then f x.1 else 0)) = ((l.zipIdx (n + 1)).map (fun x => if a' + (n + 1) ≤ x.2 ∧ x.2 < e + (n + 1) then f x.1 else 0)) := by
        intro a'
        apply List.map_congr_left
        intro x _
        have : (x.2 < e + 1 + n) = (x.2 < e + (n + 1)) := by rw [Nat.add_right_comm, Nat.add_assoc]
        simp only [this]
      cases a with
      | zero =>
        rw [if_pos (by simp)]
        have e1 : ((l.zipIdx (n + 1)).map (fun x => if 0 + n ≤ x.2 ∧ x.2 < e + 1 + n then f x.1 else 0)) = ((l.zipIdx (n + 1)).map (fun x => if 0 + (n + 1) ≤ x.2 ∧ x.2 < e + 1 + n then f x.1 else 0)) := by
          apply List.map_congr_left
          intro x hx
          have h2 := List.le_snd_of_mem_zipIdx hx
          have : (0 + n ≤ x.2) = (0 + (n + 1) ≤ x.2) := by apply propext; omega
          simp only [this]
        rw [e1, h2, ih (n + 1) 0 e]
        simp
      | succ a =>
        rw [if_neg (by simp)]
        have e1 : (a + 1 + n) = a + (n + 1) := by omega
        rw [e1, h2, ih (n + 1) a e]
        simp

theorem segW_self (sm : List Mv) (a : Nat) : segW c sm a a = 0 := by
  unfold segW; simp

theorem segW_mono (sm : List Mv) (hw : ∀ m ∈ sm, 0 ≤ c.H.nw m.node) {a x y : Nat} (h : x ≤ y) : segW c sm a x ≤ segW c sm a y := by
  unfold segW
  have hs : ((sm.take x).drop a).Sublist ((sm.take y).drop a) := by
    have : sm.take x = (sm.take y).take x := by rw [List.take_take, Nat.min_eq_left h]
    rw [this]
    exact (List.take_sublist x _).drop a
  have : ∀ {l1 l2 : List Mv}, l1.Sublist l2 → (∀ m ∈ l2, 0 ≤ c.H.nw m.node) → (l1.map (fun m => c.H.nw m.node)).sum ≤ (l2.map (fun m => c.H.nw m.node)).sum := by
    intro l1 l2 hs
    induction hs with
    | slnil => intro _; simp
    | cons a _ ih => intro hp; rw [List.map_cons, List.sum_cons]; have := ih (fun m hm => hp m (by simp [hm])); have := hp a (by simp); omega
    | cons_cons a _ ih => intro hp; rw [List.map_cons, List.map_cons, List.sum_cons, List.sum_cons]; have := ih (fun m hm => hp m (by simp [hm])); omega
  exact this hs (fun m hm => hw m (List.mem_of_mem_take (List.mem_of_mem_drop hm)))

theorem segW_nonneg (sm : List Mv) (hw : ∀ m ∈ sm, 0 ≤ c.H.nw m.node) {a x : Nat} (h : a ≤ x) : 0 ≤ segW c sm a x := by
  rw [← segW_self (c := c) sm a]; exact segW_mono sm hw h

/-- the moves are sorted by direction -/
def KeySorted (k : Nat) (sm : List Mv) : Prop := sm.Pairwise (fun a b => key k a ≤ key k b)

theorem Grouped.keySorted {k : Nat} {ms sm : List Mv} (h : Grouped k ms sm) : KeySorted k sm :=
  h.2.imp (by rintro a b (h | h); · omega
              · exact le_of_eq h.1)

theorem posn_iff {k : Nat} {sm : List Mv} (h : KeySorted k sm) {i : Nat} {m : Mv} (hm : sm[i]? = some m) (x : Nat) :
    i < posn k sm x ↔ key k m < x := sorted_countP (key k) x sm h i m hm

theorem posn_le (k : Nat) (sm : List Mv) (x : Nat) : posn k sm x ≤ sm.length := List.countP_le_length

theorem posn_mono (k : Nat) (sm : List Mv) {x y : Nat} (h : x ≤ y) : posn k sm x ≤ posn k sm y := by
  unfold posn
  apply List.countP_mono_left
  intro m _ hm
  simp only [decide_eq_true_eq] at hm ⊢
  omega

/-- `cumulative_node_weights` are the weights of the prefixes of a direction -/
theorem prefW_seg {sm : List Mv} (h : KeySorted c.k sm) {x e : Nat} (h1 : posn c.k sm x ≤ e) (h2 : e ≤ posn c.k sm (x + 1)) :
    prefW (cumW c sm) (posn c.k sm x) e = segW c sm (posn c.k sm x) e := by
  unfold prefW
  split_ifs with he
  · subst he; rw [segW_self]
  · have hlt : e - 1 < sm.length := by have := posn_le c.k sm (x + 1); omega
    have hm : sm[e - 1]? = some sm[e - 1] := List.getElem?_eq_getElem hlt
    have k1 := (posn_iff h hm (x + 1)).1 (by omega)
    have k2 := (posn_iff h hm x).not.1 (by omega)
    have hk : key c.k sm[e - 1] = x := by omega
    unfold cumW
    rw [hm]
    show (((sm.take (e - 1 + 1)).drop (posn c.k sm (key c.k sm[e - 1]))).map (fun m => c.H.nw m.node)).sum = _
    rw [hk, show e - 1 + 1 = e by omega]
    rfl

theorem prefW_mono {sm : List Mv} (h : KeySorted c.k sm) (hw : ∀ m ∈ sm, 0 ≤ c.H.nw m.node) (x : Nat) :
    MonoOn (prefW (cumW c sm) (posn c.k sm x)) (posn c.k sm x) (posn c.k sm (x + 1)) := by
  intro a b h1 h2 h3
  rw [prefW_seg h h1 (h2.trans h3), prefW_seg h (h1.trans h2) h3]
  exact segW_mono sm hw h2

/-! ### Bounds of the weight that a block receives -/

theorem share_eq {budget : Int} (h0 : 0 ≤ budget) (h1 : budget < 2 ^ 31) (inv : Nat) : share budget inv = budget.toNat / max 1 inv := by
  unfold share
  rw [Int.emod_eq_of_lt h0 (by omega)]

theorem share_lt {budget : Int} (h0 : 0 ≤ budget) (h1 : budget < 2 ^ 31) (inv : Nat) : share budget inv < 2 ^ 31 := by
  rw [share_eq h0 h1]
  exact lt_of_le_of_lt (Nat.div_le_self _ _) (by omega)

theorem ubOf_eq {budget : Int} (h0 : 0 ≤ budget) (h1 : budget < 2 ^ 31) (inv : Nat) : ubOf budget inv = share budget inv := by
  have := share_lt h0 h1 inv
  unfold ubOf
  rw [Int.bmod_eq_of_le] <;> omega

theorem lbOf_eq {budget : Int} (h0 : 0 ≤ budget) (h1 : budget < 2 ^ 31) (inv : Nat) : lbOf budget inv = -(share budget inv : Int) := by
  have := share_lt h0 h1 inv
  unfold lbOf
  rw [Int.bmod_eq_of_le] <;> omega

theorem share_mul {budget : Int} (h0 : 0 ≤ budget) (h1 : budget < 2 ^ 31) (inv : Nat) : (inv : Int) * share budget inv ≤ budget := by
  rw [share_eq h0 h1]
  have h2 : inv * (budget.toNat / max 1 inv) ≤ budget.toNat := by
    calc inv * (budget.toNat / max 1 inv) ≤ max 1 inv * (budget.toNat / max 1 inv) := Nat.mul_le_mul_right _ (le_max_right _ _)
      _ ≤ budget.toNat := Nat.mul_div_le _ _
  have : ((inv * (budget.toNat / max 1 inv) : Nat) : Int) ≤ (budget.toNat : Int) := by exact_mod_cast h2
  rw [Nat.cast_mul] at this
  omega

/-- the input is balanced and the budgets fit into 32 bits -/
def Budget (c : Cfg Γ) (wt : Nat → Int) : Prop := ∀ b < c.k, wt b ≤ c.maxw b ∧ c.maxw b - wt b < 2 ^ 31

theorem prefixPair_spec {sm : List Mv} (h : KeySorted c.k sm) (hw : ∀ m ∈ sm, 0 ≤ c.H.nw m.node) {wt : Nat → Int} (hb : Budget c wt) {p q : Nat}
    (hp : p < c.k) (hq : q < c.k) :
    let i1 := posn c.k sm (p * c.k + q)
    let i2 := posn c.k sm (q * c.k + p)
    let r := prefixPair c sm wt p q
    (i1 ≤ r.1 ∧ r.1 ≤ posn c.k sm (p * c.k + q + 1) ∧ i2 ≤ r.2 ∧ r.2 ≤ posn c.k sm (q * c.k + p + 1)) ∧
    segW c sm i1 r.1 - segW c sm i2 r.2 ≤ share (c.maxw q - wt q) (involve c sm q) ∧
    segW c sm i2 r.2 - segW c sm i1 r.1 ≤ share (c.maxw p - wt p) (involve c sm p) := by
  intro i1 i2 r
  have e1 : i1 ≤ posn c.k sm (p * c.k + q + 1) := posn_mono _ _ (by omega)
  have e2 : i2 ≤ posn c.k sm (q * c.k + p + 1) := posn_mono _ _ (by omega)
  have hP := hb p hp
  have hQ := hb q hq
  have hr : r = (findRec 1998 (cumW c sm) i1 i2 (lbOf (c.maxw p - wt p) (involve c sm p)) (ubOf (c.maxw q - wt q) (involve c sm q))
    i1 (posn c.k sm (p * c.k + q + 1)) i2 (posn c.k sm (q * c.k + p + 1))).getD (i1, i2) := rfl
  cases hres : findRec 1998 (cumW c sm) i1 i2 (lbOf (c.maxw p - wt p) (involve c sm p)) (ubOf (c.maxw q - wt q) (involve c sm q))
    i1 (posn c.k sm (p * c.k + q + 1)) i2 (posn c.k sm (q * c.k + p + 1)) with
  | none =>
    rw [hres] at hr
    rw [hr]
    simp only [Option.getD_none, segW_self]
    refine ⟨⟨le_rfl, e1, le_rfl, e2⟩, ?_, ?_⟩ <;> simp
  | some t =>
    rw [hres] at hr
    have ht := findRec_feas 1998 _ _ _ _ hres e1 e2
    have hrt : r = t := hr
    rw [hrt]
    obtain ⟨⟨f1, f2⟩, r1, r2, r3, r4⟩ := ht
    unfold bal at f1 f2
    rw [prefW_seg h r1 r2, prefW_seg h r3 r4] at f1 f2
    rw [ubOf_eq (by omega) hQ.2] at f2
    rw [lbOf_eq (by omega) hP.2] at f1
    have f3 : -(share (c.maxw p - wt p) (involve c sm p) : Int) ≤ segW c sm i1 t.1 - segW c sm i2 t.2 := f1
    exact ⟨⟨r1, r2, r3, r4⟩, f2, by omega⟩

/-- weight of the chosen moves from `p` to `q` -/
theorem swapPrefix_spec {sm : List Mv} (h : KeySorted c.k sm) (hw : ∀ m ∈ sm, 0 ≤ c.H.nw m.node) {wt : Nat → Int} (hb : Budget c wt) {p q : Nat}
    (hp : p < c.k) (hq : q < c.k) (hne : p ≠ q) :
    (posn c.k sm (p * c.k + q) ≤ swapPrefix c sm wt p q ∧ swapPrefix c sm wt p q ≤ posn c.k sm (p * c.k + q + 1)) ∧
    segW c sm (posn c.k sm (p * c.k + q)) (swapPrefix c sm wt p q) - segW c sm (posn c.k sm (q * c.k + p)) (swapPrefix c sm wt q p) ≤
      share (c.maxw q - wt q) (involve c sm q) := by
  unfold swapPrefix
  rcases Nat.lt_or_gt_of_ne hne with hlt | hlt
  · obtain ⟨h1, h2, h3⟩ := prefixPair_spec h hw hb hp hq
    rw [if_pos hlt, if_neg (by omega : ¬ q < p)]
    exact ⟨⟨h1.1, h1.2.1⟩, h2⟩
  · obtain ⟨h1, h2, h3⟩ := prefixPair_spec h hw hb hq hp
    rw [if_neg (by omega : ¬ p < q), if_pos hlt]
    exact ⟨⟨h1.2.2.1, h1.2.2.2⟩, h3⟩

theorem key_inj {k p q p' q' : Nat} (hq : q < k) (hq' : q' < k) (h : p * k + q = p' * k + q') : p = p' ∧ q = q' := by
  have hk : 0 < k := by omega
  have h1 : (p * k + q) / k = p := by rw [Nat.add_comm, Nat.add_mul_div_right _ _ hk, Nat.div_eq_of_lt hq, Nat.zero_add]
  have h2 : (p' * k + q') / k = p' := by rw [Nat.add_comm, Nat.add_mul_div_right _ _ hk, Nat.div_eq_of_lt hq', Nat.zero_add]
  have e : p = p' := by rw [← h1, ← h2, h]
  subst e
  exact ⟨rfl, by omega⟩

/-- weight of the moves in `l` from `p` to `q` -/
def dirW (c : Cfg Γ) (l : List Mv) (p q : Nat) : Int := (l.map (fun m => if m.src = p ∧ m.dst = q then c.H.nw m.node else 0)).sum

theorem chosen_dirW {sm : List Mv} (h : KeySorted c.k sm) (hok : OkMoves c sm) {wt : Nat → Int} (hb : Budget c wt) {p q : Nat}
    (hp : p < c.k) (hq : q < c.k) (hne : p ≠ q) :
    dirW c (chosen c sm wt) p q = segW c sm (posn c.k sm (p * c.k + q)) (swapPrefix c sm wt p q) := by
  have hw : ∀ m ∈ sm, 0 ≤ c.H.nw m.node := fun m hm => (hok m hm).2.2.2
  obtain ⟨⟨s1, s2⟩, _⟩ := swapPrefix_spec h hw hb hp hq hne
  unfold dirW chosen segW
  rw [List.map_map, sum_filter_map, ← zipIdx_seg _ sm 0]
  congr 1
  apply List.map_congr_left
  rintro ⟨m, i⟩ hx
  have hm : sm[i]? = some m := List.mem_zipIdx_iff_getElem?.1 hx
  have ho := hok m (List.mem_of_getElem? hm)
  simp only [Function.comp, decide_eq_true_eq, Nat.add_zero]
  by_cases hd : m.src = p ∧ m.dst = q
  · obtain ⟨rfl, rfl⟩ := hd
    have hk : key c.k m = m.src * c.k + m.dst := rfl
    have h1 : posn c.k sm (m.src * c.k + m.dst) ≤ i := by
      have := (posn_iff h hm (m.src * c.k + m.dst)).not.2 (by omega); omega
    simp only [and_self, if_true, h1, true_and]
  · rw [if_neg hd]
    have : ¬ (posn c.k sm (p * c.k + q) ≤ i ∧ i < swapPrefix c sm wt p q) := by
      rintro ⟨a, b⟩
      have k1 := (posn_iff h hm (p * c.k + q + 1)).1 (by omega)
      have k2 := (posn_iff h hm (p * c.k + q)).not.1 (by omega)
      unfold key at k1 k2
      exact hd (key_inj ho.2.1 hq (by omega))
    rw [if_neg this]; simp

theorem delta_dirs (b : Nat) (hb : b < c.k) : ∀ (l : List Mv), OkMoves c l → (l.map (fun m => delta c m b)).sum =
    ∑ p ∈ Finset.range c.k, (if p ≠ b then dirW c l p b - dirW c l b p else 0) := by
  intro l
  induction l with
  | nil => intro _; unfold dirW; simp
  | cons a l ih =>
    intro hok
    have ha := hok a (by simp)
    rw [List.map_cons, List.sum_cons, ih (fun m hm => hok m (by simp [hm]))]
    have e1 : delta c a b = ∑ p ∈ Finset.range c.k, (if p = a.src ∧ a.dst = b then c.H.nw a.node else 0) -
        ∑ p ∈ Finset.range c.k, (if p = a.dst ∧ a.src = b then c.H.nw a.node else 0) := by
      unfold delta
      have h1 : ∀ (x : Nat) (P : Prop) [Decidable P], x < c.k → ∑ p ∈ Finset.range c.k, (if p = x ∧ P then c.H.nw a.node else 0) = if P then c.H.nw a.node else 0 := by
        intro x P _ hx
        by_cases hP : P
        · simp [hP, hx]
        · simp [hP]
      rw [h1 _ _ ha.1, h1 _ _ ha.2.1]
    rw [e1, ← Finset.sum_sub_distrib, ← Finset.sum_add_distrib]
    apply Finset.sum_congr rfl
    intro p _
    unfold dirW
    rw [List.map_cons, List.sum_cons, List.map_cons, List.sum_cons]
    obtain ⟨h1, h2, h3, h4⟩ := ha
    by_cases hpb : p = b
    · subst hpb
      have n1 : ¬ (p = a.src ∧ a.dst = p) := fun hh => h3 (hh.1.symm.trans hh.2.symm)
      have n2 : ¬ (p = a.dst ∧ a.src = p) := fun hh => h3 (hh.2.trans hh.1)
      simp [n1, n2]
    · simp only [ne_eq, hpb, not_false_eq_true, if_true]
      have c1 : (p = a.src) = (a.src = p) := propext eq_comm
      have c2 : (p = a.dst ∧ a.src = b) = (a.src = b ∧ a.dst = p) := propext ⟨fun h => ⟨h.2, h.1.symm⟩, fun h => ⟨h.2.symm, h.1⟩⟩
      simp only [c1, c2]
      omega

theorem sum_filter_range (P : Nat → Bool) (s : Int) : ∀ k, ∑ p ∈ Finset.range k, (if P p = true then s else 0) = ((List.range k).filter P).length * s := by
  intro k
  induction k with
  | zero => simp
  | succ k ih =>
    rw [Finset.sum_range_succ, ih, List.range_succ, List.filter_append, List.length_append]
    by_cases h : P k = true
    · simp [h, Int.add_mul]
    · simp [h]

theorem chosen_sublist (sm : List Mv) (wt : Nat → Int) : (chosen c sm wt).Sublist sm := by
  unfold chosen
  have := (List.filter_sublist (l := sm.zipIdx) (p := fun x => decide (x.2 < swapPrefix c sm wt x.1.src x.1.dst))).map Prod.fst
  rwa [List.zipIdx_map_fst] at this

theorem others_sublist (sm : List Mv) (wt : Nat → Int) : (others c sm wt).Sublist sm := by
  unfold others
  have := (List.filter_sublist (l := sm.zipIdx) (p := fun x => !decide (x.2 < swapPrefix c sm wt x.1.src x.1.dst))).map Prod.fst
  rwa [List.zipIdx_map_fst] at this

theorem validMoves_sublist (sm : List Mv) (t : RSt) : (validMoves sm t).Sublist sm := by
  unfold validMoves
  have := (List.filter_sublist (l := sm.zipIdx) (p := fun x => t.valid x.2)).map Prod.fst
  rwa [List.zipIdx_map_fst] at this

/-- **The first step keeps a balanced partition balanced.** -/
theorem chosen_balanced {sm : List Mv} (h : KeySorted c.k sm) (hok : OkMoves c sm) {wt : Nat → Int} (hb : Budget c wt) {b : Nat} (hbk : b < c.k) :
    wt b + ((chosen c sm wt).map (fun m => delta c m b)).sum ≤ c.maxw b := by
  have hw : ∀ m ∈ sm, 0 ≤ c.H.nw m.node := fun m hm => (hok m hm).2.2.2
  have hB := hb b hbk
  rw [delta_dirs b hbk _ (fun m hm => hok m ((chosen_sublist sm wt).subset hm))]
  have hle : ∑ p ∈ Finset.range c.k, (if p ≠ b then dirW c (chosen c sm wt) p b - dirW c (chosen c sm wt) b p else 0) ≤
      ∑ p ∈ Finset.range c.k, (if (decide (p ≠ b) && hasMoves c sm p b) = true then (share (c.maxw b - wt b) (involve c sm b) : Int) else 0) := by
    apply Finset.sum_le_sum
    intro p hp
    have hpk := Finset.mem_range.1 hp
    by_cases hpb : p = b
    · simp [hpb]
    · have hbp : b ≠ p := Ne.symm hpb
      rw [chosen_dirW h hok hb hpk hbk hpb, chosen_dirW h hok hb hbk hpk hbp]
      obtain ⟨⟨a1, a2⟩, a3⟩ := swapPrefix_spec h hw hb hpk hbk hpb
      obtain ⟨⟨b1, b2⟩, b3⟩ := swapPrefix_spec h hw hb hbk hpk hbp
      simp only [ne_eq, hpb, not_false_eq_true, if_true, decide_true, Bool.true_and]
      by_cases hm : hasMoves c sm p b = true
      · rw [if_pos hm]; exact a3
      · rw [if_neg hm]
        have heq : posn c.k sm (p * c.k + b + 1) = posn c.k sm (p * c.k + b) := by
          unfold hasMoves at hm; simpa using hm
        have : swapPrefix c sm wt p b = posn c.k sm (p * c.k + b) := by omega
        rw [this, segW_self]
        have := segW_nonneg (c := c) sm hw b1
        omega
  rw [sum_filter_range] at hle
  have := share_mul (budget := c.maxw b - wt b) (by omega) hB.2 (involve c sm b)
  unfold involve at this hle
  omega

end DetLP
end Verif
