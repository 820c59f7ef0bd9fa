import Verif.Model.StaticGraph
import Verif.Lemmas.Segments
import Mathlib.Tactic.Linarith
import Mathlib.Data.List.Perm.Basic
/-!
# Array segments; `deduplicateTmpEdges`
-/
namespace Verif
open SMap (wr)
namespace SG

section seg
variable {α : Type}

theorem rd_length (a : Nat → α) (s n : Nat) : (rd a s n).length = n := by simp [rd]

theorem rd_congr {a b : Nat → α} {s n : Nat} (h : ∀ i < n, a (s + i) = b (s + i)) : rd a s n = rd b s n := by
  unfold rd; apply List.map_congr_left; intro i hi; exact h i (List.mem_range.1 hi)

theorem rd_append (a : Nat → α) (s m n : Nat) : rd a s (m + n) = rd a s m ++ rd a (s + m) n := by
  unfold rd
  rw [List.range_add, List.map_append, List.map_map]
  congr 1
  apply List.map_congr_left; intro i _; simp [Nat.add_assoc]

theorem rd_succ (a : Nat → α) (s n : Nat) : rd a s (n + 1) = a s :: rd a (s + 1) n := by
  have := rd_append a s 1 n
  rw [Nat.add_comm 1 n] at this
  rw [this]; simp [rd]

theorem rd_succ_last (a : Nat → α) (s n : Nat) : rd a s (n + 1) = rd a s n ++ [a (s + n)] := by
  rw [rd_append]; simp [rd]

theorem mem_rd {a : Nat → α} {s n : Nat} {x : α} : x ∈ rd a s n ↔ ∃ i < n, a (s + i) = x := by
  simp [rd]

variable [Inhabited α]

theorem ws_in {a : Nat → α} {s : Nat} {l : List α} {i : Nat} (h : i < l.length) :
    ws a s l (s + i) = l.getD i default := by
  unfold ws
  rw [if_pos ⟨by omega, by omega⟩]
  congr 1; omega

theorem ws_out {a : Nat → α} {s : Nat} {l : List α} {p : Nat} (h : p < s ∨ s + l.length ≤ p) :
    ws a s l p = a p := by
  unfold ws; rw [if_neg]; omega

theorem rd_getD (l : List α) : rd (fun i => l.getD i default) 0 l.length = l := by
  apply List.ext_getElem
  · simp [rd]
  · intro i h1 h2; simp [rd, h2]

theorem rd_ws_take {a : Nat → α} {s k : Nat} {l : List α} (h : k ≤ l.length) :
    rd (ws a s l) s k = l.take k := by
  apply List.ext_getElem
  · simp [rd, h]
  · intro i h1 h2
    have hi : i < k := by simpa [rd] using h1
    have : ws a s l (s + i) = l.getD i default := ws_in (by omega)
    simp [rd, this, show i < l.length by omega]

theorem rd_ws_same {a : Nat → α} {s : Nat} {l : List α} : rd (ws a s l) s l.length = l := by
  rw [rd_ws_take (Nat.le_refl _)]; simp

theorem rd_ws_disj {a : Nat → α} {s t n : Nat} {l : List α} (h : t + n ≤ s ∨ s + l.length ≤ t) :
    rd (ws a s l) t n = rd a t n := by
  apply rd_congr; intro i hi; apply ws_out; omega

end seg

/-! ### The list computed by the loop -/

/-- run-length merge -/
def mergeL (c : TE) : List TE → List TE
  | [] => [c]
  | x :: xs =>
    if x.valid then
      if c.tgt = x.tgt then mergeL { tgt := c.tgt, w := c.w + x.w, id := min c.id x.id } xs
      else c :: mergeL x xs
    else [c]

theorem rd_wr_out {a : Nat → TE} {s n p : Nat} {x : TE} (h : p < s ∨ s + n ≤ p) :
    rd (wr a p x) s n = rd a s n := by
  apply rd_congr; intro i hi; unfold wr; rw [if_neg (by omega)]

theorem dedupLoop_spec : ∀ (fuel : Nat) (a : Nat → TE) (v t len : Nat), v < t → t ≤ len → len - t ≤ fuel →
    rd (dedupLoop fuel a v t len).1 0 ((dedupLoop fuel a v t len).2 + 1) =
      rd a 0 v ++ mergeL (a v) (rd a t (len - t)) := by
  intro fuel
  induction fuel with
  | zero =>
    intro a v t len hv ht hf
    have : len - t = 0 := by omega
    simp only [dedupLoop, this]
    rw [rd_succ_last]; simp [rd, mergeL]
  | succ fuel ih =>
    intro a v t len hv ht hf
    unfold dedupLoop
    by_cases hlt : t < len
    · have hlen : len - t = (len - (t + 1)) + 1 := by omega
      have hR : rd a t (len - t) = a t :: rd a (t + 1) (len - (t + 1)) := by rw [hlen, rd_succ]
      rw [hR]
      by_cases hval : (a t).valid = true
      · simp only [hlt, decide_true, hval, Bool.and_self, if_true]
        by_cases he : (a v).tgt = (a t).tgt
        · rw [if_pos he, ih _ v (t + 1) len (by omega) (by omega) (by omega)]
          have h1 : rd (wr (wr a v { tgt := (a v).tgt, w := (a v).w + (a t).w, id := min (a v).id (a t).id }) t
              { a t with w := 0 }) 0 v = rd a 0 v := by
            rw [rd_wr_out (by omega), rd_wr_out (by omega)]
          have h2 : rd (wr (wr a v { tgt := (a v).tgt, w := (a v).w + (a t).w, id := min (a v).id (a t).id }) t
              { a t with w := 0 }) (t + 1) (len - (t + 1)) = rd a (t + 1) (len - (t + 1)) := by
            rw [rd_wr_out (by omega), rd_wr_out (by omega)]
          have h3 : wr (wr a v { tgt := (a v).tgt, w := (a v).w + (a t).w, id := min (a v).id (a t).id }) t
              { a t with w := 0 } v = { tgt := (a v).tgt, w := (a v).w + (a t).w, id := min (a v).id (a t).id } := by
            unfold wr; rw [if_neg (by omega)]; simp
          rw [h1, h2, h3]
          conv_rhs => rw [mergeL, if_pos hval, if_pos he]
        · rw [if_neg he, ih _ (v + 1) (t + 1) len (by omega) (by omega) (by omega)]
          have h1 : rd (wr a (v + 1) (a t)) 0 (v + 1) = rd a 0 (v + 1) := rd_wr_out (by omega)
          have h2 : rd (wr a (v + 1) (a t)) (t + 1) (len - (t + 1)) = rd a (t + 1) (len - (t + 1)) :=
            rd_wr_out (by omega)
          have h3 : wr a (v + 1) (a t) (v + 1) = a t := by simp [wr]
          rw [h1, h2, h3]
          conv_rhs => rw [mergeL, if_pos hval, if_neg he]
          rw [rd_succ_last]; simp
      · simp only [hval, Bool.and_false]
        conv_rhs => rw [mergeL, if_neg hval]
        rw [if_neg (by simp)]
        rw [rd_succ_last]; simp
    · have h0 : len - t = 0 := by omega
      simp only [hlt, decide_false, Bool.false_and, if_false, h0]
      simp only [Bool.false_eq_true, if_false]
      rw [rd_succ_last]; simp [rd, mergeL]

theorem dedupLoop_zero : ∀ (fuel : Nat) (a : Nat → TE) (v t len : Nat), v < t → (a 0).valid = false → v = 0 →
    (∀ i, 0 < i → i < len → (a i).valid = false) → (dedupLoop fuel a v t len).1 0 = a 0 := by
  intro fuel
  cases fuel with
  | zero => intros; rfl
  | succ fuel =>
    intro a v t len hv h0 hv0 hall
    unfold dedupLoop
    by_cases hlt : t < len
    · rw [if_neg]; simp [hall t (by omega) hlt]
    · rw [if_neg]; simp [hlt]

/-- temporary edges of a coarse node: positive weight, or invalid -/
def Ok (l : List TE) : Prop := ∀ x ∈ l, (0 < x.w ∧ x.tgt < kInvalid) ∨ (x.w = 0 ∧ x.tgt = kInvalid)

theorem Ok.valid_iff {l : List TE} (h : Ok l) {x : TE} (hx : x ∈ l) : x.valid = true ↔ x.tgt < kInvalid := by
  unfold TE.valid
  rcases h x hx with h1 | h1
  · simp [h1.2]; omega
  · simp [h1]

def dedupSorted : List TE → List TE
  | [] => []
  | c :: xs => if c.valid then mergeL c xs else []

theorem dedupLoop_head : ∀ (fuel : Nat) (a : Nat → TE) (v t len : Nat), v < t → t ≤ len →
    (∀ i < len, 0 ≤ (a i).w) → (a 0).valid = true → ((dedupLoop fuel a v t len).1 0).valid = true := by
  intro fuel
  induction fuel with
  | zero => intros; assumption
  | succ fuel ih =>
    intro a v t len hv ht hw h0
    unfold dedupLoop
    split_ifs with hc he
    · simp only [Bool.and_eq_true, decide_eq_true_eq] at hc
      refine ih _ _ _ _ (by omega) (by omega) ?_ ?_
      · intro i hi
        simp only [wr]
        split_ifs
        · simp
        · have := hw v (by omega); have := hw t (by omega); simp only; omega
        · exact hw i hi
      · simp only [wr]
        rw [if_neg (by omega)]
        split_ifs with hv0
        · have := hw v (by omega); have h2 := hw t (by omega); have h3 := hc.2
          subst hv0
          simp only [TE.valid, decide_eq_true_eq] at h0 h3 ⊢
          omega
        · exact h0
    · simp only [Bool.and_eq_true, decide_eq_true_eq] at hc
      refine ih _ _ _ _ (by omega) (by omega) ?_ ?_
      · intro i hi
        simp only [wr]
        split_ifs
        · exact hw t (by omega)
        · exact hw i hi
      · simp only [wr]; rw [if_neg (by omega)]; exact h0
    · exact h0

theorem deduplicate_eq {srt : List TE → List TE} (hs : IsSort srt) {l : List TE} (hok : Ok l) :
    deduplicate srt l = dedupSorted (srt l) := by
  unfold deduplicate
  have hperm := (hs l).1
  have hsort := (hs l).2
  have hok' : Ok (srt l) := fun x hx => hok x (hperm.mem_iff.1 hx)
  generalize srt l = s at *
  cases s with
  | nil => simp [dedupSorted]
  | cons c xs =>
    have hw : ∀ i < (c :: xs).length, 0 ≤ ((c :: xs).getD i default).w := by
      intro i hi
      have hm : (c :: xs).getD i default ∈ c :: xs := by
        rw [List.getD_eq_getElem _ _ hi]; exact List.getElem_mem _
      rcases hok' _ hm with h | h <;> omega
    by_cases hc : c.valid = true
    · have hh := dedupLoop_head (c :: xs).length (fun i => (c :: xs).getD i default) 0 1 (c :: xs).length
        (by omega) (by simp) hw (by simpa using hc)
      simp only [dedupSorted, if_pos hc]
      rw [if_pos ⟨by simp, hh⟩]
      rw [dedupLoop_spec _ _ 0 1 _ (by omega) (by simp) (by omega)]
      have h1 : rd (fun i => (c :: xs).getD i default) 1 ((c :: xs).length - 1) = xs := by
        have := rd_getD (c :: xs)
        simp only [List.length_cons] at this ⊢
        rw [rd_succ] at this
        simp only [Nat.zero_add, Nat.add_sub_cancel] at this ⊢
        exact (List.cons.inj this).2
      rw [h1]
      simp [rd]
    · have hcf : c.valid = false := by simpa using hc
      have hall : ∀ i, 0 < i → i < (c :: xs).length → ((c :: xs).getD i default).valid = false := by
        intro i hi hil
        have hm : (c :: xs).getD i default ∈ xs := by
          obtain ⟨j, rfl⟩ : ∃ j, i = j + 1 := ⟨i - 1, by omega⟩
          simp only [List.length_cons] at hil
          rw [List.getD_cons_succ, List.getD_eq_getElem _ _ (by omega)]; exact List.getElem_mem _
        have hle := (List.pairwise_cons.1 hsort).1 _ hm
        have h1 := hok'.valid_iff (List.mem_cons_of_mem c hm)
        have h2 := hok'.valid_iff (List.mem_cons_self (a := c) (l := xs))
        rw [hcf] at h2
        by_contra hcon
        have h3 : ((c :: xs).getD i default).valid = true := by simpa using hcon
        have := h1.1 h3
        have h4 : ¬ c.tgt < kInvalid := fun h => by have := h2.2 h; simp at this
        omega
      have := dedupLoop_zero (c :: xs).length (fun i => (c :: xs).getD i default) 0 1 (c :: xs).length (by omega)
        (by simpa using hcf) rfl hall
      simp only [dedupSorted, hcf]
      rw [if_neg]; · simp
      rintro ⟨_, h⟩
      rw [this] at h
      simp [hcf] at h

/-! ### What a deduplicated list says about the original one -/

/-- total weight of the edges with target `t` -/
def wsum (l : List TE) (t : Nat) : Int := (l.map (fun x => if x.tgt = t then x.w else 0)).sum

/-- `r` summarises `l`: for every target the same total weight and the same smallest id -/
structure Summ (l r : List TE) : Prop where
  pos : ∀ x ∈ r, 0 < x.w ∧ x.tgt < kInvalid
  wt : ∀ t, wsum r t = wsum l t
  cov : ∀ x ∈ l, x.valid = true → ∃ y ∈ r, y.tgt = x.tgt ∧ y.id ≤ x.id
  from_ : ∀ y ∈ r, ∃ x ∈ l, x.valid = true ∧ x.tgt = y.tgt ∧ x.id = y.id

theorem wsum_append (l r : List TE) (t : Nat) : wsum (l ++ r) t = wsum l t + wsum r t := by simp [wsum]
theorem wsum_cons (x : TE) (l : List TE) (t : Nat) :
    wsum (x :: l) t = (if x.tgt = t then x.w else 0) + wsum l t := by simp [wsum]
theorem wsum_perm {l r : List TE} (h : l.Perm r) (t : Nat) : wsum l t = wsum r t := (h.map _).sum_eq

theorem Summ.valid {l r : List TE} (h : Summ l r) : ∀ x ∈ r, x.valid = true := fun x hx => by
  have := (h.pos x hx).1; simp [TE.valid]; omega

theorem Summ.nil : Summ [] [] := ⟨by simp, by simp, by simp, by simp⟩

theorem Summ.trans {l r s : List TE} (h : Summ l r) (h' : Summ r s) : Summ l s := by
  refine ⟨h'.pos, fun t => (h'.wt t).trans (h.wt t), ?_, ?_⟩
  · intro x hx hv
    obtain ⟨y, hy, h1, h2⟩ := h.cov x hx hv
    obtain ⟨z, hz, h3, h4⟩ := h'.cov y hy (h.valid y hy)
    exact ⟨z, hz, by omega, by omega⟩
  · intro z hz
    obtain ⟨y, hy, _, h1, h2⟩ := h'.from_ z hz
    obtain ⟨x, hx, h3, h4, h5⟩ := h.from_ y hy
    exact ⟨x, hx, h3, by omega, by omega⟩

theorem Summ.append {l r l' r' : List TE} (h : Summ l r) (h' : Summ l' r') : Summ (l ++ l') (r ++ r') := by
  refine ⟨?_, fun t => by rw [wsum_append, wsum_append, h.wt, h'.wt], ?_, ?_⟩
  · intro x hx; rcases List.mem_append.1 hx with hx | hx
    · exact h.pos x hx
    · exact h'.pos x hx
  · intro x hx hv
    rcases List.mem_append.1 hx with hx | hx
    · obtain ⟨y, hy, h1⟩ := h.cov x hx hv; exact ⟨y, List.mem_append_left _ hy, h1⟩
    · obtain ⟨y, hy, h1⟩ := h'.cov x hx hv; exact ⟨y, List.mem_append_right _ hy, h1⟩
  · intro y hy
    rcases List.mem_append.1 hy with hy | hy
    · obtain ⟨x, hx, h1⟩ := h.from_ y hy; exact ⟨x, List.mem_append_left _ hx, h1⟩
    · obtain ⟨x, hx, h1⟩ := h'.from_ y hy; exact ⟨x, List.mem_append_right _ hx, h1⟩

theorem Summ.of_perm {l r : List TE} (h : l.Perm r) (hpos : ∀ x ∈ r, 0 < x.w ∧ x.tgt < kInvalid) : Summ l r := by
  refine ⟨hpos, fun t => (wsum_perm h t).symm, fun x hx _ => ⟨x, h.mem_iff.1 hx, rfl, Nat.le_refl _⟩, fun y hy => ?_⟩
  refine ⟨y, h.mem_iff.2 hy, ?_, rfl, rfl⟩
  have := (hpos y hy).1; simp [TE.valid]; omega

theorem Summ.perm_left {l l' r : List TE} (h : Summ l r) (hp : l.Perm l') : Summ l' r :=
  ⟨h.pos, fun t => (h.wt t).trans (wsum_perm hp t), fun x hx => h.cov x (hp.mem_iff.2 hx), fun y hy => by
    obtain ⟨x, hx, h1⟩ := h.from_ y hy; exact ⟨x, hp.mem_iff.1 hx, h1⟩⟩

theorem Summ.flatten {ls rs : List (List TE)} (h : List.Forall₂ Summ ls rs) : Summ ls.flatten rs.flatten := by
  induction h with
  | nil => exact Summ.nil
  | cons h _ ih => simpa using Summ.append h ih

theorem Summ.flatten_map {β : Type} (L : List β) (f g : β → List TE) (h : ∀ b ∈ L, Summ (f b) (g b)) :
    Summ (L.map f).flatten (L.map g).flatten := by
  induction L with
  | nil => exact Summ.nil
  | cons b L ih =>
    simpa using Summ.append (h b (by simp)) (ih (fun c hc => h c (List.mem_cons_of_mem _ hc)))

/-- strictly increasing targets -/
def Sorted (r : List TE) : Prop := r.Pairwise (fun a b => a.tgt < b.tgt)

theorem mergeL_spec : ∀ (xs : List TE) (c : TE), 0 < c.w → c.tgt < kInvalid → Ok xs →
    (∀ x ∈ xs, c.tgt ≤ x.tgt) → xs.Pairwise (fun a b => a.tgt ≤ b.tgt) →
    Summ (c :: xs) (mergeL c xs) ∧ Sorted (mergeL c xs) ∧ (∀ y ∈ mergeL c xs, c.tgt ≤ y.tgt) := by
  intro xs
  induction xs with
  | nil =>
    intro c hc ht _ _ _
    refine ⟨Summ.of_perm (List.Perm.refl _) (by simpa [mergeL] using ⟨hc, ht⟩), by simp [mergeL, Sorted], by simp [mergeL]⟩
  | cons x xs ih =>
    intro c hc ht hok hle hs
    have hokx : Ok xs := fun y hy => hok y (List.mem_cons_of_mem _ hy)
    have hsx := List.pairwise_cons.1 hs
    by_cases hv : x.valid = true
    · have hxt := (hok.valid_iff (List.mem_cons_self ..)).1 hv
      have hxw : 0 < x.w := by rcases hok x (List.mem_cons_self ..) with h | h <;> [exact h.1; omega]
      have hcx := hle x (List.mem_cons_self ..)
      by_cases he : c.tgt = x.tgt
      · rw [mergeL, if_pos hv, if_pos he]
        obtain ⟨h1, h2, h3⟩ := ih { tgt := c.tgt, w := c.w + x.w, id := min c.id x.id } (by simp only; omega) ht hokx
          (fun y hy => by have := hle y (List.mem_cons_of_mem _ hy); exact this) hsx.2
        refine ⟨⟨h1.pos, ?_, ?_, ?_⟩, h2, h3⟩
        · intro t
          rw [h1.wt t, wsum_cons, wsum_cons, wsum_cons, ← he]
          simp only
          split_ifs <;> omega
        · intro y hy hvy
          rcases List.mem_cons.1 hy with rfl | hy
          · obtain ⟨z, hz, h4, h5⟩ := h1.cov _ (List.mem_cons_self ..) (by simp [TE.valid]; omega)
            exact ⟨z, hz, h4, h5.trans (Nat.min_le_left _ _)⟩
          rcases List.mem_cons.1 hy with rfl | hy
          · obtain ⟨z, hz, h4, h5⟩ := h1.cov _ (List.mem_cons_self ..) (by simp [TE.valid]; omega)
            exact ⟨z, hz, h4.trans he, h5.trans (Nat.min_le_right _ _)⟩
          · exact h1.cov y (List.mem_cons_of_mem _ hy) hvy
        · intro y hy
          obtain ⟨z, hz, h4, h5, h6⟩ := h1.from_ y hy
          rcases List.mem_cons.1 hz with rfl | hz
          · simp only at h5 h6
            rcases Nat.le_total c.id x.id with h | h
            · exact ⟨c, by simp, by simp [TE.valid]; omega, h5, by omega⟩
            · exact ⟨x, by simp, hv, by omega, by omega⟩
          · exact ⟨z, by simp [hz], h4, h5, h6⟩
      · rw [mergeL, if_pos hv, if_neg he]
        obtain ⟨h1, h2, h3⟩ := ih x hxw hxt hokx (fun y hy => hsx.1 y hy) hsx.2
        refine ⟨?_, ?_, ?_⟩
        · have := Summ.append (Summ.of_perm (List.Perm.refl [c]) (by simpa using ⟨hc, ht⟩)) h1
          simpa using this
        · refine List.pairwise_cons.2 ⟨fun y hy => ?_, h2⟩
          have := h3 y hy; omega
        · intro y hy
          rcases List.mem_cons.1 hy with rfl | hy
          · exact Nat.le_refl _
          · have := h3 y hy; omega
    · rw [mergeL, if_neg hv]
      have hxk : ¬ x.tgt < kInvalid := fun h => hv ((hok.valid_iff (List.mem_cons_self ..)).2 h)
      have hinv : ∀ y ∈ x :: xs, y.w = 0 ∧ y.tgt = kInvalid := by
        intro y hy
        have hge : x.tgt ≤ y.tgt := by
          rcases List.mem_cons.1 hy with rfl | hy'
          · exact Nat.le_refl _
          · exact hsx.1 y hy'
        rcases hok y hy with h | h
        · omega
        · exact h
      refine ⟨⟨by simpa using ⟨hc, ht⟩, ?_, ?_, ?_⟩, by simp [Sorted], by simp⟩
      · intro t
        rw [wsum_cons, wsum_cons]
        have : wsum (x :: xs) t = 0 := by
          unfold wsum
          apply List.sum_eq_zero
          intro z hz
          obtain ⟨y, hy, rfl⟩ := List.mem_map.1 hz
          have := (hinv y hy).1
          split_ifs <;> simp [this]
        rw [this]; simp [wsum]
      · intro y hy hvy
        rcases List.mem_cons.1 hy with rfl | hy
        · exact ⟨y, by simp, rfl, Nat.le_refl _⟩
        · have := (hinv y hy).1
          simp [TE.valid, this] at hvy
      · intro y hy
        simp only [List.mem_singleton] at hy
        subst hy
        exact ⟨y, by simp, by simp [TE.valid]; omega, rfl, rfl⟩

theorem deduplicate_spec {srt : List TE → List TE} (hs : IsSort srt) {l : List TE} (hok : Ok l) :
    Summ l (deduplicate srt l) ∧ Sorted (deduplicate srt l) := by
  rw [deduplicate_eq hs hok]
  have hperm := (hs l).1
  have hsort := (hs l).2
  have hok' : Ok (srt l) := fun x hx => hok x (hperm.mem_iff.1 hx)
  suffices h : Summ (srt l) (dedupSorted (srt l)) ∧ Sorted (dedupSorted (srt l)) from
    ⟨h.1.perm_left hperm, h.2⟩
  clear hperm
  generalize srt l = s at *
  cases s with
  | nil => exact ⟨Summ.nil, by simp [dedupSorted, Sorted]⟩
  | cons c xs =>
    have hp := List.pairwise_cons.1 hsort
    have hokx : Ok xs := fun y hy => hok' y (List.mem_cons_of_mem _ hy)
    by_cases hv : c.valid = true
    · have hct := (hok'.valid_iff (List.mem_cons_self ..)).1 hv
      have hcw : 0 < c.w := by rcases hok' c (List.mem_cons_self ..) with h | h <;> [exact h.1; omega]
      simp only [dedupSorted, if_pos hv]
      obtain ⟨h1, h2, _⟩ := mergeL_spec xs c hcw hct hokx hp.1 hp.2
      exact ⟨h1, h2⟩
    · have hck : ¬ c.tgt < kInvalid := fun h => hv ((hok'.valid_iff (List.mem_cons_self ..)).2 h)
      have hinv : ∀ y ∈ c :: xs, y.w = 0 := by
        intro y hy
        have hge : c.tgt ≤ y.tgt := by
          rcases List.mem_cons.1 hy with rfl | hy'
          · exact Nat.le_refl _
          · exact hp.1 y hy'
        rcases hok' y hy with h | h
        · omega
        · exact h.1
      simp only [dedupSorted, if_neg hv]
      refine ⟨⟨by simp, ?_, ?_, by simp⟩, by simp [Sorted]⟩
      · intro t
        unfold wsum
        symm
        apply List.sum_eq_zero
        intro z hz
        obtain ⟨y, hy, rfl⟩ := List.mem_map.1 hz
        have := hinv y hy
        split_ifs <;> simp [this]
      · intro y hy hvy
        simp [TE.valid, hinv y hy] at hvy

/-- a summary with strictly increasing targets is determined by the list -/
theorem Summ.unique {l r r' : List TE} (h : Summ l r) (h' : Summ l r') (hs : Sorted r) (hs' : Sorted r') :
    r = r' := by
  have wsum_single : ∀ {r : List TE}, Sorted r → ∀ x ∈ r, wsum r x.tgt = x.w := by
    intro r hr
    induction r with
    | nil => simp
    | cons a r ih =>
      intro x hx
      have hp := List.pairwise_cons.1 hr
      rw [wsum_cons]
      rcases List.mem_cons.1 hx with rfl | hx
      · rw [if_pos rfl]
        have : wsum r x.tgt = 0 := by
          unfold wsum
          apply List.sum_eq_zero
          intro z hz
          obtain ⟨y, hy, rfl⟩ := List.mem_map.1 hz
          rw [if_neg]; have := hp.1 y hy; omega
        omega
      · rw [if_neg (by have := hp.1 x hx; omega), ih hp.2 x hx]; omega
  have tgt_inj : ∀ {r : List TE}, Sorted r → ∀ x ∈ r, ∀ y ∈ r, x.tgt = y.tgt → x = y := by
    intro r hr
    induction r with
    | nil => simp
    | cons a r ih =>
      have hp := List.pairwise_cons.1 hr
      intro x hx y hy hxy
      rcases List.mem_cons.1 hx with hxa | hx <;> rcases List.mem_cons.1 hy with hya | hy
      · rw [hxa, hya]
      · have := hp.1 y hy; rw [hxa] at hxy; omega
      · have := hp.1 x hx; rw [hya] at hxy; omega
      · exact ih hp.2 x hx y hy hxy
  have sub : ∀ {r r' : List TE}, Summ l r → Summ l r' → Sorted r → Sorted r' → ∀ x ∈ r, x ∈ r' := by
    intro r r' h h' hs hs' x hx
    obtain ⟨z, hz, hzv, hzt, hzi⟩ := h.from_ x hx
    obtain ⟨y, hy, hyt, hyi⟩ := h'.cov z hz hzv
    obtain ⟨z', hz', hzv', hzt', hzi'⟩ := h'.from_ y hy
    obtain ⟨x', hx', hxt', hxi'⟩ := h.cov z' hz' hzv'
    have hxx : x' = x := tgt_inj hs x' hx' x hx (by omega)
    have hw : x.w = y.w := by
      rw [← wsum_single hs x hx, ← wsum_single hs' y hy, h.wt, h'.wt, hyt, hzt]
    have : x = y := by
      cases x; cases y; subst hxx
      simp only [TE.mk.injEq] at *
      refine ⟨by omega, hw, by omega⟩
    rw [this]; exact hy
  have nd : ∀ {r : List TE}, Sorted r → r.Nodup := fun hr =>
    hr.imp (fun {a b} hab heq => by rw [heq] at hab; omega)
  have hperm : r.Perm r' := (List.perm_ext_iff_of_nodup (nd hs) (nd hs')).2
    (fun x => ⟨sub h h' hs hs' x, sub h' h hs' hs x⟩)
  exact hperm.eq_of_pairwise (fun a b _ _ h1 h2 => by omega) hs hs'

end SG
end Verif
