import Verif.Lemmas.FNet3
/-! The construction for large hyperedges builds the same network. -/
namespace Verif
namespace FNet
open DFlow (set set_same set_other set_apply)

variable {c : NCfg} {r : Region}

/-! ### The pins of a hyperedge -/

def inSeg (H : HG) (e : Nat) : List Nat → Nat → List Nat
  | [], _ => []
  | v :: l, n => (if e ∈ H.inc v then [n] else []) ++ inSeg H e l (n + 1)

theorem mem_inSeg {H : HG} {e k : Nat} (l : List Nat) : ∀ n, k ∈ inSeg H e l n ↔ ∃ j v, l[j]? = some v ∧ k = n + j ∧ e ∈ H.inc v := by
  induction l with
  | nil => intro n; simp [inSeg]
  | cons a l ih =>
    intro n
    simp only [inSeg, List.mem_append, ih]
    constructor
    · rintro (h | ⟨j, v, h1, h2, h3⟩)
      · by_cases he : e ∈ H.inc a
        · rw [if_pos he, List.mem_singleton] at h
          exact ⟨0, a, rfl, h, he⟩
        · rw [if_neg he] at h; cases h
      · exact ⟨j + 1, v, h1, by omega, h3⟩
    · rintro ⟨j, v, h1, h2, h3⟩
      cases j with
      | zero =>
        simp only [List.getElem?_cons_zero, Option.some.injEq] at h1
        subst h1
        left; rw [if_pos h3]; simpa using h2
      | succ j => exact Or.inr ⟨j, v, h1, by omega, h3⟩

theorem inSeg_sorted {H : HG} {e : Nat} (l : List Nat) : ∀ n, (inSeg H e l n).Pairwise (· < ·) := by
  induction l with
  | nil => intro n; exact List.Pairwise.nil
  | cons a l ih =>
    intro n
    simp only [inSeg]
    rw [List.pairwise_append]
    refine ⟨by split <;> simp, ih _, ?_⟩
    intro x hx y hy
    obtain ⟨j, v, _, h2, _⟩ := (mem_inSeg l _).1 hy
    split at hx
    · rw [List.mem_singleton] at hx; omega
    · cases hx

theorem inSeg_length {H : HG} {e : Nat} (l : List Nat) : ∀ n, (inSeg H e l n).length = l.countP (fun v => decide (e ∈ H.inc v)) := by
  induction l with
  | nil => intro n; rfl
  | cons a l ih =>
    intro n
    simp only [inSeg, List.length_append, ih, List.countP_cons, decide_eq_true_eq]
    by_cases h : e ∈ H.inc a
    · simp [h]; omega
    · simp [h]

/-- a filter by an injective number -/
theorem collect_filter {H : HG} {hm : Nat → Option Nat} {i e b : Nat} (l : List Nat) (hi : ∀ v ∈ l, (H.inc v).Nodup)
    (hm' : ∀ v ∈ l, ∀ x ∈ H.inc v, ((hm x).getD 0 = i ↔ x = e)) : ∀ n,
    (collect H hm b l n).filter (fun t => decide (t.e = i)) = (inSeg H e l n).map (fun k => ⟨i, k, b⟩) := by
  induction l with
  | nil => intro n; rfl
  | cons v l ih =>
    intro n
    simp only [collect, inSeg, List.filter_append, List.map_append,
      ih (fun u hu => hi u (List.mem_cons_of_mem _ hu)) (fun u hu => hm' u (List.mem_cons_of_mem _ hu))]
    congr 1
    rw [List.filter_map]
    have h1 : (H.inc v).filter ((fun t : TmpPin => decide (t.e = i)) ∘ fun x => ⟨(hm x).getD 0, n, b⟩) = (H.inc v).filter (fun x => x == e) := by
      apply List.filter_congr
      intro x hx
      have := hm' v List.mem_cons_self x hx
      simp only [Function.comp, beq_eq_decide]
      exact decide_eq_decide.2 this
    rw [h1, List.filter_beq]
    by_cases he : e ∈ H.inc v
    · rw [if_pos he, List.count_eq_one_of_mem (hi v List.mem_cons_self) he]
      simp [(hm' v List.mem_cons_self e he).2 rfl]
    · rw [if_neg he, List.count_eq_zero_of_not_mem he]; rfl

theorem mem_collect {H : HG} {hm : Nat → Option Nat} {b : Nat} {t : TmpPin} (l : List Nat) : ∀ n, t ∈ collect H hm b l n →
    t.blk = b ∧ n ≤ t.pin ∧ t.pin < n + l.length ∧ ∃ v ∈ l, ∃ e ∈ H.inc v, t.e = (hm e).getD 0 := by
  induction l with
  | nil => intro n h; cases h
  | cons v l ih =>
    intro n h
    simp only [collect, List.mem_append, List.mem_map] at h
    rcases h with ⟨e, he, rfl⟩ | h
    · exact ⟨rfl, Nat.le_refl _, by simp, v, List.mem_cons_self, e, he, rfl⟩
    · obtain ⟨h1, h2, h3, u, hu, e, he, h4⟩ := ih _ h
      exact ⟨h1, by omega, by simp; omega, u, List.mem_cons_of_mem _ hu, e, he, h4⟩

/-- the pins of the hyperedge `e` with number `i` -/
def segT (c : NCfg) (r : Region) (i : Nat) : List TmpPin :=
  (inSeg c.H (r.hes.getD i 0) r.n0 1).map (fun k => ⟨i, k, c.b0⟩) ++ (inSeg c.H (r.hes.getD i 0) r.n1 (sinkOf r + 1)).map (fun k => ⟨i, k, c.b1⟩)

theorem heMap_iff (h : NOK c r) {i x : Nat} (hi : i < r.hes.length) (hx : x ∈ r.hes) :
    (writeIds (fun _ => none) r.hes 0 x).getD 0 = i ↔ x = r.hes.getD i 0 := by
  obtain ⟨j, hj⟩ := List.getElem?_of_mem hx
  rw [writeIds_get r.hes h.hes hj]
  have hjl : j < r.hes.length := (List.getElem?_eq_some_iff.1 hj).1
  have hji : r.hes[j] = x := (List.getElem?_eq_some_iff.1 hj).2
  rw [List.getD_eq_getElem?_getD, List.getElem?_eq_getElem hi]
  simp only [Nat.zero_add, Option.getD_some]
  rw [← hji]
  exact (h.hes.getElem_inj_iff).symm

theorem largePins_filter (h : NOK c r) {i : Nat} (hi : i < r.hes.length) : (largePins c r).filter (fun t => decide (t.e = i)) = segT c r i := by
  unfold largePins segT
  simp only [List.filter_append]
  have hmem : ∀ v ∈ r.n0 ++ r.n1, ∀ x ∈ c.H.inc v, x ∈ r.hes := fun v hv x hx => (h.inc x).2 ⟨v, hv, hx⟩
  rw [collect_filter r.n0 (fun v hv => h.wf.inc_nodup v (h.mem v (List.mem_append_left _ hv)))
      (fun v hv x hx => heMap_iff h hi (hmem v (List.mem_append_left _ hv) x hx)) 1,
    collect_filter r.n1 (fun v hv => h.wf.inc_nodup v (h.mem v (List.mem_append_right _ hv)))
      (fun v hv x hx => heMap_iff h hi (hmem v (List.mem_append_right _ hv) x hx)) (sinkOf r + 1)]

theorem largePins_mem (h : NOK c r) {t : TmpPin} (ht : t ∈ largePins c r) :
    t.e < r.hes.length ∧ t.blk = (if t.pin < sinkOf r then c.b0 else c.b1) := by
  unfold largePins at ht
  have hlt : ∀ v ∈ r.n0 ++ r.n1, ∀ x ∈ c.H.inc v, (writeIds (fun _ => none) r.hes 0 x).getD 0 < r.hes.length := by
    intro v hv x hx
    obtain ⟨j, hj⟩ := List.getElem?_of_mem ((h.inc x).2 ⟨v, hv, hx⟩)
    rw [writeIds_get r.hes h.hes hj]
    simpa using (List.getElem?_eq_some_iff.1 hj).1
  simp only [List.mem_append] at ht
  rcases ht with ht | ht
  · obtain ⟨h1, h2, h3, v, hv, e, he, h4⟩ := mem_collect _ _ ht
    refine ⟨h4 ▸ hlt v (List.mem_append_left _ hv) e he, ?_⟩
    rw [h1, if_pos (by unfold sinkOf; omega)]
  · obtain ⟨h1, h2, h3, v, hv, e, he, h4⟩ := mem_collect _ _ ht
    refine ⟨h4 ▸ hlt v (List.mem_append_right _ hv) e he, ?_⟩
    rw [h1, if_neg (by omega)]

theorem perm_flatMap_filter {α : Type} (f : α → Nat) (n : Nat) : ∀ l : List α, (∀ t ∈ l, f t < n) →
    ((List.range n).flatMap (fun i => l.filter (fun t => decide (f t = i)))).Perm l := by
  induction n with
  | zero =>
    intro l h
    cases l with
    | nil => exact List.Perm.refl _
    | cons a l => exact absurd (h a List.mem_cons_self) (by omega)
  | succ n ih =>
    intro l h
    rw [List.range_succ, List.flatMap_append]
    have h1 : (List.range n).flatMap (fun i => l.filter (fun t => decide (f t = i))) =
        (List.range n).flatMap (fun i => (l.filter (fun t => decide (f t < n))).filter (fun t => decide (f t = i))) := by
      rw [List.flatMap_def, List.flatMap_def]
      congr 1
      apply List.map_congr_left
      intro i hi
      rw [List.mem_range] at hi
      rw [List.filter_filter]
      apply List.filter_congr
      intro t _
      by_cases ht : f t = i
      · simp [ht, hi]
      · simp [ht]
    rw [h1]
    have h2 := ih (l.filter (fun t => decide (f t < n))) (fun t ht => by simpa using (List.mem_filter.1 ht).2)
    refine (h2.append_right _).trans ?_
    have h3 : ([n].flatMap fun i => l.filter (fun t => decide (f t = i))) = l.filter (fun t => !decide (f t < n)) := by
      simp only [List.flatMap_cons, List.flatMap_nil, List.append_nil]
      apply List.filter_congr
      intro t ht
      have := h t ht
      rw [Bool.eq_iff_iff]
      simp only [decide_eq_true_eq, Bool.not_eq_true', decide_eq_false_iff_not]
      omega
    rw [h3]
    exact List.filter_append_perm _ _

theorem segT_mem {i : Nat} {t : TmpPin} (h : t ∈ segT c r i) : t.e = i := by
  unfold segT at h
  simp only [List.mem_append, List.mem_map] at h
  rcases h with ⟨k, _, rfl⟩ | ⟨k, _, rfl⟩ <;> rfl

theorem segT_pin (i : Nat) : (segT c r i).map TmpPin.pin = inSeg c.H (r.hes.getD i 0) r.n0 1 ++ inSeg c.H (r.hes.getD i 0) r.n1 (sinkOf r + 1) := by
  unfold segT
  simp [List.map_append, List.map_map, Function.comp_def]

theorem segPins_sorted (H : HG) (e : Nat) (r : Region) : (inSeg H e r.n0 1 ++ inSeg H e r.n1 (sinkOf r + 1)).Pairwise (· < ·) := by
  rw [List.pairwise_append]
  refine ⟨inSeg_sorted _ _, inSeg_sorted _ _, ?_⟩
  intro x hx y hy
  obtain ⟨j, v, h1, h2, _⟩ := (mem_inSeg _ _).1 hx
  obtain ⟨j', v', h1', h2', _⟩ := (mem_inSeg _ _).1 hy
  have := (List.getElem?_eq_some_iff.1 h1).1
  unfold sinkOf at *
  omega

theorem segT_sorted (i : Nat) : (segT c r i).Pairwise pinLe := by
  have h := segPins_sorted c.H (r.hes.getD i 0) r
  rw [← segT_pin, List.pairwise_map] at h
  refine h.imp_of_mem ?_
  intro a b ha hb hab
  exact Or.inr ⟨by rw [segT_mem ha, segT_mem hb], Nat.le_of_lt hab⟩

instance : Std.Total pinLe := ⟨by unfold pinLe; intro a b; omega⟩
instance : IsTrans TmpPin pinLe := ⟨by unfold pinLe; intro a b d; omega⟩

theorem largePins_sorted (h : NOK c r) : (largePins c r).insertionSort pinLe = (List.range r.hes.length).flatMap (segT c r) := by
  have hp : ((List.range r.hes.length).flatMap (segT c r)).Perm (largePins c r) := by
    have := perm_flatMap_filter TmpPin.e r.hes.length (largePins c r) (fun t ht => (largePins_mem h ht).1)
    have he : (List.range r.hes.length).flatMap (fun i => (largePins c r).filter (fun t => decide (t.e = i))) = (List.range r.hes.length).flatMap (segT c r) := by
      rw [List.flatMap_def, List.flatMap_def]
      congr 1
      apply List.map_congr_left
      intro i hi
      exact largePins_filter h (List.mem_range.1 hi)
    rwa [he] at this
  refine List.Perm.eq_of_pairwise (le := pinLe) ?_ (List.pairwise_insertionSort _ _) ?_ ((List.perm_insertionSort _ _).trans hp.symm)
  · intro a b ha hb hab hba
    rw [List.mem_insertionSort] at ha
    have ha := (largePins_mem h ha).2
    have hb := (largePins_mem h (hp.mem_iff.1 hb)).2
    unfold pinLe at hab hba
    have e1 : a.e = b.e := by omega
    have e2 : a.pin = b.pin := by omega
    rw [e2, ← hb] at ha
    cases a; cases b; simp_all
  · rw [List.pairwise_flatMap]
    refine ⟨fun i _ => segT_sorted i, ?_⟩
    refine (List.pairwise_lt_range).imp ?_
    intro i j hij x hx y hy
    exact Or.inl (by rw [segT_mem hx, segT_mem hy]; exact hij)

/-! ### The loop -/

theorem largeLoop_seg (a : List TmpPin) {last : Nat} {rest : List TmpPin} : ∀ {s : SSt} {seg : List TmpPin} {c0 c1 : Nat}, (∀ t ∈ a, t.e = last) →
    largeLoop c r s last seg c0 c1 (a ++ rest) =
    largeLoop c r s last (seg ++ a) (c0 + a.countP (fun t => decide (t.blk = c.b0))) (c1 + a.countP (fun t => decide (t.blk = c.b1))) rest := by
  induction a with
  | nil => intro s seg c0 c1 _; simp
  | cons p a ih =>
    intro s seg c0 c1 h
    rw [List.cons_append, largeLoop, if_neg (by rw [h p List.mem_cons_self]; simp), ih (fun t ht => h t (List.mem_cons_of_mem _ ht))]
    simp only [List.append_assoc, List.singleton_append, List.countP_cons, decide_eq_true_eq]
    congr 1 <;> omega

def addSeg (c : NCfg) (r : Region) (s : SSt) (i : Nat) : SSt :=
  addHyperedge c r s i (segT c r i) ((segT c r i).countP (fun t => decide (t.blk = c.b0))) ((segT c r i).countP (fun t => decide (t.blk = c.b1)))

theorem largeLoop_next (m : Nat) : ∀ {s : SSt} {last : Nat} {seg : List TmpPin} {c0 c1 : Nat},
    (∀ i, last < i → i < last + 1 + m → segT c r i ≠ []) →
    largeLoop c r s last seg c0 c1 ((List.range' (last + 1) m).flatMap (segT c r)) =
    (List.range' (last + 1) m).foldl (addSeg c r) (addHyperedge c r s last seg c0 c1) := by
  induction m with
  | zero => intro s last seg c0 c1 _; simp [largeLoop]
  | succ m ih =>
    intro s last seg c0 c1 h
    rw [List.range'_succ, List.flatMap_cons, List.foldl_cons]
    obtain ⟨p, a, hpa⟩ := List.exists_cons_of_ne_nil (h (last + 1) (by omega) (by omega))
    have hpe : ∀ t ∈ p :: a, t.e = last + 1 := fun t ht => segT_mem (c := c) (r := r) (by rw [hpa]; exact ht)
    rw [hpa, List.cons_append, largeLoop, if_pos (by rw [hpe p List.mem_cons_self]; omega)]
    rw [hpe p List.mem_cons_self, largeLoop_seg a (fun t ht => hpe t (List.mem_cons_of_mem _ ht)), ih (fun i h1 h2 => h i (by omega) (by omega))]
    congr 1
    unfold addSeg
    rw [hpa]
    simp only [List.singleton_append, List.countP_cons, decide_eq_true_eq]
    congr 1 <;> omega

theorem segT_ne (h : NOK c r) {i : Nat} (hi : i < r.hes.length) : segT c r i ≠ [] := by
  have he : r.hes.getD i 0 ∈ r.hes := by
    rw [List.getD_eq_getElem?_getD, List.getElem?_eq_getElem hi]; simp
  obtain ⟨v, hv, hve⟩ := (h.inc _).1 he
  intro hnil
  have : (segT c r i).map TmpPin.pin = [] := by rw [hnil]; rfl
  rw [segT_pin, List.append_eq_nil_iff] at this
  rcases List.mem_append.1 hv with hv | hv
  · obtain ⟨j, hj⟩ := List.getElem?_of_mem hv
    have := (mem_inSeg (H := c.H) (e := r.hes.getD i 0) r.n0 1).2 ⟨j, v, hj, rfl, hve⟩
    simp_all
  · obtain ⟨j, hj⟩ := List.getElem?_of_mem hv
    have := (mem_inSeg (H := c.H) (e := r.hes.getD i 0) r.n1 (sinkOf r + 1)).2 ⟨j, v, hj, rfl, hve⟩
    simp_all

theorem constructLarge_fold (h : NOK c r) : constructLarge c r = (List.range r.hes.length).foldl (addSeg c r) SSt.empty := by
  unfold constructLarge
  rw [largePins_sorted h]
  cases hn : r.hes.length with
  | zero => rfl
  | succ m =>
    rw [List.range_eq_range', List.range'_succ, List.flatMap_cons, List.foldl_cons]
    obtain ⟨p, a, hpa⟩ := List.exists_cons_of_ne_nil (segT_ne (i := 0) h (by omega))
    have hpe : ∀ t ∈ p :: a, t.e = 0 := fun t ht => segT_mem (c := c) (r := r) (by rw [hpa]; exact ht)
    rw [hpa, List.cons_append]
    dsimp only
    rw [hpe p List.mem_cons_self, ← List.cons_append, ← hpa, largeLoop_seg (segT c r 0) (fun t ht => segT_mem ht),
      largeLoop_next m (fun i h1 h2 => segT_ne h (by omega))]
    simp only [addSeg, List.nil_append, Nat.zero_add]

end FNet
end Verif
