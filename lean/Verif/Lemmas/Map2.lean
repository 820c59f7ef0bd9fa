import Verif.Lemmas.Map1
/-! # Lemmas: Kernighan-Lin local search -/
namespace Verif
namespace OneMap
open DFlow (set set_same set_other set_apply)

/-- effect of a list of swaps -/
def applySwaps (Φ : Assign) (l : List Elem) : Assign := l.foldl (fun Φ m => vertexSwap Φ m.2.1 m.2.2) Φ

theorem applySwaps_back : ∀ (l : List Elem) (Φ : Assign), applySwaps (applySwaps Φ l) l.reverse = Φ
  | [], _ => rfl
  | a :: l, Φ => by
    rw [List.reverse_cons]
    show applySwaps (applySwaps (vertexSwap Φ a.2.1 a.2.2) l) (l.reverse ++ [a]) = Φ
    unfold applySwaps
    rw [List.foldl_append]
    have := applySwaps_back l (vertexSwap Φ a.2.1 a.2.2)
    unfold applySwaps at this
    rw [this]
    exact vertexSwap_invol Φ _ _

/-- `Φ` is a permutation of `Φ₀`; fixed nodes are not moved; moved nodes fit into their block -/
structure Good (c : Cfg) (Φ₀ Φ : Assign) : Prop where
  perm : (c.H.nodes.map Φ).Perm (c.H.nodes.map Φ₀)
  keep : ∀ x, c.fixed x = true ∨ x ∉ c.H.nodes → Φ x = Φ₀ x
  fit : c.indiv = true → ∀ v ∈ c.H.nodes, Φ v = Φ₀ v ∨ ∃ b, Φ v = some b ∧ c.H.nw v ≤ c.mx b

theorem Good.refl {c : Cfg} (Φ : Assign) : Good c Φ Φ := ⟨List.Perm.refl _, fun _ _ => rfl, fun _ _ _ => Or.inl rfl⟩

theorem Good.trans {c : Cfg} {Φ₀ Φ₁ Φ₂ : Assign} (h1 : Good c Φ₀ Φ₁) (h2 : Good c Φ₁ Φ₂) : Good c Φ₀ Φ₂ where
  perm := h2.perm.trans h1.perm
  keep := fun x hx => (h2.keep x hx).trans (h1.keep x hx)
  fit := fun hi v hv => by
    rcases h2.fit hi v hv with h | h
    · rw [h]; exact h1.fit hi v hv
    · exact Or.inr h

theorem foldl_max_mem (a : Elem) : ∀ (l : List Elem) , l.foldl (fun m x => if less m x then x else m) a ∈ a :: l := by
  intro l
  induction l generalizing a with
  | nil => simp
  | cons b l ih =>
    rw [List.foldl_cons]
    rcases List.mem_cons.mp (ih (if less a b then b else a)) with h | h
    · rw [h]
      by_cases hl : less a b = true
      · rw [if_pos hl]; simp
      · rw [if_neg hl]; simp
    · exact List.mem_cons_of_mem _ (List.mem_cons_of_mem _ h)

theorem popMax_spec {q rest : List Elem} {m : Elem} (h : popMax q = some (m, rest)) : q.Perm (m :: rest) := by
  cases q with
  | nil => cases h
  | cons a l =>
    injection h with h
    injection h with h1 h2
    subst h1
    rw [← h2]
    exact List.perm_cons_erase (foldl_max_mem a l)

theorem popMax_none {q : List Elem} (h : popMax q = none) : q = [] := by
  cases q with
  | nil => rfl
  | cons a l => cases h

structure PInv (c : Cfg) (Φ₀ : Assign) (st : KL) : Prop where
  part : st.Φ = applySwaps Φ₀ st.swaps
  marks : st.mk' = fun _ => false
  cur : st.cur = c.H.steiner c.dist st.Φ
  pq : ∀ m ∈ st.pq, m.2.1 ∈ c.H.nodes ∧ m.2.2 ∈ c.H.nodes ∧ m.2.1 ≠ m.2.2 ∧ c.fixed m.2.1 = false ∧ c.fixed m.2.2 = false ∧ weightOk c Φ₀ m.2.1 m.2.2 = true
  unmoved : ∀ x, st.moved x = false → st.Φ x = Φ₀ x
  idx : st.bestIdx ≤ st.swaps.length
  best : st.bestObj = c.H.steiner c.dist (applySwaps Φ₀ (st.swaps.take st.bestIdx))
  le : st.bestObj ≤ c.H.steiner c.dist Φ₀
  sum : st.cur = st.bestObj - ((st.swaps.drop st.bestIdx).map Prod.fst).sum
  good : Good c Φ₀ st.Φ
  goodB : Good c Φ₀ (applySwaps Φ₀ (st.swaps.take st.bestIdx))

/-- the gain of a pair in the current state -/
def trueGain (c : Cfg) (Φ : Assign) (m : Elem) : Int := c.H.steiner c.dist Φ - c.H.steiner c.dist (vertexSwap Φ m.2.1 m.2.2)

/-- entries with an outdated gain -/
def stale (c : Cfg) (st : KL) : Nat := st.pq.countP (fun m => decide (m.1 ≠ trueGain c st.Φ m))

def unmovedCount (c : Cfg) (st : KL) : Nat := c.H.nodes.countP (fun x => !st.moved x)

theorem countP_lt {l : List Nat} {p q : Nat → Bool} (h : ∀ x ∈ l, p x = true → q x = true) {a : Nat} (ha : a ∈ l) (hq : q a = true) (hp : p a = false) :
    l.countP p < l.countP q := by
  induction l with
  | nil => simp at ha
  | cons b l ih =>
    have hm : l.countP p ≤ l.countP q := by
      apply List.countP_mono_left
      intro x hx; exact h x (List.mem_cons_of_mem _ hx)
    rw [List.countP_cons, List.countP_cons]
    rcases List.mem_cons.mp ha with rfl | ha
    · rw [hp, hq]
      simp; omega
    · have := ih (fun x hx => h x (List.mem_cons_of_mem _ hx)) ha
      have hb := h b List.mem_cons_self
      cases hpb : p b with
      | false => simp; omega
      | true => rw [hb hpb]; simp; omega

theorem fit_of {c : Cfg} {Φ₀ Φ : Assign} {u v bu bv : Nat} (hw : weightOk c Φ₀ u v = true) (hu : Φ₀ u = some bu) (hv : Φ₀ v = some bv) (hi : c.indiv = true) :
    c.H.nw u ≤ c.mx bv ∧ c.H.nw v ≤ c.mx bu := by
  unfold weightOk blk at hw
  rw [hi, hu, hv] at hw
  simpa using hw

theorem perform_inv {c : Cfg} (hw : c.H.WF) {Φ₀ : Assign} (hO : OneToOne c.H Φ₀) {st : KL} (h : PInv c Φ₀ st) {m : Elem} {rest : List Elem}
    (hp : st.pq.Perm (m :: rest)) (h1 : st.moved m.2.1 = false) (h2 : st.moved m.2.2 = false) (hg : m.1 = trueGain c st.Φ m) :
    PInv c Φ₀ (perform st m rest (fun _ => false)) := by
  obtain ⟨q1, q2, q3, q4, q5, q6⟩ := h.pq m (hp.symm.subset List.mem_cons_self)
  have hO' := hO.perm hw.nodes_nodup h.good.perm
  obtain ⟨bu, hu⟩ := hO'.some _ q1
  obtain ⟨bv, hv⟩ := hO'.some _ q2
  have hu0 := h.unmoved _ h1
  have hv0 := h.unmoved _ h2
  have happ : applySwaps Φ₀ (st.swaps ++ [m]) = vertexSwap st.Φ m.2.1 m.2.2 := by
    unfold applySwaps
    rw [List.foldl_append]
    show vertexSwap (applySwaps Φ₀ st.swaps) _ _ = _
    rw [← h.part]
  have hcur : st.cur - m.1 = c.H.steiner c.dist (vertexSwap st.Φ m.2.1 m.2.2) := by
    rw [h.cur, hg, trueGain]; omega
  have hgood : Good c Φ₀ (vertexSwap st.Φ m.2.1 m.2.2) := by
    refine ⟨(swap_perm hw.nodes_nodup hu hv q1 q2).trans h.good.perm, ?_, ?_⟩
    · intro x hx
      have hxu : x ≠ m.2.1 := by
        rintro rfl
        rcases hx with hx | hx
        · rw [q4] at hx; cases hx
        · exact hx q1
      have hxv : x ≠ m.2.2 := by
        rintro rfl
        rcases hx with hx | hx
        · rw [q5] at hx; cases hx
        · exact hx q2
      rw [vertexSwap_apply hu hv, Equiv.swap_apply_def, if_neg hxu, if_neg hxv]
      exact h.good.keep x hx
    · intro hi x hx
      have hf := fit_of (Φ := Φ₀) q6 (hu0.symm.trans hu) (hv0.symm.trans hv) hi
      rw [vertexSwap_apply hu hv, Equiv.swap_apply_def]
      by_cases hxu : x = m.2.1
      · rw [if_pos hxu, hv, hxu]; exact Or.inr ⟨bv, rfl, hf.1⟩
      · rw [if_neg hxu]
        by_cases hxv : x = m.2.2
        · rw [if_pos hxv, hu, hxv]; exact Or.inr ⟨bu, rfl, hf.2⟩
        · rw [if_neg hxv]; exact h.good.fit hi x hx
  have hpq : ∀ x ∈ rest, x.2.1 ∈ c.H.nodes ∧ x.2.2 ∈ c.H.nodes ∧ x.2.1 ≠ x.2.2 ∧ c.fixed x.2.1 = false ∧ c.fixed x.2.2 = false ∧ weightOk c Φ₀ x.2.1 x.2.2 = true :=
    fun x hx => h.pq x (hp.symm.subset (List.mem_cons_of_mem _ hx))
  have hun : ∀ x, set (set st.moved m.2.1 true) m.2.2 true x = false → vertexSwap st.Φ m.2.1 m.2.2 x = Φ₀ x := by
    intro x hx
    rw [set_apply] at hx
    by_cases hxv : x = m.2.2
    · rw [if_pos hxv] at hx; cases hx
    · rw [if_neg hxv, set_apply] at hx
      by_cases hxu : x = m.2.1
      · rw [if_pos hxu] at hx; cases hx
      · rw [if_neg hxu] at hx
        rw [vertexSwap_apply hu hv, Equiv.swap_apply_def, if_neg hxu, if_neg hxv]
        exact h.unmoved x hx
  by_cases hb : st.cur - m.1 ≤ st.bestObj
  · refine ⟨happ.symm, rfl, hcur, hpq, hun, ?_, ?_, ?_, ?_, hgood, ?_⟩
    · show (if st.cur - m.1 ≤ st.bestObj then (st.swaps ++ [m]).length else st.bestIdx) ≤ (st.swaps ++ [m]).length
      rw [if_pos hb]
    · show (if st.cur - m.1 ≤ st.bestObj then st.cur - m.1 else st.bestObj) =
        c.H.steiner c.dist (applySwaps Φ₀ ((st.swaps ++ [m]).take (if st.cur - m.1 ≤ st.bestObj then (st.swaps ++ [m]).length else st.bestIdx)))
      rw [if_pos hb, if_pos hb, List.take_length, happ]; exact hcur
    · show (if st.cur - m.1 ≤ st.bestObj then st.cur - m.1 else st.bestObj) ≤ _
      rw [if_pos hb]; exact hb.trans h.le
    · show st.cur - m.1 = (if st.cur - m.1 ≤ st.bestObj then st.cur - m.1 else st.bestObj) -
        (((st.swaps ++ [m]).drop (if st.cur - m.1 ≤ st.bestObj then (st.swaps ++ [m]).length else st.bestIdx)).map Prod.fst).sum
      rw [if_pos hb, if_pos hb, List.drop_length]; simp
    · show Good c Φ₀ (applySwaps Φ₀ ((st.swaps ++ [m]).take (if st.cur - m.1 ≤ st.bestObj then (st.swaps ++ [m]).length else st.bestIdx)))
      rw [if_pos hb, List.take_length, happ]; exact hgood
  · refine ⟨happ.symm, rfl, hcur, hpq, hun, ?_, ?_, ?_, ?_, hgood, ?_⟩
    · show (if st.cur - m.1 ≤ st.bestObj then (st.swaps ++ [m]).length else st.bestIdx) ≤ (st.swaps ++ [m]).length
      rw [if_neg hb, List.length_append]; have := h.idx; simp; omega
    · show (if st.cur - m.1 ≤ st.bestObj then st.cur - m.1 else st.bestObj) =
        c.H.steiner c.dist (applySwaps Φ₀ ((st.swaps ++ [m]).take (if st.cur - m.1 ≤ st.bestObj then (st.swaps ++ [m]).length else st.bestIdx)))
      rw [if_neg hb, if_neg hb, List.take_append_of_le_length h.idx]; exact h.best
    · show (if st.cur - m.1 ≤ st.bestObj then st.cur - m.1 else st.bestObj) ≤ _
      rw [if_neg hb]; exact h.le
    · show st.cur - m.1 = (if st.cur - m.1 ≤ st.bestObj then st.cur - m.1 else st.bestObj) -
        (((st.swaps ++ [m]).drop (if st.cur - m.1 ≤ st.bestObj then (st.swaps ++ [m]).length else st.bestIdx)).map Prod.fst).sum
      rw [if_neg hb, if_neg hb, List.drop_append_of_le_length h.idx]
      have := h.sum
      rw [List.map_append, List.sum_append]
      show _ = _ - (_ + (m.1 + 0))
      omega
    · show Good c Φ₀ (applySwaps Φ₀ ((st.swaps ++ [m]).take (if st.cur - m.1 ≤ st.bestObj then (st.swaps ++ [m]).length else st.bestIdx)))
      rw [if_neg hb, List.take_append_of_le_length h.idx]; exact h.goodB

/-- the inner loop terminates -/
theorem pass_ends {c : Cfg} (hw : c.H.WF) {Φ₀ : Assign} (hO : OneToOne c.H Φ₀) (st : KL) (h : PInv c Φ₀ st) :
    ∃ st' N, (∀ n ≥ N, passLoop c n st = some st') ∧ PInv c Φ₀ st' := by
  cases hq : popMax st.pq with
  | none =>
    refine ⟨st, 1, fun n hn => ?_, h⟩
    obtain ⟨n, rfl⟩ : ∃ k, n = k + 1 := ⟨n - 1, by omega⟩
    rw [passLoop]
    have : passStep c st = none := by unfold passStep; rw [hq]
    rw [this]
  | some x =>
    obtain ⟨m, rest⟩ := x
    have hp := popMax_spec hq
    have hm := h.pq m (hp.symm.subset List.mem_cons_self)
    have hrest : ∀ x ∈ rest, x ∈ st.pq := fun x hx => hp.symm.subset (List.mem_cons_of_mem _ hx)
    have hO' := hO.perm hw.nodes_nodup h.good.perm
    have hgain : swapGain c st.Φ st.mk' m.2.1 m.2.2 = (trueGain c st.Φ m, fun _ => false) := by
      rw [h.marks]; exact swapGain_eq hw hO' hm.2.2.1 hm.1 hm.2.1
    have finish : ∀ st1, passStep c st = some st1 → (∃ st' N, (∀ n ≥ N, passLoop c n st1 = some st') ∧ PInv c Φ₀ st') →
        ∃ st' N, (∀ n ≥ N, passLoop c n st = some st') ∧ PInv c Φ₀ st' := by
      rintro st1 hs ⟨st', N, h1, h2⟩
      refine ⟨st', N + 1, fun n hn => ?_, h2⟩
      obtain ⟨n, rfl⟩ : ∃ k, n = k + 1 := ⟨n - 1, by omega⟩
      rw [passLoop, hs]
      exact h1 n (by omega)
    by_cases hmv : (st.moved m.2.1 || st.moved m.2.2) = true
    · have hs : passStep c st = some { st with pq := rest } := by
        unfold passStep; rw [hq]; dsimp only; rw [if_pos hmv]
      have hI : PInv c Φ₀ { st with pq := rest } := ⟨h.part, h.marks, h.cur, fun x hx => h.pq x (hrest x hx), h.unmoved, h.idx, h.best, h.le, h.sum, h.good, h.goodB⟩
      have hd1 : stale c { st with pq := rest } ≤ stale c st := by
        show rest.countP _ ≤ st.pq.countP _
        rw [hp.countP_eq, List.countP_cons]; exact Nat.le_add_right _ _
      have hd2 : ({ st with pq := rest } : KL).pq.length < st.pq.length := by
        show rest.length < _
        rw [hp.length_eq]; simp
      have hd3 : unmovedCount c { st with pq := rest } = unmovedCount c st := rfl
      exact finish _ hs (pass_ends hw hO _ hI)
    · have hmv' : st.moved m.2.1 = false ∧ st.moved m.2.2 = false := by simpa using hmv
      by_cases hg : m.1 = trueGain c st.Φ m
      · have hs : passStep c st = some (perform st m rest (fun _ => false)) := by
          unfold passStep; rw [hq]; dsimp only; rw [if_neg hmv, hgain, if_neg (by simpa using hg)]
        have hd1 : unmovedCount c (perform st m rest (fun _ => false)) < unmovedCount c st := by
          refine countP_lt (fun x _ hx => ?_) hm.1 (by simp [hmv'.1]) ?_
          · have : set (set st.moved m.2.1 true) m.2.2 true x = false := by simpa [perform] using hx
            rw [set_apply] at this
            by_cases hxv : x = m.2.2
            · rw [if_pos hxv] at this; cases this
            · rw [if_neg hxv, set_apply] at this
              by_cases hxu : x = m.2.1
              · rw [if_pos hxu] at this; cases this
              · rw [if_neg hxu] at this; simp [this]
          · show (!set (set st.moved m.2.1 true) m.2.2 true m.2.1) = false
            rw [set_apply, if_neg hm.2.2.1, set_same]; rfl
        exact finish _ hs (pass_ends hw hO _ (perform_inv hw hO h hp hmv'.1 hmv'.2 hg))
      · have hs : passStep c st = some { st with pq := (trueGain c st.Φ m, m.2) :: rest, mk' := fun _ => false } := by
          unfold passStep; rw [hq]; dsimp only; rw [if_neg hmv, hgain, if_pos (by simpa using hg)]
        have hI : PInv c Φ₀ { st with pq := (trueGain c st.Φ m, m.2) :: rest, mk' := fun _ => false } :=
          ⟨h.part, rfl, h.cur, fun x hx => by
            rcases List.mem_cons.mp hx with rfl | hx
            · exact hm
            · exact h.pq x (hrest x hx), h.unmoved, h.idx, h.best, h.le, h.sum, h.good, h.goodB⟩
        have hd1 : unmovedCount c { st with pq := (trueGain c st.Φ m, m.2) :: rest, mk' := fun _ => false } = unmovedCount c st := rfl
        have hd2 : stale c { st with pq := (trueGain c st.Φ m, m.2) :: rest, mk' := fun _ => false } < stale c st := by
          show ((trueGain c st.Φ m, m.2) :: rest).countP (fun x => decide (x.1 ≠ trueGain c st.Φ x)) < st.pq.countP (fun x => decide (x.1 ≠ trueGain c st.Φ x))
          rw [hp.countP_eq, List.countP_cons, List.countP_cons, if_neg (by simp [trueGain]), if_pos (by simpa using hg)]
          omega
        exact finish _ hs (pass_ends hw hO _ hI)
termination_by (unmovedCount c st, stale c st, st.pq.length)
decreasing_by
  · rcases Nat.lt_or_eq_of_le hd1 with hd | hd
    · exact Prod.Lex.right _ (Prod.Lex.left _ _ hd)
    · rw [hd3, hd]; exact Prod.Lex.right _ (Prod.Lex.right _ hd2)
  · exact Prod.Lex.left _ _ hd1
  · rw [hd1]; exact Prod.Lex.right _ (Prod.Lex.left _ _ hd2)

theorem rollback_fold : ∀ (l : List Elem) (Φ : Assign) (x : Int), l.foldl (fun x m => (vertexSwap x.1 m.2.1 m.2.2, x.2 + m.1)) (Φ, x) =
    (applySwaps Φ l, x + (l.map Prod.fst).sum)
  | [], Φ, x => by simp [applySwaps]
  | a :: l, Φ, x => by
    rw [List.foldl_cons, rollback_fold l]
    refine Prod.ext rfl ?_
    show x + a.1 + _ = x + (List.map Prod.fst (a :: l)).sum
    rw [List.map_cons, List.sum_cons]; omega

theorem rollback_spec {c : Cfg} {Φ₀ : Assign} {st : KL} (h : PInv c Φ₀ st) :
    rollback st = (applySwaps Φ₀ (st.swaps.take st.bestIdx), st.bestObj) := by
  unfold rollback
  rw [rollback_fold]
  refine Prod.ext ?_ ?_
  · show applySwaps st.Φ _ = _
    rw [h.part]
    have : applySwaps Φ₀ st.swaps = applySwaps (applySwaps Φ₀ (st.swaps.take st.bestIdx)) (st.swaps.drop st.bestIdx) := by
      unfold applySwaps
      rw [← List.foldl_append, List.take_append_drop]
    rw [this, applySwaps_back]
  · show st.cur + (List.map Prod.fst (st.swaps.drop st.bestIdx).reverse).sum = st.bestObj
    rw [List.map_reverse, List.sum_reverse, h.sum]; omega

theorem initPQ_spec {c : Cfg} (hw : c.H.WF) {Φ : Assign} (hO : OneToOne c.H Φ) : (initPQ c Φ (fun _ => false)).2 = (fun _ => false) ∧
    ∀ m ∈ (initPQ c Φ (fun _ => false)).1, m.2.1 ∈ c.H.nodes ∧ m.2.2 ∈ c.H.nodes ∧ m.2.1 ≠ m.2.2 ∧ c.fixed m.2.1 = false ∧ c.fixed m.2.2 = false ∧
      weightOk c Φ m.2.1 m.2.2 = true := by
  have hpairs : ∀ p ∈ pairs c Φ, p.1 ∈ c.H.nodes ∧ p.2 ∈ c.H.nodes ∧ p.1 ≠ p.2 ∧ c.fixed p.1 = false ∧ c.fixed p.2 = false ∧ weightOk c Φ p.1 p.2 = true := by
    intro p hp
    unfold pairs at hp
    rw [List.mem_flatMap] at hp
    obtain ⟨u, hu, hp⟩ := hp
    by_cases hf : c.fixed u = true
    · rw [if_pos hf] at hp; simp at hp
    · rw [if_neg hf, List.mem_map] at hp
      obtain ⟨v, hv, rfl⟩ := hp
      rw [List.mem_filter] at hv
      obtain ⟨hv, hc⟩ := hv
      simp only [Bool.and_eq_true, Bool.not_eq_true', decide_eq_true_eq] at hc
      exact ⟨hu, hv, by have := hc.1.2; omega, by simpa using hf, hc.1.1, hc.2⟩
  have : ∀ (l : List (Nat × Nat)) (x : List Elem × (Nat → Bool)), (∀ p ∈ l, p ∈ pairs c Φ) → x.2 = (fun _ => false) → (∀ m ∈ x.1, m.2 ∈ pairs c Φ) →
      (l.foldl (fun x p => ((((swapGain c Φ x.2 p.1 p.2).1, p) : Elem) :: x.1, (swapGain c Φ x.2 p.1 p.2).2)) x).2 = (fun _ => false) ∧
      ∀ m ∈ (l.foldl (fun x p => ((((swapGain c Φ x.2 p.1 p.2).1, p) : Elem) :: x.1, (swapGain c Φ x.2 p.1 p.2).2)) x).1, m.2 ∈ pairs c Φ := by
    intro l
    induction l with
    | nil => intro x _ h1 h2; exact ⟨h1, h2⟩
    | cons p l ih =>
      intro x hl h1 h2
      rw [List.foldl_cons]
      have hp := hpairs p (hl p List.mem_cons_self)
      refine ih _ (fun q hq => hl q (List.mem_cons_of_mem _ hq)) ?_ ?_
      · dsimp only
        rw [h1, swapGain_eq hw hO hp.2.2.1 hp.1 hp.2.1]
      · intro m hm
        rcases List.mem_cons.mp hm with rfl | hm
        · exact hl p List.mem_cons_self
        · exact h2 m hm
  have h := this (pairs c Φ) ([], fun _ => false) (fun _ h => h) rfl (by simp)
  exact ⟨h.1, fun m hm => hpairs _ (h.2 m hm)⟩

theorem steiner_nonneg {c : Cfg} (hd : ∀ S, 0 ≤ c.dist S) (he : ∀ e ∈ c.H.edges, 0 ≤ c.H.ew e) (Φ : Assign) : 0 ≤ c.H.steiner c.dist Φ := by
  unfold HG.steiner
  apply List.sum_nonneg
  intro x hx
  obtain ⟨e, he', rfl⟩ := List.mem_map.mp hx
  exact mul_nonneg (hd _) (he e he')

theorem improveLoop_spec {c : Cfg} (hw : c.H.WF) (hd : ∀ S, 0 ≤ c.dist S) (he : ∀ e ∈ c.H.edges, 0 ≤ c.H.ew e) (Φ : Assign) (fr : Nat) (hO : OneToOne c.H Φ) :
    ∃ Φ' N, (∀ n ≥ N, improveLoop c n Φ (fun _ => false) (c.H.steiner c.dist Φ) fr = some Φ') ∧ Good c Φ Φ' ∧ c.H.steiner c.dist Φ' ≤ c.H.steiner c.dist Φ := by
  obtain ⟨i1, i2⟩ := initPQ_spec hw hO
  have hI : PInv c Φ (KL.mk Φ (initPQ c Φ (fun _ => false)).2 (c.H.steiner c.dist Φ) (initPQ c Φ (fun _ => false)).1 [] (fun _ => false) 0 (c.H.steiner c.dist Φ)) := by
    exact ⟨rfl, i1, rfl, i2, fun _ _ => rfl, le_refl _, rfl, le_refl _, by simp, Good.refl Φ, Good.refl Φ⟩
  obtain ⟨st, N, hN, hS⟩ := pass_ends hw hO _ hI
  have hr := rollback_spec hS
  have hle : c.H.steiner c.dist (applySwaps Φ (st.swaps.take st.bestIdx)) ≤ c.H.steiner c.dist Φ := by rw [← hS.best]; exact hS.le
  by_cases hcont : 0 < st.bestIdx ∧ (if (rollback st).2 = c.H.steiner c.dist Φ then fr + 1 else 0) ≤ maxFruitless
  · have hcur : (rollback st).2 = c.H.steiner c.dist (rollback st).1 := by rw [hr]; exact hS.best
    have hO' : OneToOne c.H (rollback st).1 := by rw [hr]; exact hO.perm hw.nodes_nodup hS.goodB.perm
    have hle' : c.H.steiner c.dist (rollback st).1 ≤ c.H.steiner c.dist Φ := by rw [hr]; exact hle
    have hfr : c.H.steiner c.dist (rollback st).1 < c.H.steiner c.dist Φ ∨
        (c.H.steiner c.dist (rollback st).1 = c.H.steiner c.dist Φ ∧ (if (rollback st).2 = c.H.steiner c.dist Φ then fr + 1 else 0) = fr + 1 ∧ fr + 1 ≤ maxFruitless) := by
      rcases lt_or_eq_of_le hle' with h | h
      · exact Or.inl h
      · right
        refine ⟨h, ?_, ?_⟩
        · rw [if_pos (by rw [hcur, h])]
        · have := hcont.2; rw [if_pos (by rw [hcur, h])] at this; exact this
    obtain ⟨Φ', M, h1, h2, h3⟩ := improveLoop_spec hw hd he (rollback st).1 (if (rollback st).2 = c.H.steiner c.dist Φ then fr + 1 else 0) hO'
    refine ⟨Φ', max N M + 1, fun n hn => ?_, ?_, h3.trans hle'⟩
    · obtain ⟨n, rfl⟩ : ∃ k, n = k + 1 := ⟨n - 1, by omega⟩
      rw [improveLoop, hN n (by omega)]
      dsimp only
      rw [if_pos hcont, hS.marks, ← h1 n (by omega), ← hcur]
    · refine Good.trans ?_ h2
      rw [hr]; exact hS.goodB
  · refine ⟨(rollback st).1, N + 1, fun n hn => ?_, ?_, ?_⟩
    · obtain ⟨n, rfl⟩ : ∃ k, n = k + 1 := ⟨n - 1, by omega⟩
      rw [improveLoop, hN n (by omega)]
      dsimp only
      rw [if_neg hcont]
    · rw [hr]; exact hS.goodB
    · rw [hr]; exact hle
termination_by ((c.H.steiner c.dist Φ).toNat, maxFruitless - fr)
decreasing_by
  have h0 := steiner_nonneg hd he (rollback st).1
  rcases hfr with h | ⟨h, h1, h2⟩
  · exact Prod.Lex.left _ _ (by omega)
  · rw [h, h1]; exact Prod.Lex.right _ (by omega)

end OneMap
end Verif
