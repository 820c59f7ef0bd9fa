import Verif.Model.Factory
import Verif.Lemmas.Segments
namespace Verif
namespace Factory
open SMap (wr)

/-! ### Weight sum with overflow detection -/

def wsumRange (w : Nat → Int) (i j : Nat) : Int := ((List.range' i (j - i)).map w).sum

theorem wsumRange_self (w : Nat → Int) (i : Nat) : wsumRange w i i = 0 := by simp [wsumRange]

theorem wsumRange_split (w : Nat → Int) {i j k : Nat} (h1 : i ≤ j) (h2 : j ≤ k) :
    wsumRange w i k = wsumRange w i j + wsumRange w j k := by
  unfold wsumRange
  rw [← List.sum_append, ← List.map_append]
  congr 2
  have := List.range'_append (s := i) (m := j - i) (n := k - j) (step := 1)
  simp only [Nat.one_mul] at this
  rw [show i + (j - i) = j by omega] at this
  rw [this]
  congr 1
  omega

theorem list_sum_nonneg {w : Nat → Int} {l : List Nat} (hw : ∀ v ∈ l, 0 ≤ w v) : 0 ≤ (l.map w).sum := by
  induction l with
  | nil => simp
  | cons a l ih =>
    rw [List.map_cons, List.sum_cons]
    have := hw a (by simp)
    have := ih (fun v hv => hw v (by simp [hv]))
    omega

/-- partial results: exact while the flag is not set; the flag is only set if the true sum is too large -/
structure SumOk (S : Int) (r : Int × Bool) : Prop where
  nonneg : 0 ≤ r.1
  le : r.1 ≤ S
  exact : r.2 = false → r.1 = S ∧ S ≤ maxWeight
  over : r.2 = true → S > maxWeight

theorem SumOk.add {S T x : Int} {r : Int × Bool} (h : SumOk S r) (hx : 0 ≤ x) (hxT : x ≤ T) (f : Bool)
    (hf1 : f = false → x = T) (hf2 : f = true → T > maxWeight) : SumOk (S + T) (safeAdd (r.1, r.2 || f) x) := by
  obtain ⟨h1, h2, h3, h4⟩ := h
  unfold safeAdd
  simp only
  by_cases hc : r.1 ≤ maxWeight - x
  · rw [if_pos hc]
    refine ⟨by simp only; omega, by simp only; omega, ?_, ?_⟩
    · intro hb
      simp only [Bool.or_eq_false_iff] at hb
      have := hf1 hb.2
      have := h3 hb.1
      simp only
      omega
    · intro hb
      simp only [Bool.or_eq_true] at hb
      rcases hb with hb | hb
      · have := h4 hb; omega
      · have := hf2 hb; omega
  · rw [if_neg hc]
    refine ⟨h1, by simp only; omega, fun hb => by simp at hb, fun _ => by omega⟩

theorem Reduce.le {i j : Nat} (e : Reduce i j) : i ≤ j := by
  induction e with
  | start i => exact Nat.le_refl _
  | extend e k h ih => omega
  | join l r ih1 ih2 => omega

theorem foldl_safeAdd {w : Nat → Int} (l : List Nat) (hw : ∀ v ∈ l, 0 ≤ w v) {S : Int} {r : Int × Bool} (h : SumOk S r) :
    SumOk (S + (l.map w).sum) (l.foldl (fun acc v => safeAdd acc (w v)) r) := by
  induction l generalizing S r with
  | nil => simpa using h
  | cons a l ih =>
    rw [List.foldl_cons, List.map_cons, List.sum_cons, ← Int.add_assoc]
    apply ih (fun v hv => hw v (by simp [hv]))
    have := h.add (hw a (by simp)) (Int.le_refl (w a)) false (fun _ => rfl) (fun h => by simp at h)
    simpa using this

theorem Reduce.eval_ok {w : Nat → Int} {i j : Nat} (e : Reduce i j) (hw : ∀ v, i ≤ v → v < j → 0 ≤ w v) :
    SumOk (wsumRange w i j) (e.eval w) := by
  induction e with
  | start i => rw [wsumRange_self]; exact ⟨by simp [eval], by simp [eval], fun _ => by simp [eval, maxWeight], fun h => by simp [eval] at h⟩
  | extend e k h ih =>
    rename_i i' j'
    have hij := e.le
    rw [wsumRange_split w hij h]
    unfold eval
    apply foldl_safeAdd
    · intro v hv
      rw [List.mem_range'_1] at hv
      exact hw v (by omega) (by omega)
    · exact ih (fun v h1 h2 => hw v h1 (by omega))
  | join l r ih1 ih2 =>
    rename_i i' j' k'
    have h1 := l.le
    have h2 := r.le
    rw [wsumRange_split w h1 h2]
    have a := ih1 (fun v g1 g2 => hw v g1 (by omega))
    have b := ih2 (fun v g1 g2 => hw v (by omega) g2)
    unfold eval
    simp only
    exact a.add b.nonneg b.le _ (fun hb => (b.exact hb).1) b.over

/-! ### Counters -/

theorem countFold (l : List Nat) (v c : Nat) :
    l.foldl (fun (c : Nat) pin => if pin = v then c + 1 else c) c = c + l.count v := by
  induction l generalizing c with
  | nil => simp
  | cons a l ih =>
    rw [List.foldl_cons, ih]
    by_cases h : a = v
    · subst h; simp; omega
    · rw [if_neg h, List.count_cons_of_ne h]

theorem foldl_add_nat (l : List Nat) (f : Nat → Nat) (c : Nat) :
    l.foldl (fun c x => c + f x) c = c + (l.map f).sum := by
  induction l generalizing c with
  | nil => simp
  | cons a l ih => rw [List.foldl_cons, ih, List.map_cons, List.sum_cons]; omega

theorem localCount_eq (m : Nat) (ev : Nat → List Nat) (thread : Nat → Nat) (t v : Nat) :
    localCount m ev thread t v = (((List.range m).filter (fun e => thread e = t)).map (fun e => (ev e).count v)).sum := by
  unfold localCount
  have : (fun (c : Nat) e => (ev e).foldl (fun (c : Nat) pin => if pin = v then c + 1 else c) c) =
      (fun c e => c + (ev e).count v) := by
    funext c e; exact countFold _ _ _
  rw [this, foldl_add_nat]; omega

theorem sum_indicator (T k x : Nat) :
    ((List.range T).map (fun t => if k = t then x else 0)).sum = if k < T then x else 0 := by
  induction T with
  | zero => simp
  | succ T ih =>
    rw [List.range_succ, List.map_append, List.sum_append, ih]
    simp only [List.map_cons, List.map_nil, List.sum_cons, List.sum_nil]
    split <;> split <;> split <;> omega

theorem sum_map_add (l : List Nat) (f g : Nat → Nat) :
    (l.map (fun x => f x + g x)).sum = (l.map f).sum + (l.map g).sum := by
  induction l with
  | nil => rfl
  | cons a l ih => simp only [List.map_cons, List.sum_cons, ih]; omega

theorem sum_by_thread (L : List Nat) (f th : Nat → Nat) (T : Nat) (h : ∀ e ∈ L, th e < T) :
    ((List.range T).map (fun t => ((L.filter (fun e => th e = t)).map f).sum)).sum = (L.map f).sum := by
  induction L with
  | nil =>
    simp only [List.filter_nil, List.map_nil, List.sum_nil]
    have := sum_indicator T T 0
    simpa using this
  | cons a L ih =>
    have ih := ih (fun e he => h e (by simp [he]))
    have ha := h a (by simp)
    have : (fun t => (((a :: L).filter (fun e => th e = t)).map f).sum) =
        fun t => (if th a = t then f a else 0) + ((L.filter (fun e => th e = t)).map f).sum := by
      funext t
      by_cases hc : th a = t
      · rw [List.filter_cons_of_pos (by simpa using hc)]; simp [hc]
      · rw [List.filter_cons_of_neg (by simpa using hc)]; simp [hc]
    rw [this, sum_map_add, ih, sum_indicator, if_pos ha, List.map_cons, List.sum_cons]

theorem netCount_eq {m : Nat} {ev : Nat → List Nat} {threads : Nat} {thread : Nat → Nat}
    (h : ∀ e < m, thread e < threads) (v : Nat) :
    netCount m ev threads thread v = ((List.range m).map (fun e => (ev e).count v)).sum := by
  unfold netCount
  rw [foldl_add_nat, Nat.zero_add]
  simp only [localCount_eq]
  exact sum_by_thread _ _ _ _ (fun e he => h e (List.mem_range.1 he))

theorem foldl_max_le (l : List Nat) (f : Nat → Nat) (c k : Nat) :
    l.foldl (fun c x => max c (f x)) c ≤ k ↔ c ≤ k ∧ ∀ x ∈ l, f x ≤ k := by
  induction l generalizing c with
  | nil => simp
  | cons a l ih =>
    rw [List.foldl_cons, ih]
    simp only [List.mem_cons, forall_eq_or_imp]
    constructor
    · rintro ⟨h1, h2⟩; exact ⟨by omega, by omega, h2⟩
    · rintro ⟨h1, h2, h3⟩; exact ⟨by omega, h3⟩

theorem maxSize_le {m : Nat} {ev : Nat → List Nat} {threads : Nat} {thread : Nat → Nat}
    (h : ∀ e < m, thread e < threads) (k : Nat) :
    maxSize m ev threads thread ≤ k ↔ ∀ e < m, (ev e).length ≤ k := by
  unfold maxSize
  rw [foldl_max_le]
  simp only [Nat.zero_le, true_and, List.mem_range]
  constructor
  · intro hh e he
    have := hh (thread e) (h e he)
    rw [foldl_max_le] at this
    exact this.2 e (List.mem_filter.2 ⟨List.mem_range.2 he, by simp⟩)
  · intro hh t _
    rw [foldl_max_le]
    refine ⟨Nat.zero_le _, fun e he => ?_⟩
    exact hh e (List.mem_range.1 (List.mem_filter.1 he).1)

/-! ### Writing pins -/

def pinAt (ev : Nat → List Nat) (p : Nat × Nat) : Nat := (ev p.1).getD p.2 0

theorem mem_allPins {m : Nat} {ev : Nat → List Nat} {p : Nat × Nat} :
    p ∈ allPins m ev ↔ p.1 < m ∧ p.2 < (ev p.1).length := by
  unfold allPins
  simp only [List.mem_flatMap, List.mem_range, List.mem_map]
  constructor
  · rintro ⟨e, he, i, hi, rfl⟩; exact ⟨he, hi⟩
  · rintro ⟨h1, h2⟩; exact ⟨p.1, h1, p.2, h2, rfl⟩

theorem allPins_nodup (m : Nat) (ev : Nat → List Nat) : (allPins m ev).Nodup := by
  unfold allPins
  rw [List.nodup_flatMap]
  constructor
  · intro e _
    exact List.nodup_range.map (fun a b h => (Prod.mk.inj h).2)
  · refine List.nodup_range.imp ?_
    intro a b hne p h1 h2
    rw [List.mem_map] at h1 h2
    obtain ⟨i, _, rfl⟩ := h1
    obtain ⟨j, _, h⟩ := h2
    exact hne (Prod.mk.inj h).1.symm

theorem filter_range_getD_length (l : List Nat) (v : Nat) :
    ((List.range l.length).filter (fun i => decide (l.getD i 0 = v))).length = l.count v := by
  induction l with
  | nil => simp
  | cons a l ih =>
    rw [List.length_cons, List.range_succ_eq_map, List.filter_cons]
    have hr : ((List.map Nat.succ (List.range l.length)).filter (fun i => decide ((a :: l).getD i 0 = v))).length =
        l.count v := by
      rw [List.filter_map, List.length_map, ← ih]
      rfl
    by_cases h : a = v
    · subst h
      simp only [List.getD_cons_zero, decide_true, if_true, List.length_cons, hr, List.count_cons_self]
    · have : decide ((a :: l).getD 0 0 = v) = false := by simp [h]
      rw [this, List.count_cons_of_ne h]
      simpa using hr

theorem allPins_count (m : Nat) (ev : Nat → List Nat) (v : Nat) :
    ((allPins m ev).filter (fun p => decide (pinAt ev p = v))).length =
      ((List.range m).map (fun e => (ev e).count v)).sum := by
  unfold allPins
  induction m with
  | zero => simp
  | succ m ih =>
    rw [List.range_succ, List.flatMap_append, List.filter_append, List.length_append, ih, List.map_append,
      List.sum_append]
    simp only [List.flatMap_cons, List.flatMap_nil, List.append_nil, List.map_cons, List.map_nil, List.sum_cons,
      List.sum_nil, Nat.add_zero]
    congr 1
    rw [List.filter_map, List.length_map, ← filter_range_getD_length]
    rfl

theorem writePins_spec {m : Nat} {ev : Nat → List Nat} {deg : Nat → Nat} {order : List (Nat × Nat)}
    (ho : order.Perm (allPins m ev))
    (hdeg : ∀ v, deg v = ((List.range m).map (fun e => (ev e).count v)).sum) (st0 : PinSt) (h0 : st0.cnt = fun _ => 0) :
    let st := order.foldl (writePin ev (psum (fun e => (ev e).length)) (psum deg)) st0
    (∀ e < m, readSeg st.arr (psum (fun e => (ev e).length) e) (ev e).length = ev e) ∧
    (∀ v, readSeg st.nets (psum deg v) (deg v) = (order.filter (fun p => decide (pinAt ev p = v))).map Prod.fst) := by
  intro st
  have hlen : ∀ v, (order.filter (fun p => decide (pinAt ev p = v))).length = deg v := by
    intro v
    rw [(ho.filter _).length_eq, allPins_count, hdeg]
  suffices G : ∀ (rest done : List (Nat × Nat)) (st : PinSt), done ++ rest = order →
      (∀ v, st.cnt v = (done.filter (fun p => decide (pinAt ev p = v))).length) →
      (∀ v, readSeg st.nets (psum deg v) (st.cnt v) = (done.filter (fun p => decide (pinAt ev p = v))).map Prod.fst) →
      (∀ p ∈ done, st.arr (psum (fun e => (ev e).length) p.1 + p.2) = pinAt ev p) →
      (∀ v, readSeg (rest.foldl (writePin ev (psum (fun e => (ev e).length)) (psum deg)) st).nets (psum deg v) (deg v) =
        (order.filter (fun p => decide (pinAt ev p = v))).map Prod.fst) ∧
      (∀ p ∈ order, (rest.foldl (writePin ev (psum (fun e => (ev e).length)) (psum deg)) st).arr
        (psum (fun e => (ev e).length) p.1 + p.2) = pinAt ev p) by
    obtain ⟨g1, g2⟩ := G order [] st0 (by simp) (by simp [h0]) (by simp [h0, readSeg]) (by simp)
    refine ⟨?_, g1⟩
    intro e he
    apply List.ext_getElem
    · rw [readSeg_length]
    · intro i h1 h2
      have := g2 (e, i) (ho.mem_iff.2 (mem_allPins.2 ⟨he, h2⟩))
      simp only [readSeg, List.getElem_map, List.getElem_range]
      refine this.trans ?_
      simp [pinAt, List.getD, h2]
  intro rest
  induction rest with
  | nil =>
    intro done st hd h1 h2 h3
    rw [List.append_nil] at hd
    subst hd
    refine ⟨fun v => ?_, h3⟩
    rw [← hlen v, ← h1 v]
    exact h2 v
  | cons p rest ih =>
    intro done st hd h1 h2 h3
    rw [List.foldl_cons]
    have hpo : p ∈ order := by rw [← hd]; simp
    have hp := mem_allPins.1 (ho.mem_iff.1 hpo)
    have hcl : ∀ v, (done.filter (fun p => decide (pinAt ev p = v))).length +
        ([p].filter (fun p => decide (pinAt ev p = v))).length ≤ deg v := by
      intro v
      rw [← hlen v, ← hd, show p :: rest = [p] ++ rest from rfl, ← List.append_assoc, List.filter_append _ rest,
        List.filter_append, List.length_append, List.length_append]
      omega
    have hcp : st.cnt (pinAt ev p) < deg (pinAt ev p) := by
      have := hcl (pinAt ev p)
      rw [← h1] at this
      simp at this
      omega
    apply ih (done ++ [p])
    · simpa using hd
    · intro v
      show wr st.cnt (pinAt ev p) (st.cnt (pinAt ev p) + 1) v = _
      rw [List.filter_append, List.length_append, ← h1]
      by_cases hv : pinAt ev p = v
      · subst hv; rw [wr_same]; simp
      · rw [wr_other _ _ (fun h => hv h.symm)]; simp [hv]
    · intro v
      show readSeg (wr st.nets (psum deg (pinAt ev p) + st.cnt (pinAt ev p)) p.1) (psum deg v)
        (wr st.cnt (pinAt ev p) (st.cnt (pinAt ev p) + 1) v) = _
      rw [List.filter_append, List.map_append]
      by_cases hv : pinAt ev p = v
      · subst hv
        rw [wr_same, readSeg_append]
        congr 1
        · rw [← h2]
          apply readSeg_congr
          intro i hi
          exact wr_other _ _ (by omega)
        · simp [readSeg, wr_same]
      · rw [wr_other _ _ (fun h => hv h.symm), ← h2]
        simp only [List.filter_cons, hv, decide_false, Bool.false_eq_true, if_false, List.filter_nil, List.map_nil,
          List.append_nil]
        apply readSeg_congr
        intro i hi
        apply wr_other
        have hc : st.cnt v ≤ deg v := by have := hcl v; rw [← h1] at this; omega
        rcases psum_disj deg hv with h | h <;> omega
    · intro q hq
      show wr st.arr (psum (fun e => (ev e).length) p.1 + p.2) (pinAt ev p) _ = _
      by_cases hqp : q = p
      · subst hqp; rw [wr_same]
      · have hqd : q ∈ done := by
          rcases List.mem_append.1 hq with h | h
          · exact h
          · simp at h; exact absurd h hqp
        have hqo : q ∈ order := by rw [← hd]; simp [hqd]
        have hqm := mem_allPins.1 (ho.mem_iff.1 hqo)
        rw [wr_other]
        · exact h3 q hqd
        · intro heq
          by_cases he : q.1 = p.1
          · apply hqp
            rw [he] at heq
            exact Prod.ext he (by omega)
          · rcases psum_disj (fun e => (ev e).length) he with h | h <;> omega

theorem sortNets_spec {n : Nat} {deg nets : Nat → Nat} :
    ∀ v < n, readSeg (sortNets n (psum deg) deg nets) (psum deg v) (deg v) = sortIds (readSeg nets (psum deg v) (deg v)) := by
  intro v hv
  unfold sortNets
  have hl : ∀ (a : Nat → Nat) c, (sortIds (readSeg a (psum deg c) (deg c))).length = deg c := by
    intro a c; rw [(sortIds_perm _).length_eq, readSeg_length]
  apply foldl_local (fun a v => writeSeg a (psum deg v) (sortIds (readSeg a (psum deg v) (deg v))))
    (fun v a => readSeg a (psum deg v) (deg v) = readSeg nets (psum deg v) (deg v))
    (fun v a => readSeg a (psum deg v) (deg v) = sortIds (readSeg nets (psum deg v) (deg v)))
    (List.range n) nets List.nodup_range
  · intro a c _ hP
    have := readSeg_writeSeg_same (a := a) (s := psum deg c) (l := sortIds (readSeg a (psum deg c) (deg c)))
    rw [hl] at this
    rw [this, hP]
  · intro a c d _ _ hne hP
    rw [readSeg_writeSeg_disj]
    · exact hP
    · rw [hl]; rcases psum_disj deg hne with h | h <;> omega
  · intro a c d _ _ hne hP
    rw [readSeg_writeSeg_disj]
    · exact hP
    · rw [hl]; rcases psum_disj deg hne with h | h <;> omega
  · intros; rfl
  · exact List.mem_range.2 hv

/-! ### Duplicate removal -/

theorem dedupLoop_spec (s : Nat → Nat) (n : Nat) (hs : ∀ i j, i ≤ j → j < n → s i ≤ s j) :
    ∀ (fuel : Nat) (a : Nat → Nat) (i j : Nat), n - i ≤ fuel → 1 ≤ j → j ≤ i → i ≤ n →
    (∀ p, i ≤ p → p < n → a p = s p) → a (j - 1) = s (i - 1) →
    (readSeg a 0 j).Pairwise (· < ·) → (∀ x, x ∈ readSeg a 0 j ↔ x ∈ readSeg s 0 i) →
    (dedupLoop fuel a i j n).2 ≤ n ∧
    (readSeg (dedupLoop fuel a i j n).1 0 (dedupLoop fuel a i j n).2).Pairwise (· < ·) ∧
    ∀ x, x ∈ readSeg (dedupLoop fuel a i j n).1 0 (dedupLoop fuel a i j n).2 ↔ x ∈ readSeg s 0 n := by
  intro fuel
  have hsucc : ∀ (f : Nat → Nat) k, readSeg f 0 (k + 1) = readSeg f 0 k ++ [f k] := by
    intro f k; rw [readSeg_append]; simp [readSeg]
  induction fuel with
  | zero =>
    intro a i j h1 h2 h3 h4 h5 h6 h7 h8
    have : i = n := by omega
    subst this
    exact ⟨h3, h7, h8⟩
  | succ fuel ih =>
    intro a i j h1 h2 h3 h4 h5 h6 h7 h8
    unfold dedupLoop
    by_cases hi : i < n
    · rw [if_pos hi]
      have hai : a i = s i := h5 i (Nat.le_refl _) hi
      by_cases hc : a (j - 1) ≠ a i
      · rw [if_pos hc]
        have hcong : readSeg (wr (wr a i (a j)) j (a i)) 0 j = readSeg a 0 j := by
          apply readSeg_congr
          intro p hp
          rw [wr_other _ _ (by omega), wr_other _ _ (by omega)]
        apply ih
        · omega
        · omega
        · omega
        · omega
        · intro p hp1 hp2
          rw [wr_other _ _ (by omega), wr_other _ _ (by omega)]
          exact h5 p (by omega) hp2
        · rw [show j + 1 - 1 = j by omega, wr_same, show i + 1 - 1 = i by omega, hai]
        · rw [hsucc, hcong, wr_same, List.pairwise_append]
          refine ⟨h7, by simp, ?_⟩
          intro x hx y hy
          rw [List.mem_singleton] at hy
          subst hy
          have hx' := (h8 x).1 hx
          simp only [readSeg, List.mem_map, List.mem_range, Nat.zero_add] at hx'
          obtain ⟨p, hp, rfl⟩ := hx'
          have h9 : s p ≤ s (i - 1) := hs p (i - 1) (by omega) (by omega)
          have h10 : s (i - 1) ≤ s i := hs (i - 1) i (by omega) hi
          rw [h6] at hc
          omega
        · intro x
          rw [hsucc, hsucc, hcong, wr_same, List.mem_append, List.mem_append, h8 x, hai]
      · rw [if_neg hc]
        have hc : a (j - 1) = a i := by simpa using hc
        apply ih
        · omega
        · omega
        · omega
        · omega
        · intro p hp1 hp2; exact h5 p (by omega) hp2
        · rw [hc, hai, show i + 1 - 1 = i by omega]
        · exact h7
        · intro x
          rw [hsucc, List.mem_append, h8 x, List.mem_singleton]
          constructor
          · exact Or.inl
          · rintro (h | h)
            · exact h
            · rw [h, ← hai, ← hc, h6]
              simp only [readSeg, List.mem_map, List.mem_range, Nat.zero_add]
              exact ⟨i - 1, by omega, rfl⟩
    · rw [if_neg hi]
      have : i = n := by omega
      subst this
      exact ⟨h3, h7, h8⟩

theorem readSeg_getD_self (l : List Nat) : readSeg (fun i => l.getD i 0) 0 l.length = l := by
  apply List.ext_getElem
  · rw [readSeg_length]
  · intro i h1 h2
    simp [readSeg, List.getD, h2]

theorem dedupPins_eq (l : List Nat) : dedupPins l = uniq (sortIds l) := by
  unfold dedupPins
  simp only
  by_cases hn : (sortIds l).length = 0
  · have : sortIds l = [] := List.length_eq_zero_iff.1 hn
    rw [this]
    simp [dedupLoop, readSeg, uniq]
  · have hs := sortIds_sorted l
    have key := dedupLoop_spec (fun i => (sortIds l).getD i 0) (sortIds l).length
      (by
        intro i j hij hj
        simp only [List.getD, List.getElem?_eq_getElem (show i < (sortIds l).length by omega),
          List.getElem?_eq_getElem hj, Option.getD_some]
        rcases Nat.lt_or_ge i j with h | h
        · exact List.pairwise_iff_getElem.1 hs i j (by omega) hj h
        · have : i = j := by omega
          subst this; exact Nat.le_refl _)
      (sortIds l).length (fun i => (sortIds l).getD i 0) 1 1 (by omega) (by omega) (by omega) (by omega)
      (fun _ _ _ => rfl) rfl (by simp [readSeg]) (fun x => Iff.rfl)
    obtain ⟨k1, k2, k3⟩ := key
    have hres : readSeg (dedupLoop (sortIds l).length (fun i => (sortIds l).getD i 0) 1 1 (sortIds l).length).1 0
        (dedupLoop (sortIds l).length (fun i => (sortIds l).getD i 0) 1 1 (sortIds l).length).2 = uniq (sortIds l) := by
      apply sorted_ext k2 (uniq_sorted hs)
      intro x
      rw [k3 x, readSeg_getD_self, mem_uniq]
    split
    · exact hres
    · rename_i h
      rw [← hres]
      congr 1
      omega

end Factory
end Verif
