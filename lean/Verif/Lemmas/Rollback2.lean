import Verif.Lemmas.Rollback1
import Verif.Props.C10
import Mathlib.Algebra.BigOperators.Group.List.Basic
import Mathlib.Algebra.BigOperators.Group.Finset.Basic
/-!
# Gain recalculation over all hyperedges
-/
namespace Verif
open Metrics

theorem FMMove.apply_other {Φ : Assign} {m : FMMove} {v : Nat} (h : m.src ≠ none → m.node ≠ v) :
    m.apply Φ v = Φ v := by
  unfold FMMove.apply
  cases hs : m.src with
  | none => rfl
  | some b =>
    have : m.node ≠ v := h (by rw [hs]; simp)
    simp only [Assign.put]; rw [if_neg (fun hh => this hh.symm)]

theorem applyMoves_other {v : Nat} (ms : List FMMove) : ∀ {Φ : Assign},
    (∀ m ∈ ms, m.src ≠ none → m.node ≠ v) → applyMoves Φ ms v = Φ v := by
  induction ms with
  | nil => intro Φ _; rfl
  | cons m ms ih =>
    intro Φ h
    show applyMoves (m.apply Φ) ms v = Φ v
    rw [ih (fun m' hm => h m' (by simp [hm])), FMMove.apply_other (h m (by simp))]

theorem applyMoves_append (Φ : Assign) (a b : List FMMove) :
    applyMoves Φ (a ++ b) = applyMoves (applyMoves Φ a) b := by
  unfold applyMoves; rw [List.foldl_append]

theorem applyMoves_take_succ {Φ : Assign} {ms : List FMMove} {i : Nat} {m : FMMove} (h : ms[i]? = some m) :
    applyMoves Φ (ms.take (i + 1)) = m.apply (applyMoves Φ (ms.take i)) := by
  rw [List.take_add_one, h, applyMoves_append]; rfl

/-- a node with a valid move ends in the target block -/
theorem applyMoves_moved {H : HG} {k : Nat} {Φ : Assign} {ms : List FMMove} (hv : ValidMoves H k Φ ms)
    {i : Nat} {m : FMMove} (hi : ms[i]? = some m) (hs : m.src ≠ none) :
    applyMoves Φ ms m.node = some m.dst := by
  have hlt : i < ms.length := (List.getElem?_eq_some_iff.1 hi).1
  have hsplit : ms = ms.take i ++ m :: ms.drop (i + 1) := by
    have h2 : ms[i] = m := (List.getElem?_eq_some_iff.1 hi).2
    rw [← h2, ← List.drop_eq_getElem_cons hlt, List.take_append_drop]
  rw [hsplit, applyMoves_append]
  show applyMoves (m.apply _) (ms.drop (i + 1)) m.node = _
  rw [applyMoves_other]
  · unfold FMMove.apply
    cases hm : m.src with
    | none => exact absurd hm hs
    | some b => simp [Assign.put]
  · intro m' hm' hs' hn
    obtain ⟨j, hj⟩ := List.getElem?_of_mem hm'
    rw [List.getElem?_drop] at hj
    have := hv.once (i + 1 + j) i m' m hj hi hs' hs hn
    omega

namespace Rollback

section
variable {H : HG} {k : Nat} {T : Tracker} {Φ part : Assign} {o : Obj}

theorem round_of (hT : T.OK) (hv : ValidMoves H k Φ T.order)
    (hall : ∀ v ∈ H.nodes, ∃ b, b < k ∧ Φ v = some b) (hp : part = applyMoves Φ T.order) :
    Round H k T part := by
  refine ⟨?_, ?_, ?_, ?_, ?_⟩
  · intro v id s d hm
    obtain ⟨i, m, h1, h2, h3, h4, rfl⟩ := hT.moveOfNode_iff.1 hm
    have hi : i < T.order.length := (List.getElem?_eq_some_iff.1 h1).1
    have := hT.first_pos
    have := hT.bound
    unfold Tracker.running at this
    omega
  · intro v w id s d s' d' hm hm'
    obtain ⟨i, m, h1, h2, h3, h4, h5⟩ := hT.moveOfNode_iff.1 hm
    obtain ⟨i', m', h1', h2', h3', h4', h5'⟩ := hT.moveOfNode_iff.1 hm'
    have : i = i' := by omega
    subst this
    rw [h1] at h1'; cases h1'
    rw [← h2, ← h2']
  · intro v id s d hm
    obtain ⟨i, m, h1, h2, h3, h4, h5⟩ := hT.moveOfNode_iff.1 hm
    obtain ⟨_, _, l1, l2, l3⟩ := hv.legal m (List.mem_of_getElem? h1) s h3
    subst h4
    exact ⟨l3, l1, l2⟩
  · intro v id s d hm
    obtain ⟨i, m, h1, h2, h3, h4, h5⟩ := hT.moveOfNode_iff.1 hm
    rw [hp, ← h2, applyMoves_moved hv h1 (by rw [h3]; simp), h4]
  · intro v hvn
    rw [hp]
    by_cases hex : ∃ m ∈ T.order, m.src ≠ none ∧ m.node = v
    · obtain ⟨m, hm, hs, rfl⟩ := hex
      obtain ⟨i, hi⟩ := List.getElem?_of_mem hm
      rw [applyMoves_moved hv hi hs]
      cases hms : m.src with
      | none => exact absurd hms hs
      | some b => exact ⟨m.dst, (hv.legal m hm b hms).2.2.2.1, rfl⟩
    · rw [applyMoves_other]
      · exact hall v hvn
      · intro m hm hs hn; exact hex ⟨m, hm, hs, hn⟩

theorem posAt_take (hT : T.OK) (hv : ValidMoves H k Φ T.order)
    (hall : ∀ v ∈ H.nodes, ∃ b, b < k ∧ Φ v = some b) (hp : part = applyMoves Φ T.order) (i : Nat) :
    posAt T.moveOfNode part (T.first + i) = applyMoves Φ (T.order.take i) := by
  have hR := round_of hT hv hall hp
  induction i with
  | zero =>
    funext v
    unfold posAt
    rw [List.take_zero]
    show _ = Φ v
    cases hm : T.moveOfNode v with
    | none =>
      simp only
      rw [hp, applyMoves_other]
      intro m hm' hs hn
      obtain ⟨j, hj⟩ := List.getElem?_of_mem hm'
      cases hms : m.src with
      | none => exact hs hms
      | some b =>
        have := hT.moveOfNode_iff.2 ⟨j, m, hj, hn, hms, rfl, rfl⟩
        rw [hm] at this; cases this
    | some t =>
      obtain ⟨id, s, d⟩ := t
      obtain ⟨j, m, h1, h2, h3, h4, h5⟩ := hT.moveOfNode_iff.1 hm
      simp only
      rw [if_neg (by omega), ← h2]
      exact (hv.legal m (List.mem_of_getElem? h1) s h3).2.1.symm
  | succ i ih =>
    cases hm : T.order[i]? with
    | none =>
      rw [List.take_add_one, hm]
      simp only [Option.toList_none, List.append_nil]
      rw [← ih]
      have hlen : T.order.length ≤ i := by simpa using hm
      funext v
      unfold posAt
      cases hmv : T.moveOfNode v with
      | none => rfl
      | some t =>
        obtain ⟨id, s, d⟩ := t
        obtain ⟨j, m, h1, _, _, _, h5⟩ := hT.moveOfNode_iff.1 hmv
        have hj : j < T.order.length := (List.getElem?_eq_some_iff.1 h1).1
        simp only
        rw [if_pos (by omega), if_pos (by omega)]
    | some m =>
      rw [applyMoves_take_succ hm, ← ih]
      cases hs : m.src with
      | none =>
        have : m.apply (posAt T.moveOfNode part (T.first + i)) = posAt T.moveOfNode part (T.first + i) := by
          unfold FMMove.apply; rw [hs]
        rw [this]
        funext v
        unfold posAt
        cases hmv : T.moveOfNode v with
        | none => rfl
        | some t =>
          obtain ⟨id, s, d⟩ := t
          obtain ⟨j, m', h1, _, h3, _, h5⟩ := hT.moveOfNode_iff.1 hmv
          have : j ≠ i := by
            rintro rfl; rw [hm] at h1; cases h1; rw [hs] at h3; cases h3
          simp only
          by_cases h : id < T.first + i
          · rw [if_pos h, if_pos (by omega)]
          · rw [if_neg h, if_neg (by omega)]
      | some b =>
        have hmv : T.moveOfNode m.node = some (T.first + i, b, m.dst) :=
          hT.moveOfNode_iff.2 ⟨i, m, hm, rfl, hs, rfl, rfl⟩
        have := posAt_succ hR hmv
        rw [show T.first + (i + 1) = T.first + i + 1 by omega, this]
        unfold FMMove.apply; rw [hs]

/-- contribution of pin `v` to the gain of the `i`-th move -/
def pinGain (H : HG) (o : Obj) (pc : Nat → Nat → Nat) (T : Tracker) (e : Nat) (r : RTable) (i v : Nat) : Int :=
  match T.moveOfNode v with
  | some (id, src, dst) => if i = id - T.first then edgeGain H o pc e id src dst r else 0
  | none => 0

theorem distribute_eq (pc : Nat → Nat → Nat) (e : Nat) (r : RTable) (i : Nat) (l : List Nat) :
    ∀ gain : Nat → Int, distribute H o pc T e r gain l i =
      gain i + (l.map (pinGain H o pc T e r i)).sum := by
  induction l with
  | nil => intro g; simp [distribute]
  | cons v l ih =>
    intro g
    rw [List.map_cons, List.sum_cons]
    have e1 : distribute H o pc T e r g (v :: l) = distribute H o pc T e r (fun i =>
        g i + pinGain H o pc T e r i v) l := by
      unfold distribute
      rw [List.foldl_cons]
      congr 1
      funext j
      unfold pinGain
      cases hm : T.moveOfNode v with
      | none => simp
      | some t =>
        obtain ⟨id, src, dst⟩ := t
        simp only
        split_ifs <;> ring
    rw [e1, ih]; ring

theorem sum_single {l : List Nat} (hn : l.Nodup) {f : Nat → Int} {v : Nat} (h : ∀ u ∈ l, u ≠ v → f u = 0) :
    (l.map f).sum = if v ∈ l then f v else 0 := by
  induction l with
  | nil => simp
  | cons a l ih =>
    rw [List.nodup_cons] at hn
    rw [List.map_cons, List.sum_cons, ih hn.2 (fun u hu => h u (by simp [hu]))]
    by_cases ha : a = v
    · subst ha; simp [hn.1]
    · rw [h a (by simp) ha]
      simp [fun hh => ha (Eq.symm hh), show (v = a) = False from eq_false (fun hh => ha hh.symm)]

/-- what one hyperedge adds to the gain of a valid move -/
theorem distribute_valid (hw : H.WF) (hT : T.OK) (hv : ValidMoves H k Φ T.order)
    (hall : ∀ v ∈ H.nodes, ∃ b, b < k ∧ Φ v = some b) (hp : part = applyMoves Φ T.order)
    {e : Nat} (he : e ∈ H.edges) (hwt : 0 ≤ H.ew e)
    {pc : Nat → Nat → Nat} (hpc : ∀ b, b < k → pc e b = H.pinsIn part e b)
    {i : Nat} {m : FMMove} (hi : T.order[i]? = some m) (gain : Nat → Int) :
    distribute H o pc T e (aux o part T H e) gain (H.pins e) i = gain i +
      (H.term (applyMoves Φ (T.order.take i)) e o - H.term (applyMoves Φ (T.order.take (i + 1))) e o) := by
  have hR := round_of hT hv hall hp
  rw [distribute_eq]
  congr 1
  cases hs : m.src with
  | none =>
    rw [applyMoves_take_succ hi]
    have : m.apply (applyMoves Φ (T.order.take i)) = applyMoves Φ (T.order.take i) := by
      unfold FMMove.apply; rw [hs]
    rw [this, sub_self]
    apply List.sum_eq_zero
    intro x hx
    obtain ⟨v, _, rfl⟩ := List.mem_map.1 hx
    unfold pinGain
    cases hmv : T.moveOfNode v with
    | none => rfl
    | some t =>
      obtain ⟨id, s, d⟩ := t
      obtain ⟨j, m', h1, _, h3, _, h5⟩ := hT.moveOfNode_iff.1 hmv
      have : j ≠ i := by
        rintro rfl; rw [hi] at h1; cases h1; rw [hs] at h3; cases h3
      simp only
      rw [if_neg (by omega)]
  | some b =>
    have hmv : T.moveOfNode m.node = some (T.first + i, b, m.dst) :=
      hT.moveOfNode_iff.2 ⟨i, m, hi, rfl, hs, rfl, rfl⟩
    rw [sum_single (hw.pins_nodup e he) (v := m.node)]
    · by_cases hmem : m.node ∈ H.pins e
      · rw [if_pos hmem]
        unfold pinGain
        rw [hmv]
        simp only
        rw [if_pos (by omega), edgeGain_eq hw hR he hwt hpc hmem hmv, posAt_take hT hv hall hp,
          show T.first + i + 1 = T.first + (i + 1) by omega, posAt_take hT hv hall hp]
      · rw [if_neg hmem, applyMoves_take_succ hi, HG.term_congr (Ψ := m.apply _), sub_self]
        intro u hu
        rw [FMMove.apply_other]
        intro _ hn; exact hmem (hn ▸ hu)
    · intro u _ hne
      unfold pinGain
      cases hmu : T.moveOfNode u with
      | none => rfl
      | some t =>
        obtain ⟨id, s, d⟩ := t
        obtain ⟨j, m', h1, h2, h3, _, h5⟩ := hT.moveOfNode_iff.1 hmu
        simp only
        rw [if_neg]
        intro hh
        have : i = j := by omega
        subst this
        rw [hi] at h1; cases h1
        exact hne h2.symm

/-! ### The thread local table is reset -/

theorem upd_fresh_eq {r : RTable} {b c : Nat} : r.upd b (fun _ => RData.fresh) c = if c = b then RData.fresh else r c := rfl

theorem aux_untouched (hR : Round H k T part) {b : Nat} (l : List Nat) : ∀ r : RTable,
    (∀ v ∈ l, (∀ id s d, T.moveOfNode v = some (id, s, d) → s ≠ b ∧ d ≠ b) ∧
      (T.moveOfNode v = none → part v ≠ some b)) →
    auxData o part T r l b = r b := by
  induction l with
  | nil => intro r _; rfl
  | cons v l ih =>
    intro r h
    rw [auxData_cons, ih _ (fun u hu => h u (by simp [hu]))]
    have hv := h v (by simp)
    cases hm : T.moveOfNode v with
    | none =>
      simp only
      cases hp : part v with
      | none => rfl
      | some c =>
        have : c ≠ b := fun hh => hv.2 hm (by rw [hp, hh])
        cases o <;> simp [updateNonMoved, RTable.upd, this.symm]
    | some t =>
      obtain ⟨id, s, d⟩ := t
      obtain ⟨h1, h2⟩ := hv.1 id s d hm
      cases o <;> simp [updateMove, RTable.upd, h1.symm, h2.symm]

theorem reset_range {r : RTable} {b : Nat} (n : Nat) :
    (List.range n).foldl (fun r b => r.upd b (fun _ => RData.fresh)) r b =
      if b < n then RData.fresh else r b := by
  induction n with
  | zero => simp
  | succ n ih =>
    rw [List.range_succ, List.foldl_append]
    simp only [List.foldl_cons, List.foldl_nil, RTable.upd, ih]
    split_ifs <;> first | rfl | omega

theorem reset_pins_fresh {b : Nat} (l : List Nat) : ∀ r : RTable, r b = RData.fresh →
    l.foldl (fun r v => match T.moveOfNode v with
      | some (_, src, dst) => (r.upd src (fun _ => RData.fresh)).upd dst (fun _ => RData.fresh)
      | none => match part v with
        | some b => r.upd b (fun _ => RData.fresh)
        | none => r) r b = RData.fresh := by
  induction l with
  | nil => intro r h; exact h
  | cons v l ih =>
    intro r h
    rw [List.foldl_cons]
    apply ih
    cases hm : T.moveOfNode v with
    | none =>
      simp only
      cases hp : part v with
      | none => exact h
      | some c => simp only [RTable.upd]; split_ifs <;> first | rfl | exact h
    | some t =>
      obtain ⟨id, s, d⟩ := t
      simp only [RTable.upd]; split_ifs <;> first | rfl | exact h

theorem reset_pins_touched {b : Nat} (l : List Nat) : ∀ r : RTable,
    (∃ v ∈ l, (∃ id s d, T.moveOfNode v = some (id, s, d) ∧ (s = b ∨ d = b)) ∨
      (T.moveOfNode v = none ∧ part v = some b)) →
    l.foldl (fun r v => match T.moveOfNode v with
      | some (_, src, dst) => (r.upd src (fun _ => RData.fresh)).upd dst (fun _ => RData.fresh)
      | none => match part v with
        | some b => r.upd b (fun _ => RData.fresh)
        | none => r) r b = RData.fresh := by
  induction l with
  | nil => rintro r ⟨v, hv, _⟩; simp at hv
  | cons v l ih =>
    rintro r ⟨u, hu, h⟩
    rw [List.foldl_cons]
    rcases List.mem_cons.1 hu with rfl | hu
    · apply reset_pins_fresh
      rcases h with ⟨id, s, d, hm, h⟩ | ⟨hm, hp⟩
      · rw [hm]; simp only [RTable.upd]
        rcases h with rfl | rfl
        · simp
        · simp
      · rw [hm]; simp only [hp, RTable.upd, if_true]
    · exact ih _ ⟨u, hu, h⟩

theorem resetTable_fresh (hw : H.WF) (hR : Round H k T part) {e : Nat} (he : e ∈ H.edges) :
    resetTable H k part T e (aux o part T H e) = fun _ => RData.fresh := by
  funext b
  unfold resetTable
  by_cases ht : ∃ v ∈ H.pins e, (∃ id s d, T.moveOfNode v = some (id, s, d) ∧ (s = b ∨ d = b)) ∨
      (T.moveOfNode v = none ∧ part v = some b)
  · have hb : b < k := by
      obtain ⟨v, hv, ⟨id, s, d, hm, h⟩ | ⟨hm, hp⟩⟩ := ht
      · obtain ⟨_, h1, h2⟩ := hR.ne v id s d hm
        rcases h with rfl | rfl <;> assumption
      · obtain ⟨c, hc, hc'⟩ := hR.assigned v (hw.pins_mem e he v hv)
        rw [hp] at hc'; cases hc'; exact hc
    split_ifs
    · rw [reset_range, if_pos hb]
    · exact reset_pins_touched _ _ ht
  · have hu : aux o part T H e b = RData.fresh := by
      refine aux_untouched hR (H.pins e) (fun _ => RData.fresh) (fun v hv => ⟨fun id s d hm => ?_, fun hm hp => ?_⟩)
      · constructor
        · rintro rfl; exact ht ⟨v, hv, Or.inl ⟨id, s, d, hm, Or.inl rfl⟩⟩
        · rintro rfl; exact ht ⟨v, hv, Or.inl ⟨id, s, d, hm, Or.inr rfl⟩⟩
      · exact ht ⟨v, hv, Or.inr ⟨hm, hp⟩⟩
    split_ifs
    · rw [reset_range, hu]; split_ifs <;> rfl
    · exact reset_pins_fresh _ _ hu

theorem recalc_loop (hw : H.WF) (hT : T.OK) (hv : ValidMoves H k Φ T.order)
    (hall : ∀ v ∈ H.nodes, ∃ b, b < k ∧ Φ v = some b) (hp : part = applyMoves Φ T.order)
    (hwt : ∀ e ∈ H.edges, 0 ≤ H.ew e)
    {pc : Nat → Nat → Nat} (hpc : ∀ e ∈ H.edges, ∀ b, b < k → pc e b = H.pinsIn part e b)
    {i : Nat} {m : FMMove} (hi : T.order[i]? = some m) (sched : List (Nat × Nat)) :
    (∀ te ∈ sched, te.2 ∈ H.edges) → ∀ (r : Nat → RTable) (gain : Nat → Int),
    (∀ t, r t = fun _ => RData.fresh) →
    (∀ t, (sched.foldl (recalcStep H k o pc part T) (r, gain)).1 t = fun _ => RData.fresh) ∧
    (sched.foldl (recalcStep H k o pc part T) (r, gain)).2 i = gain i +
      ((sched.map Prod.snd).map (fun e => H.term (applyMoves Φ (T.order.take i)) e o -
        H.term (applyMoves Φ (T.order.take (i + 1))) e o)).sum := by
  have hR := round_of hT hv hall hp
  induction sched with
  | nil => intro _ r gain hr; exact ⟨hr, by simp⟩
  | cons te sched ih =>
    intro hmem r gain hr
    have he := hmem te (by simp)
    rw [List.foldl_cons]
    have e1 : recalcStep H k o pc part T (r, gain) te =
        (fun t => if t = te.1 then (fun _ => RData.fresh) else r t,
          distribute H o pc T te.2 (aux o part T H te.2) gain (H.pins te.2)) := by
      unfold recalcStep recalcEdge
      simp only
      rw [hr te.1, show auxData o part T (fun _ => RData.fresh) (H.pins te.2) = aux o part T H te.2 from rfl,
        resetTable_fresh hw hR he]
    rw [e1]
    obtain ⟨h1, h2⟩ := ih (fun x hx => hmem x (by simp [hx]))
      (fun t => if t = te.1 then (fun _ => RData.fresh) else r t)
      (distribute H o pc T te.2 (aux o part T H te.2) gain (H.pins te.2)) (by
        intro t; split_ifs
        · rfl
        · exact hr t)
    refine ⟨h1, ?_⟩
    rw [h2, distribute_valid hw hT hv hall hp he (hwt _ he) (hpc _ he) hi]
    simp only [List.map_cons, List.sum_cons]
    ring

theorem objective_terms (Ψ : Assign) : H.objective Ψ o = (H.edges.map (fun e => H.term Ψ e o)).sum := by
  cases o <;> rfl

theorem sum_sub_map (l : List Nat) (f g : Nat → Int) :
    (l.map (fun e => f e - g e)).sum = (l.map f).sum - (l.map g).sum := by
  induction l with
  | nil => simp
  | cons a l ih => simp only [List.map_cons, List.sum_cons, ih]; ring

theorem sum_subset {l l' : List Nat} (hl : l.Nodup) (hl' : l'.Nodup) (hs : ∀ x ∈ l, x ∈ l') {f : Nat → Int}
    (hz : ∀ x ∈ l', x ∉ l → f x = 0) : (l.map f).sum = (l'.map f).sum := by
  have h1 : (l.map f).sum = ∑ x ∈ l.toFinset, f x := by
    rw [List.sum_toFinset _ hl]
  have h2 : (l'.map f).sum = ∑ x ∈ l'.toFinset, f x := by
    rw [List.sum_toFinset _ hl']
  rw [h1, h2]
  apply Finset.sum_subset
  · intro x hx; rw [List.mem_toFinset] at hx ⊢; exact hs x hx
  · intro x hx hn; rw [List.mem_toFinset] at hx hn; exact hz x hx hn

/-- **Recomputed gains.** -/
theorem recalculateGains_eq (hw : H.WF) (hT : T.OK) (hv : ValidMoves H k Φ T.order)
    (hall : ∀ v ∈ H.nodes, ∃ b, b < k ∧ Φ v = some b) (hp : part = applyMoves Φ T.order)
    (hwt : ∀ e ∈ H.edges, 0 ≤ H.ew e)
    {pc : Nat → Nat → Nat} (hpc : ∀ e ∈ H.edges, ∀ b, b < k → pc e b = H.pinsIn part e b)
    {sched : List (Nat × Nat)} (hnd : (sched.map Prod.snd).Nodup)
    (hsub : ∀ te ∈ sched, te.2 ∈ H.edges)
    (hcov : ∀ e ∈ H.edges, (∃ m ∈ T.order, m.src ≠ none ∧ m.node ∈ H.pins e) → e ∈ sched.map Prod.snd)
    {i : Nat} {m : FMMove} (hi : T.order[i]? = some m) :
    (recalculateGains H k o pc part T sched (fun _ _ => RData.fresh)).2 i =
      H.objective (applyMoves Φ (T.order.take i)) o - H.objective (applyMoves Φ (T.order.take (i + 1))) o := by
  unfold recalculateGains
  rw [(recalc_loop hw hT hv hall hp hwt hpc hi sched hsub _ _ (fun _ => rfl)).2, zero_add,
    objective_terms, objective_terms, ← sum_sub_map]
  refine sum_subset hnd hw.edges_nodup ?_ ?_
  · intro x hx; obtain ⟨te, h1, rfl⟩ := List.mem_map.1 hx; exact hsub te h1
  · intro e he hn
    rw [applyMoves_take_succ hi, HG.term_congr (Ψ := m.apply _), sub_self]
    intro u hu
    rw [FMMove.apply_other]
    intro hs hn'
    exact hn (hcov e he ⟨m, List.mem_of_getElem? hi, hs, hn' ▸ hu⟩)

/-- the thread local tables are clean again after the recomputation -/
theorem recalculateGains_tables (hw : H.WF) (hT : T.OK) (hv : ValidMoves H k Φ T.order)
    (hall : ∀ v ∈ H.nodes, ∃ b, b < k ∧ Φ v = some b) (hp : part = applyMoves Φ T.order)
    {pc : Nat → Nat → Nat} {sched : List (Nat × Nat)} (hsub : ∀ te ∈ sched, te.2 ∈ H.edges) (t : Nat) :
    (recalculateGains H k o pc part T sched (fun _ _ => RData.fresh)).1 t = fun _ => RData.fresh := by
  have hR := round_of hT hv hall hp
  unfold recalculateGains
  suffices h : ∀ (r : Nat → RTable) (gain : Nat → Int), (∀ t, r t = fun _ => RData.fresh) →
      (sched.foldl (recalcStep H k o pc part T) (r, gain)).1 t = fun _ => RData.fresh from
    h _ _ (fun _ => rfl)
  induction sched with
  | nil => intro r gain hr; exact hr t
  | cons te sched ih =>
    intro r gain hr
    rw [List.foldl_cons]
    apply ih (fun x hx => hsub x (by simp [hx]))
    intro t
    have he := hsub te (by simp)
    simp only [recalcStep, recalcEdge]
    rw [hr te.1, show auxData o part T (fun _ => RData.fresh) (H.pins te.2) = aux o part T H te.2 from rfl,
        resetTable_fresh hw hR he]
    split_ifs
    · rfl
    · exact hr t

end
end Rollback
end Verif
