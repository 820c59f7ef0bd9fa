import Verif.Model.Rollback
import Verif.Lemmas.Gain
import Mathlib.Tactic.Ring
import Mathlib.Tactic.Linarith
/-!
# Gain recalculation of one hyperedge
-/
namespace Verif
open Metrics

/-- consistency of the move tracker -/
structure Tracker.OK (T : Tracker) : Prop where
  first_pos : 1 ≤ T.first
  bound : T.running ≤ maxID
  slot : ∀ (i : Nat) (m : FMMove), T.order[i]? = some m → m.src ≠ none → T.moveOf m.node = T.first + i
  node : ∀ v, T.first ≤ T.moveOf v → T.moveOf v < T.running →
    ∃ m : FMMove, T.order[T.moveOf v - T.first]? = some m ∧ m.node = v

theorem Tracker.OK.moveOfNode_iff {T : Tracker} (h : T.OK) {v id src dst : Nat} :
    T.moveOfNode v = some (id, src, dst) ↔ ∃ (i : Nat) (m : FMMove), T.order[i]? = some m ∧ m.node = v ∧
      m.src = some src ∧ m.dst = dst ∧ id = T.first + i := by
  constructor
  · intro hm
    unfold moveOfNode at hm
    simp only at hm
    split at hm
    · rename_i hr
      obtain ⟨m, h1, h2⟩ := h.node v hr.1 hr.2
      rw [h1] at hm
      simp only at hm
      split at hm
      · rename_i b hb
        simp only [Option.some.injEq, Prod.mk.injEq] at hm
        obtain ⟨rfl, rfl, rfl⟩ := hm
        exact ⟨_, m, h1, h2, hb, rfl, by omega⟩
      · cases hm
    · cases hm
  · rintro ⟨i, m, h1, rfl, h3, rfl, rfl⟩
    have hs := h.slot i m h1 (by rw [h3]; simp)
    have hi : i < T.order.length := (List.getElem?_eq_some_iff.1 h1).1
    unfold moveOfNode running
    simp only [hs]
    have e : T.first + i - T.first = i := by omega
    rw [if_pos ⟨by omega, by omega⟩, e, h1]
    simp only [h3]

namespace Rollback

/-- the assignment after the moves with id smaller than `x` -/
def posAt (mv : Nat → Option (Nat × Nat × Nat)) (part : Assign) (x : Nat) : Assign := fun v =>
  match mv v with
  | some (id, s, d) => if id < x then some d else some s
  | none => part v

section aux
variable {o : Obj} {part : Assign} {T : Tracker}

def usesKm1 : Obj → Prop | .cut => False | _ => True
def usesCut : Obj → Prop | .km1 => False | _ => True

theorem upd_same (r : RTable) (b : Nat) (f : RData → RData) : r.upd b f b = f (r b) := by
  simp [RTable.upd]

theorem auxData_cons (r : RTable) (v : Nat) (l : List Nat) :
    auxData o part T r (v :: l) = auxData o part T (match T.moveOfNode v with
    | some (id, src, dst) => updateMove id src dst r o
    | none => match part v with
      | some b => updateNonMoved b r o
      | none => r) l := rfl

theorem aux_firstIn (ho : usesKm1 o) (b x : Nat) (l : List Nat) : ∀ r : RTable,
    x < (auxData o part T r l b).firstIn ↔ x < (r b).firstIn ∧
      ∀ v ∈ l, ∀ id s, T.moveOfNode v = some (id, s, b) → x < id := by
  induction l with
  | nil => intro r; simp [auxData]
  | cons v l ih =>
    intro r
    rw [auxData_cons, ih]
    simp only [List.mem_cons, forall_eq_or_imp]
    rw [← and_assoc]
    apply and_congr_left'
    cases hm : T.moveOfNode v with
    | none =>
      simp only [reduceCtorEq, false_implies, implies_true, and_true]
      cases part v with
      | none => rfl
      | some c =>
        cases o <;> simp only [updateNonMoved, RTable.upd]
        · split <;> rfl
        · split <;> rfl
    | some t =>
      obtain ⟨id, s, d⟩ := t
      simp only [Option.some.injEq, Prod.mk.injEq]
      have : (x < (updateMove id s d r o b).firstIn) ↔ x < (if b = d then min (r b).firstIn id else (r b).firstIn) := by
        cases o
        · exact absurd ho (by simp [usesKm1])
        · simp only [updateMove, RTable.upd]; split_ifs <;> rfl
        · simp only [updateMove, RTable.upd]; split_ifs <;> rfl
      rw [this]
      split_ifs with hb
      · subst hb
        rw [Nat.lt_min]
        apply and_congr_right'
        exact ⟨fun h a c ⟨h1, _⟩ => h1 ▸ h, fun h => h id s ⟨rfl, rfl, rfl⟩⟩
      · exact ⟨fun h => ⟨h, fun a c ⟨_, _, h3⟩ => absurd h3.symm hb⟩, fun h => h.1⟩

theorem aux_lastOut (ho : usesKm1 o) (b x : Nat) (l : List Nat) : ∀ r : RTable,
    (auxData o part T r l b).lastOut < x ↔ (r b).lastOut < x ∧
      ∀ v ∈ l, ∀ id d, T.moveOfNode v = some (id, b, d) → id < x := by
  induction l with
  | nil => intro r; simp [auxData]
  | cons v l ih =>
    intro r
    rw [auxData_cons, ih]
    simp only [List.mem_cons, forall_eq_or_imp]
    rw [← and_assoc]
    apply and_congr_left'
    cases hm : T.moveOfNode v with
    | none =>
      simp only [reduceCtorEq, false_implies, implies_true, and_true]
      cases part v with
      | none => rfl
      | some c =>
        cases o <;> simp only [updateNonMoved, RTable.upd]
        · split <;> rfl
        · split <;> rfl
    | some t =>
      obtain ⟨id, s, d⟩ := t
      simp only [Option.some.injEq, Prod.mk.injEq]
      have : ((updateMove id s d r o b).lastOut < x) ↔ (if b = s then max (r b).lastOut id else (r b).lastOut) < x := by
        cases o
        · exact absurd ho (by simp [usesKm1])
        · simp only [updateMove, RTable.upd]; split_ifs <;> rfl
        · simp only [updateMove, RTable.upd]; split_ifs <;> rfl
      rw [this]
      split_ifs with hb
      · subst hb
        rw [Nat.max_lt]
        apply and_congr_right'
        exact ⟨fun h a c ⟨h1, _⟩ => h1 ▸ h, fun h => h id d ⟨rfl, rfl, rfl⟩⟩
      · exact ⟨fun h => ⟨h, fun a c ⟨_, h2, _⟩ => absurd h2.symm hb⟩, fun h => h.1⟩

theorem aux_remaining (ho : usesKm1 o) (b : Nat) (l : List Nat) : ∀ r : RTable,
    (auxData o part T r l b).remaining = 0 ↔ (r b).remaining = 0 ∧
      ∀ v ∈ l, T.moveOfNode v = none → part v ≠ some b := by
  induction l with
  | nil => intro r; simp [auxData]
  | cons v l ih =>
    intro r
    rw [auxData_cons, ih]
    simp only [List.mem_cons, forall_eq_or_imp]
    rw [← and_assoc]
    apply and_congr_left'
    cases hm : T.moveOfNode v with
    | none =>
      simp only [true_implies]
      cases hp : part v with
      | none => simp
      | some c =>
        have : (updateNonMoved c r o b).remaining = (if b = c then (r b).remaining + 1 else (r b).remaining) := by
          cases o
          · exact absurd ho (by simp [usesKm1])
          · simp only [updateNonMoved, RTable.upd]; split_ifs <;> rfl
          · simp only [updateNonMoved, RTable.upd]; split_ifs <;> rfl
        simp only [ne_eq, Option.some.injEq]
        rw [this]
        split_ifs with hb
        · subst hb; simp
        · exact ⟨fun h => ⟨h, fun h' => hb h'.symm⟩, fun h => h.1⟩
    | some t =>
      obtain ⟨id, s, d⟩ := t
      simp only [reduceCtorEq, false_implies, and_true]
      cases o <;> simp only [updateMove, RTable.upd] <;> split_ifs <;> rfl

theorem aux_firstOut (ho : usesCut o) (b x : Nat) (l : List Nat) : ∀ r : RTable,
    x < (auxData o part T r l b).firstOut ↔ x < (r b).firstOut ∧
      ∀ v ∈ l, ∀ id d, T.moveOfNode v = some (id, b, d) → x < id := by
  induction l with
  | nil => intro r; simp [auxData]
  | cons v l ih =>
    intro r
    rw [auxData_cons, ih]
    simp only [List.mem_cons, forall_eq_or_imp]
    rw [← and_assoc]
    apply and_congr_left'
    cases hm : T.moveOfNode v with
    | none =>
      simp only [reduceCtorEq, false_implies, implies_true, and_true]
      cases part v with
      | none => rfl
      | some c =>
        cases o <;> simp only [updateNonMoved, RTable.upd]
        · split <;> rfl
        · split <;> rfl
    | some t =>
      obtain ⟨id, s, d⟩ := t
      simp only [Option.some.injEq, Prod.mk.injEq]
      have : (x < (updateMove id s d r o b).firstOut) ↔ x < (if b = s then min (r b).firstOut id else (r b).firstOut) := by
        cases o
        · simp only [updateMove, RTable.upd]; split_ifs <;> rfl
        · exact absurd ho (by simp [usesCut])
        · simp only [updateMove, RTable.upd]; split_ifs <;> rfl
      rw [this]
      split_ifs with hb
      · subst hb
        rw [Nat.lt_min]
        apply and_congr_right'
        exact ⟨fun h a c ⟨h1, _⟩ => h1 ▸ h, fun h => h id d ⟨rfl, rfl, rfl⟩⟩
      · exact ⟨fun h => ⟨h, fun a c ⟨_, h2, _⟩ => absurd h2.symm hb⟩, fun h => h.1⟩

theorem aux_lastIn (ho : usesCut o) (b x : Nat) (l : List Nat) : ∀ r : RTable,
    (auxData o part T r l b).lastIn < x ↔ (r b).lastIn < x ∧
      ∀ v ∈ l, ∀ id s, T.moveOfNode v = some (id, s, b) → id < x := by
  induction l with
  | nil => intro r; simp [auxData]
  | cons v l ih =>
    intro r
    rw [auxData_cons, ih]
    simp only [List.mem_cons, forall_eq_or_imp]
    rw [← and_assoc]
    apply and_congr_left'
    cases hm : T.moveOfNode v with
    | none =>
      simp only [reduceCtorEq, false_implies, implies_true, and_true]
      cases part v with
      | none => rfl
      | some c =>
        cases o <;> simp only [updateNonMoved, RTable.upd]
        · split <;> rfl
        · split <;> rfl
    | some t =>
      obtain ⟨id, s, d⟩ := t
      simp only [Option.some.injEq, Prod.mk.injEq]
      have : ((updateMove id s d r o b).lastIn < x) ↔ (if b = d then max (r b).lastIn id else (r b).lastIn) < x := by
        cases o
        · simp only [updateMove, RTable.upd]; split_ifs <;> rfl
        · exact absurd ho (by simp [usesCut])
        · simp only [updateMove, RTable.upd]; split_ifs <;> rfl
      rw [this]
      split_ifs with hb
      · subst hb
        rw [Nat.max_lt]
        apply and_congr_right'
        exact ⟨fun h a c ⟨h1, _⟩ => h1 ▸ h, fun h => h id s ⟨rfl, rfl, rfl⟩⟩
      · exact ⟨fun h => ⟨h, fun a c ⟨_, _, h3⟩ => absurd h3.symm hb⟩, fun h => h.1⟩

/-- the pin is moved out of block `b` -/
def leaves (T : Tracker) (b v : Nat) : Bool :=
  match T.moveOfNode v with | some (_, s, _) => s == b | none => false

theorem aux_movedOut (ho : usesCut o) (b : Nat) (l : List Nat) : ∀ r : RTable,
    (auxData o part T r l b).movedOut = (r b).movedOut + l.countP (leaves T b) := by
  induction l with
  | nil => intro r; simp [auxData]
  | cons v l ih =>
    intro r
    rw [auxData_cons, ih, List.countP_cons]
    cases hm : T.moveOfNode v with
    | none =>
      have : leaves T b v = false := by unfold leaves; rw [hm]
      simp only [this]
      have : (match part v with | some b => updateNonMoved b r o | none => r) b = r b ∨
        ((match part v with | some b => updateNonMoved b r o | none => r) b).movedOut = (r b).movedOut := by
        cases part v with
        | none => left; rfl
        | some c =>
          right
          cases o <;> simp only [updateNonMoved, RTable.upd]
          · split <;> rfl
          · split <;> rfl
      rcases this with h | h
      · rw [h]; simp
      · rw [h]; simp
    | some t =>
      obtain ⟨id, s, d⟩ := t
      have hl : leaves T b v = (s == b) := by unfold leaves; rw [hm]
      have : (updateMove id s d r o b).movedOut = (if b = s then (r b).movedOut + 1 else (r b).movedOut) := by
        cases o
        · simp only [updateMove, RTable.upd]; split_ifs <;> rfl
        · exact absurd ho (by simp [usesCut])
        · simp only [updateMove, RTable.upd]; split_ifs <;> rfl
      simp only [hl]
      rw [this]
      by_cases hb : b = s
      · subst hb; simp; omega
      · have : (s == b) = false := by simp; exact fun h => hb h.symm
        simp [hb, this]

end aux

theorem countP_add_eq_length {l : List Nat} {p q : Nat → Bool}
    (hd : ∀ v ∈ l, ¬ (p v = true ∧ q v = true)) :
    l.countP p + l.countP q = l.length ↔ ∀ v ∈ l, p v = true ∨ q v = true := by
  induction l with
  | nil => simp
  | cons a l ih =>
    have hle : l.countP p + l.countP q ≤ l.length := by
      clear ih
      have hd' : ∀ v ∈ l, ¬ (p v = true ∧ q v = true) := fun v hv => hd v (by simp [hv])
      induction l with
      | nil => simp
      | cons c l ih2 =>
        have h1 := hd' c (by simp)
        have := ih2 (fun v hv => by
          rcases List.mem_cons.1 hv with h | h
          · exact hd v (by simp [h])
          · exact hd v (by simp [h])) (fun v hv => hd' v (by simp [hv]))
        simp only [List.countP_cons, List.length_cons]
        cases hp : p c <;> cases hq : q c
        · simp; omega
        · simp; omega
        · simp; omega
        · exact absurd ⟨hp, hq⟩ h1
    have hi := ih (fun v hv => hd v (by simp [hv]))
    have h1 := hd a (by simp)
    simp only [List.countP_cons, List.length_cons, List.mem_cons, forall_eq_or_imp]
    rw [← hi]
    cases hp : p a <;> cases hq : q a
    · simp; omega
    · simp; omega
    · simp; omega
    · exact absurd ⟨hp, hq⟩ h1

/-- abstract description of a round: ids, source and target of the moved nodes -/
structure Round (H : HG) (k : Nat) (T : Tracker) (part : Assign) : Prop where
  ids : ∀ v id s d, T.moveOfNode v = some (id, s, d) → 1 ≤ id ∧ id < maxID
  inj : ∀ v w id s d s' d', T.moveOfNode v = some (id, s, d) → T.moveOfNode w = some (id, s', d') → v = w
  ne : ∀ v id s d, T.moveOfNode v = some (id, s, d) → s ≠ d ∧ s < k ∧ d < k
  fin : ∀ v id s d, T.moveOfNode v = some (id, s, d) → part v = some d
  assigned : ∀ v ∈ H.nodes, ∃ b, b < k ∧ part v = some b

section edge
variable {H : HG} {k : Nat} {T : Tracker} {part : Assign} {o : Obj} {e v id src dst : Nat}

theorem pinsIn_zero {Φ : Assign} {b : Nat} : H.pinsIn Φ e b = 0 ↔ ∀ u ∈ H.pins e, Φ u ≠ some b := by
  unfold HG.pinsIn
  rw [List.countP_eq_zero]; simp

theorem pinsIn_full {Φ : Assign} {b : Nat} :
    H.pinsIn Φ e b = (H.pins e).length ↔ ∀ u ∈ H.pins e, Φ u = some b := by
  unfold HG.pinsIn
  rw [List.countP_eq_length]; simp

abbrev aux (o : Obj) (part : Assign) (T : Tracker) (H : HG) (e : Nat) : RTable :=
  auxData o part T (fun _ => RData.fresh) (H.pins e)

theorem km1Benefit_iff (hR : Round H k T part) (ho : usesKm1 o) (hv : v ∈ H.pins e)
    (hm : T.moveOfNode v = some (id, src, dst)) :
    km1Benefit id src (aux o part T H e) = true ↔
      H.pinsIn (posAt T.moveOfNode part (id + 1)) e src = 0 := by
  unfold km1Benefit
  simp only [Bool.and_eq_true, beq_iff_eq, decide_eq_true_eq]
  have hid := hR.ids v id src dst hm
  have B1 := aux_lastOut (part := part) (T := T) ho src (id + 1) (H.pins e) (fun _ => RData.fresh)
  have B0 := aux_lastOut (part := part) (T := T) ho src id (H.pins e) (fun _ => RData.fresh)
  have A := aux_firstIn (part := part) (T := T) ho src id (H.pins e) (fun _ => RData.fresh)
  have R := aux_remaining (part := part) (T := T) ho src (H.pins e) (fun _ => RData.fresh)
  have hge : ¬ (aux o part T H e src).lastOut < id := by
    rw [B0]; intro h; have := h.2 v hv id dst hm; omega
  have hl : (aux o part T H e src).lastOut = id ↔ (aux o part T H e src).lastOut < id + 1 := by omega
  have hgt : (aux o part T H e src).firstIn > id ↔ id < (aux o part T H e src).firstIn := Iff.rfl
  rw [hl, hgt, B1, A, R, pinsIn_zero]
  simp only [RData.fresh]
  constructor
  · rintro ⟨⟨⟨_, h1⟩, _, h2⟩, _, h3⟩ u hu hc
    unfold posAt at hc
    cases hmu : T.moveOfNode u with
    | none => rw [hmu] at hc; exact h3 u hu hmu hc
    | some t =>
      obtain ⟨i, s, d⟩ := t
      rw [hmu] at hc
      simp only at hc
      split_ifs at hc with hlt
      · cases hc; have := h2 u hu i s hmu; omega
      · cases hc; have := h1 u hu i d hmu; omega
  · intro h
    refine ⟨⟨⟨by omega, fun u hu i d hmu => ?_⟩, by omega, fun u hu i s hmu => ?_⟩, trivial, fun u hu hmu hc => ?_⟩
    · by_contra hlt
      apply h u hu; unfold posAt; rw [hmu]; simp only [if_neg hlt]
    · by_contra hlt
      apply h u hu; unfold posAt; rw [hmu]; simp only; rw [if_pos (by omega)]
    · apply h u hu; unfold posAt; rw [hmu]; exact hc

theorem km1Penalty_iff (hR : Round H k T part) (ho : usesKm1 o) (hv : v ∈ H.pins e)
    (hm : T.moveOfNode v = some (id, src, dst)) :
    km1Penalty id dst (aux o part T H e) = true ↔
      H.pinsIn (posAt T.moveOfNode part id) e dst = 0 := by
  unfold km1Penalty
  simp only [Bool.and_eq_true, beq_iff_eq, decide_eq_true_eq]
  have hid := hR.ids v id src dst hm
  have B1 := aux_firstIn (part := part) (T := T) ho dst (id - 1) (H.pins e) (fun _ => RData.fresh)
  have B0 := aux_firstIn (part := part) (T := T) ho dst id (H.pins e) (fun _ => RData.fresh)
  have A := aux_lastOut (part := part) (T := T) ho dst id (H.pins e) (fun _ => RData.fresh)
  have R := aux_remaining (part := part) (T := T) ho dst (H.pins e) (fun _ => RData.fresh)
  have hge : ¬ id < (aux o part T H e dst).firstIn := by
    rw [B0]; intro h; have := h.2 v hv id src hm; omega
  have hl : (aux o part T H e dst).firstIn = id ↔ id - 1 < (aux o part T H e dst).firstIn := by omega
  rw [hl, B1, A, R, pinsIn_zero]
  simp only [RData.fresh]
  constructor
  · rintro ⟨⟨⟨_, h1⟩, _, h2⟩, _, h3⟩ u hu hc
    unfold posAt at hc
    cases hmu : T.moveOfNode u with
    | none => rw [hmu] at hc; exact h3 u hu hmu hc
    | some t =>
      obtain ⟨i, s, d⟩ := t
      rw [hmu] at hc
      simp only at hc
      split_ifs at hc with hlt
      · cases hc; have := h1 u hu i s hmu; omega
      · cases hc; have := h2 u hu i d hmu; omega
  · intro h
    refine ⟨⟨⟨by omega, fun u hu i s hmu => ?_⟩, by omega, fun u hu i d hmu => ?_⟩, trivial, fun u hu hmu hc => ?_⟩
    · by_contra hlt
      apply h u hu; unfold posAt; rw [hmu]; simp only; rw [if_pos (by omega)]
    · by_contra hlt
      apply h u hu; unfold posAt; rw [hmu]; simp only; rw [if_neg (by omega)]
    · apply h u hu; unfold posAt; rw [hmu]; exact hc

theorem cover_iff (hR : Round H k T part) (ho : usesCut o) (b : Nat) :
    H.pinsIn part e b + (aux o part T H e b).movedOut = (H.pins e).length ↔
      ∀ u ∈ H.pins e, part u = some b ∨ ∃ i d, T.moveOfNode u = some (i, b, d) := by
  rw [aux_movedOut ho]
  simp only [RData.fresh, Nat.zero_add]
  unfold HG.pinsIn
  rw [countP_add_eq_length]
  · refine forall_congr' (fun u => forall_congr' (fun hu => ?_))
    rw [decide_eq_true_eq]
    apply or_congr_right
    unfold leaves
    cases hm : T.moveOfNode u with
    | none => simp
    | some t => obtain ⟨i, s, d⟩ := t; simp
  · rintro u hu ⟨h1, h2⟩
    rw [decide_eq_true_eq] at h1
    unfold leaves at h2
    cases hm : T.moveOfNode u with
    | none => rw [hm] at h2; cases h2
    | some t =>
      obtain ⟨i, s, d⟩ := t
      rw [hm] at h2
      simp only [beq_iff_eq] at h2
      have f := hR.fin u i s d hm
      rw [h1] at f
      cases f
      exact (hR.ne u i s _ hm).1 h2

theorem cutBenefit_iff (hR : Round H k T part) (ho : usesCut o) (hv : v ∈ H.pins e)
    (hm : T.moveOfNode v = some (id, src, dst)) :
    cutBenefit (H.pins e).length (H.pinsIn part e dst) id dst (aux o part T H e) = true ↔
      H.pinsIn (posAt T.moveOfNode part (id + 1)) e dst = (H.pins e).length := by
  unfold cutBenefit
  simp only [Bool.and_eq_true, beq_iff_eq, decide_eq_true_eq]
  have hid := hR.ids v id src dst hm
  have B1 := aux_lastIn (part := part) (T := T) ho dst (id + 1) (H.pins e) (fun _ => RData.fresh)
  have B0 := aux_lastIn (part := part) (T := T) ho dst id (H.pins e) (fun _ => RData.fresh)
  have A := aux_firstOut (part := part) (T := T) ho dst id (H.pins e) (fun _ => RData.fresh)
  have hge : ¬ (aux o part T H e dst).lastIn < id := by
    rw [B0]; intro h; have := h.2 v hv id src hm; omega
  have hl : (aux o part T H e dst).lastIn = id ↔ (aux o part T H e dst).lastIn < id + 1 := by omega
  rw [hl, B1, A, cover_iff hR ho, pinsIn_full]
  simp only [RData.fresh]
  constructor
  · rintro ⟨⟨hc, _, h1⟩, _, h2⟩ u hu
    unfold posAt
    cases hmu : T.moveOfNode u with
    | none =>
      rcases hc u hu with h | ⟨i, d, h⟩
      · exact h
      · rw [hmu] at h; cases h
    | some t =>
      obtain ⟨i, s, d⟩ := t
      simp only
      rcases hc u hu with h | ⟨i', d', h⟩
      · have f := hR.fin u i s d hmu
        rw [h] at f; cases f
        rw [if_pos (h1 u hu i s hmu)]
      · rw [hmu] at h; cases h
        have := h2 u hu i d hmu
        rw [if_neg (by omega)]
  · intro h
    refine ⟨⟨fun u hu => ?_, by omega, fun u hu i s hmu => ?_⟩, by omega, fun u hu i d hmu => ?_⟩
    · have := h u hu
      unfold posAt at this
      cases hmu : T.moveOfNode u with
      | none => rw [hmu] at this; exact Or.inl this
      | some t =>
        obtain ⟨i, s, d⟩ := t
        rw [hmu] at this
        simp only at this
        split_ifs at this with hlt
        · left; rw [hR.fin u i s d hmu]; exact this
        · right; cases this; exact ⟨i, d, rfl⟩
    · have := h u hu
      unfold posAt at this
      rw [hmu] at this
      simp only at this
      by_contra hlt
      rw [if_neg hlt] at this
      cases this
      exact (hR.ne u i _ _ hmu).1 rfl
    · have := h u hu
      unfold posAt at this
      rw [hmu] at this
      simp only at this
      by_contra hlt
      rw [if_pos (by omega)] at this
      cases this
      exact (hR.ne u i _ _ hmu).1 rfl

theorem cutPenalty_iff (hR : Round H k T part) (ho : usesCut o) (hv : v ∈ H.pins e)
    (hm : T.moveOfNode v = some (id, src, dst)) :
    cutPenalty (H.pins e).length (H.pinsIn part e src) id src (aux o part T H e) = true ↔
      H.pinsIn (posAt T.moveOfNode part id) e src = (H.pins e).length := by
  unfold cutPenalty
  simp only [Bool.and_eq_true, beq_iff_eq, decide_eq_true_eq]
  have hid := hR.ids v id src dst hm
  have B1 := aux_firstOut (part := part) (T := T) ho src (id - 1) (H.pins e) (fun _ => RData.fresh)
  have B0 := aux_firstOut (part := part) (T := T) ho src id (H.pins e) (fun _ => RData.fresh)
  have A := aux_lastIn (part := part) (T := T) ho src id (H.pins e) (fun _ => RData.fresh)
  have hge : ¬ id < (aux o part T H e src).firstOut := by
    rw [B0]; intro h; have := h.2 v hv id dst hm; omega
  have hl : (aux o part T H e src).firstOut = id ↔ id - 1 < (aux o part T H e src).firstOut := by omega
  have hgt : id > (aux o part T H e src).lastIn ↔ (aux o part T H e src).lastIn < id := Iff.rfl
  rw [hl, hgt, B1, A, cover_iff hR ho, pinsIn_full]
  simp only [RData.fresh]
  constructor
  · rintro ⟨⟨hc, _, h1⟩, _, h2⟩ u hu
    unfold posAt
    cases hmu : T.moveOfNode u with
    | none =>
      rcases hc u hu with h | ⟨i, d, h⟩
      · exact h
      · rw [hmu] at h; cases h
    | some t =>
      obtain ⟨i, s, d⟩ := t
      simp only
      rcases hc u hu with h | ⟨i', d', h⟩
      · have f := hR.fin u i s d hmu
        rw [h] at f; cases f
        rw [if_pos (h2 u hu i s hmu)]
      · rw [hmu] at h; cases h
        have := h1 u hu i d hmu
        rw [if_neg (by omega)]
  · intro h
    refine ⟨⟨fun u hu => ?_, by omega, fun u hu i d hmu => ?_⟩, by omega, fun u hu i s hmu => ?_⟩
    · have := h u hu
      unfold posAt at this
      cases hmu : T.moveOfNode u with
      | none => rw [hmu] at this; exact Or.inl this
      | some t =>
        obtain ⟨i, s, d⟩ := t
        rw [hmu] at this
        simp only at this
        split_ifs at this with hlt
        · left; rw [hR.fin u i s d hmu]; exact this
        · right; cases this; exact ⟨i, d, rfl⟩
    · have := h u hu
      unfold posAt at this
      rw [hmu] at this
      simp only at this
      by_contra hlt
      rw [if_pos (by omega)] at this
      cases this
      exact (hR.ne u i _ _ hmu).1 rfl
    · have := h u hu
      unfold posAt at this
      rw [hmu] at this
      simp only at this
      by_contra hlt
      rw [if_neg hlt] at this
      cases this
      exact (hR.ne u i _ _ hmu).1 rfl

theorem posAt_succ (hR : Round H k T part) (hm : T.moveOfNode v = some (id, src, dst)) :
    posAt T.moveOfNode part (id + 1) = (posAt T.moveOfNode part id).put v dst := by
  funext u
  unfold Assign.put
  by_cases hu : u = v
  · subst hu; unfold posAt; rw [hm]; simp
  · rw [if_neg hu]
    simp only [posAt]
    cases hmu : T.moveOfNode u with
    | none => rfl
    | some t =>
      obtain ⟨i, s, d⟩ := t
      have : i ≠ id := by
        rintro rfl; exact hu (hR.inj u v i s d src dst hmu hm)
      simp only
      by_cases h : i < id
      · rw [if_pos h, if_pos (by omega)]
      · rw [if_neg h, if_neg (by omega)]

theorem posAt_ne_none (hw : H.WF) (hR : Round H k T part) (he : e ∈ H.edges) (x : Nat) :
    ∀ u ∈ H.pins e, posAt T.moveOfNode part x u ≠ none := by
  intro u hu
  unfold posAt
  cases hmu : T.moveOfNode u with
  | none =>
    obtain ⟨b, _, hb⟩ := hR.assigned u (hw.pins_mem e he u hu)
    simp only; rw [hb]; simp
  | some t =>
    obtain ⟨i, s, d⟩ := t
    simp only; split_ifs <;> simp

/-- the arithmetic of benefit and penalty -/
theorem rb_arith {w : Int} (hw : 0 ≤ w) (o : Obj) {l l' z d0 d1 s n : Nat} {size pcD pcS id src dst : Nat}
    {r : RTable} (hl : l' + (if z = 0 then 1 else 0) = l + (if d1 = 1 then 1 else 0)) (hd : d1 = d0 + 1)
    (c1 : l > 1 ↔ s < n) (c2 : l' > 1 ↔ d1 < n) (hs : s ≤ n) (hd1 : d1 ≤ n) (h1 : 0 < l) (h2 : 0 < l')
    (k1 : usesKm1 o → (km1Benefit id src r = true ↔ z = 0))
    (k2 : usesKm1 o → (km1Penalty id dst r = true ↔ d0 = 0))
    (k3 : usesCut o → (cutBenefit size pcD id dst r = true ↔ d1 = n))
    (k4 : usesCut o → (cutPenalty size pcS id src r = true ↔ s = n)) :
    (if benefit w size pcD id src dst r o > 0 then benefit w size pcD id src dst r o else 0) -
      (if penalty w size pcS id src dst r o > 0 then penalty w size pcS id src dst r o else 0) =
    (match o with
      | .cut => if l > 1 then w else 0
      | .km1 => ((l : Int) - 1) * w
      | .soed => if l > 1 then (l : Int) * w else 0) -
    (match o with
      | .cut => if l' > 1 then w else 0
      | .km1 => ((l' : Int) - 1) * w
      | .soed => if l' > 1 then (l' : Int) * w else 0) := by
  have tpos : ∀ x : Int, 0 ≤ x → (if x > 0 then x else 0) = x := by
    intro x hx; split_ifs <;> omega
  have bwn : ∀ b : Bool, 0 ≤ bw b w := by intro b; unfold bw; split_ifs <;> omega
  have dz : d1 = 1 ↔ d0 = 0 := by omega
  have hkm : usesKm1 o → bw (km1Benefit id src r) w - bw (km1Penalty id dst r) w =
      ((l : Int) - 1) * w - ((l' : Int) - 1) * w := by
    intro ho
    have a1 := k1 ho
    have a2 := k2 ho
    simp only [bw, a1, a2]
    simp only [dz] at hl
    by_cases q1 : z = 0 <;> by_cases q2 : d0 = 0 <;> simp only [q1, q2, if_true, if_false] at hl ⊢
    · have : l' = l := by omega
      rw [this]; ring
    · have : l = l' + 1 := by omega
      rw [this]; push_cast; ring
    · have : l' = l + 1 := by omega
      rw [this]; push_cast; ring
    · have : l' = l := by omega
      rw [this]; ring
  have hcut : usesCut o → bw (cutBenefit size pcD id dst r) w - bw (cutPenalty size pcS id src r) w =
      (if l > 1 then w else 0) - (if l' > 1 then w else 0) := by
    intro ho
    have a1 := k3 ho
    have a2 := k4 ho
    simp only [bw, a1, a2, c1, c2]
    split_ifs <;> omega
  have nb : 0 ≤ benefit w size pcD id src dst r o := by
    cases o
    · exact bwn _
    · exact bwn _
    · exact add_nonneg (bwn _) (bwn _)
  have np : 0 ≤ penalty w size pcS id src dst r o := by
    cases o
    · exact bwn _
    · exact bwn _
    · exact add_nonneg (bwn _) (bwn _)
  rw [tpos _ nb, tpos _ np]
  cases o with
  | km1 => exact hkm trivial
  | cut => exact hcut trivial
  | soed =>
    simp only [benefit, penalty]
    have x1 := hkm trivial
    have x2 := hcut trivial
    have e1 : (if l > 1 then (l : Int) * w else 0) = ((l : Int) - 1) * w + (if l > 1 then w else 0) := by
      split_ifs with g
      · ring
      · have : l = 1 := by omega
        rw [this]; simp
    have e2 : (if l' > 1 then (l' : Int) * w else 0) = ((l' : Int) - 1) * w + (if l' > 1 then w else 0) := by
      split_ifs with g
      · ring
      · have : l' = 1 := by omega
        rw [this]; simp
    rw [e1, e2]
    linarith

/-- the recomputed contribution of hyperedge `e` to the gain of a move is the decrease of the objective
term of `e` caused by this move -/
theorem edgeGain_eq (hw : H.WF) (hR : Round H k T part) (he : e ∈ H.edges) (hwt : 0 ≤ H.ew e)
    {pc : Nat → Nat → Nat} (hpc : ∀ b, b < k → pc e b = H.pinsIn part e b) (hv : v ∈ H.pins e)
    (hm : T.moveOfNode v = some (id, src, dst)) :
    edgeGain H o pc e id src dst (aux o part T H e) =
      H.term (posAt T.moveOfNode part id) e o - H.term (posAt T.moveOfNode part (id + 1)) e o := by
  obtain ⟨hne, hs, hd⟩ := hR.ne v id src dst hm
  have hall := posAt_ne_none hw hR he id
  have hall' := posAt_ne_none hw hR he (id + 1)
  have hvs : posAt T.moveOfNode part id v = some src := by unfold posAt; rw [hm]; simp
  have hvd : posAt T.moveOfNode part (id + 1) v = some dst := by unfold posAt; rw [hm]; simp
  have c1 := HG.cut_iff hv hvs hall
  have c2 := HG.cut_iff hv hvd hall'
  have hput := posAt_succ hR hm
  have hl := HG.lam_put (hw.pins_nodup e he) hv hvs hne
  have key := HG.pinsIn_put_mem (Φ := posAt T.moveOfNode part id) (b := dst) (c := dst) (hw.pins_nodup e he) hv
  rw [hvs, if_neg (by simp [hne]), if_pos rfl] at key
  rw [← hput] at hl key
  have k1 : usesKm1 o → (km1Benefit id src (aux o part T H e) = true ↔ _) := fun ho => km1Benefit_iff hR ho hv hm
  have k2 : usesKm1 o → (km1Penalty id dst (aux o part T H e) = true ↔ _) := fun ho => km1Penalty_iff hR ho hv hm
  have k3 : usesCut o → (cutBenefit (H.pins e).length (pc e dst) id dst (aux o part T H e) = true ↔
      H.pinsIn (posAt T.moveOfNode part (id + 1)) e dst = (H.pins e).length) :=
    fun ho => by rw [hpc dst hd]; exact cutBenefit_iff hR ho hv hm
  have k4 : usesCut o → (cutPenalty (H.pins e).length (pc e src) id src (aux o part T H e) = true ↔
      H.pinsIn (posAt T.moveOfNode part id) e src = (H.pins e).length) :=
    fun ho => by rw [hpc src hs]; exact cutPenalty_iff hR ho hv hm
  have hlen1 : H.pinsIn (posAt T.moveOfNode part id) e src ≤ (H.pins e).length := List.countP_le_length
  have hlen2 : H.pinsIn (posAt T.moveOfNode part (id + 1)) e dst ≤ (H.pins e).length := List.countP_le_length
  have hlam1 : 0 < H.lam (posAt T.moveOfNode part id) e := by
    unfold HG.lam; rw [Finset.card_pos]
    exact ⟨src, by rw [HG.blocksOf, List.mem_toFinset, List.mem_filterMap]; exact ⟨v, hv, hvs⟩⟩
  have hlam2 : 0 < H.lam (posAt T.moveOfNode part (id + 1)) e := by
    unfold HG.lam; rw [Finset.card_pos]
    exact ⟨dst, by rw [HG.blocksOf, List.mem_toFinset, List.mem_filterMap]; exact ⟨v, hv, hvd⟩⟩
  have := rb_arith (w := H.ew e) hwt o hl (d0 := H.pinsIn (posAt T.moveOfNode part id) e dst) (by omega)
    c1 c2 hlen1 hlen2 hlam1 hlam2 k1 k2 k3 k4
  rw [show edgeGain H o pc e id src dst (aux o part T H e) = _ from this]
  cases o <;> rfl

end edge
end Rollback
end Verif
