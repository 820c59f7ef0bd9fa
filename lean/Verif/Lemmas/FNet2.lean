import Verif.Lemmas.FNet1
import Verif.Lemmas.Gain
/-! # Flow network: node numbers and the contribution of one hyperedge -/
namespace Verif
namespace FNet
open DFlow (set set_same set_other set_apply)

/-! ### Node numbers -/

theorem writeIds_not {f : Nat → Option Nat} {v : Nat} (l : List Nat) : ∀ {f : Nat → Option Nat} {n : Nat}, v ∉ l → writeIds f l n v = f v := by
  induction l with
  | nil => intro f n _; rfl
  | cons a l ih =>
    intro f n h
    rw [writeIds, ih (fun hh => h (by simp [hh])), set_other]
    exact fun hh => h (by simp [hh])

theorem writeIds_get (l : List Nat) : ∀ {f : Nat → Option Nat} {n i v : Nat}, l.Nodup → l[i]? = some v → writeIds f l n v = some (n + i) := by
  induction l with
  | nil => intro f n i v _ h; simp at h
  | cons a l ih =>
    intro f n i v hn h
    have hn' := List.nodup_cons.1 hn
    cases i with
    | zero =>
      simp only [List.getElem?_cons_zero, Option.some.injEq] at h
      subst h
      rw [writeIds, writeIds_not (f := f) l hn'.1, set_same]; simp
    | succ i =>
      rw [List.getElem?_cons_succ] at h
      rw [writeIds, ih hn'.2 h]; congr 1; omega

theorem writeIds_some (l : List Nat) {f : Nat → Option Nat} {n v u : Nat} (hn : l.Nodup) (hv : v ∈ l) (h : writeIds f l n v = some u) :
    ∃ i, l[i]? = some v ∧ u = n + i := by
  obtain ⟨i, hi⟩ := List.mem_iff_getElem?.1 hv
  rw [writeIds_get l hn hi] at h
  exact ⟨i, hi, (Option.some.inj h).symm⟩

/-- the node map is the inverse of the list of the nodes -/
theorem nodeMap_iff {r : Region} (hn : (r.n0 ++ r.n1).Nodup) (v u : Nat) : nodeMap r v = some u ↔ (nodesOf r)[u]? = some (some v) := by
  obtain ⟨h0, h1, hd⟩ := List.nodup_append.1 hn
  have hlen : (none :: r.n0.map some : List (Option Nat)).length = r.n0.length + 1 := by simp
  unfold nodeMap nodesOf sinkOf
  constructor
  · intro h
    by_cases hv1 : v ∈ r.n1
    · obtain ⟨i, hi, rfl⟩ := writeIds_some r.n1 h1 hv1 h
      rw [List.getElem?_append_right (by rw [hlen]; omega), hlen, show r.n0.length + 1 + 1 + i - (r.n0.length + 1) = i + 1 by omega]
      simp [hi]
    · rw [writeIds_not (f := fun _ => none) r.n1 hv1] at h
      by_cases hv0 : v ∈ r.n0
      · obtain ⟨i, hi, rfl⟩ := writeIds_some r.n0 h0 hv0 h
        have hil : i < r.n0.length := by
          by_contra hh
          rw [List.getElem?_eq_none (by omega)] at hi; cases hi
        rw [List.getElem?_append_left (by rw [hlen]; omega), show 1 + i = i + 1 by omega]
        simp [hi]
      · rw [writeIds_not (f := fun _ => none) r.n0 hv0] at h; cases h
  · intro h
    by_cases hu : u < r.n0.length + 1
    · rw [List.getElem?_append_left (by rw [hlen]; exact hu)] at h
      cases u with
      | zero => simp at h
      | succ i =>
        rw [List.getElem?_cons_succ, List.getElem?_map] at h
        have hi : r.n0[i]? = some v := by
          cases hc : r.n0[i]? with
          | none => rw [hc] at h; cases h
          | some a => rw [hc] at h; simpa using h
        have hv0 := List.mem_of_getElem? hi
        have hv1 : v ∉ r.n1 := fun hh => hd v hv0 v hh rfl
        rw [writeIds_not (f := fun _ => none) r.n1 hv1, writeIds_get r.n0 h0 hi]
        congr 1; omega
    · rw [List.getElem?_append_right (by rw [hlen]; omega), hlen] at h
      obtain ⟨j, hj⟩ : ∃ j, u - (r.n0.length + 1) = j := ⟨_, rfl⟩
      rw [hj] at h
      cases j with
      | zero => simp at h
      | succ i =>
        rw [List.getElem?_cons_succ, List.getElem?_map] at h
        have hi : r.n1[i]? = some v := by
          cases hc : r.n1[i]? with
          | none => rw [hc] at h; cases h
          | some a => rw [hc] at h; simpa using h
        rw [writeIds_get r.n1 h1 hi]
        congr 1; omega

theorem nodeMap_none {r : Region} (hn : (r.n0 ++ r.n1).Nodup) (v : Nat) : nodeMap r v = none ↔ v ∉ r.n0 ++ r.n1 := by
  obtain ⟨h0, h1, hd⟩ := List.nodup_append.1 hn
  rw [List.mem_append, not_or]
  constructor
  · intro h
    unfold nodeMap at h
    refine ⟨fun hv => ?_, fun hv => ?_⟩
    · have hv1 : v ∉ r.n1 := fun hh => hd v hv v hh rfl
      obtain ⟨i, hi⟩ := List.mem_iff_getElem?.1 hv
      rw [writeIds_not (f := fun _ => none) r.n1 hv1, writeIds_get r.n0 h0 hi] at h; cases h
    · obtain ⟨i, hi⟩ := List.mem_iff_getElem?.1 hv
      rw [writeIds_get r.n1 h1 hi] at h; cases h
  · rintro ⟨a, b⟩
    unfold nodeMap
    rw [writeIds_not (f := fun _ => none) r.n1 b, writeIds_not (f := fun _ => none) r.n0 a]

theorem nodeMap_inj {r : Region} (hn : (r.n0 ++ r.n1).Nodup) {v v' u : Nat} (h : nodeMap r v = some u) (h' : nodeMap r v' = some u) : v = v' := by
  rw [nodeMap_iff hn] at h h'
  rw [h] at h'; simpa using h'

theorem nodesOf_zero (r : Region) : (nodesOf r)[0]? = some none := rfl

theorem nodesOf_sink (r : Region) : (nodesOf r)[sinkOf r]? = some none := by
  unfold nodesOf sinkOf
  rw [List.getElem?_append_right (by simp)]
  simp

theorem nodeMap_ne {r : Region} (hn : (r.n0 ++ r.n1).Nodup) {v u : Nat} (h : nodeMap r v = some u) : u ≠ 0 ∧ u ≠ sinkOf r := by
  rw [nodeMap_iff hn] at h
  refine ⟨?_, ?_⟩
  · rintro rfl; rw [nodesOf_zero] at h; cases h
  · rintro rfl; rw [nodesOf_sink] at h; cases h

/-! ### Assignments -/

/-- the partition in which the region nodes on the source side `S` are in block `b0`, the other ones in block `b1` -/
def assignOf (c : NCfg) (r : Region) (S : Nat → Bool) : Assign := fun v =>
  match nodeMap r v with
  | some u => some (if S u then c.b0 else c.b1)
  | none => c.Φ v

/-- `e` has pins in both blocks -/
def both (c : NCfg) (Θ : Assign) (e : Nat) : Prop := 0 < c.H.pinsIn Θ e c.b0 ∧ 0 < c.H.pinsIn Θ e c.b1

instance (c : NCfg) (Θ : Assign) (e : Nat) : Decidable (both c Θ e) := by unfold both; infer_instance

/-- the conditions under which the flow problem is set up -/
structure NOK (c : NCfg) (r : Region) : Prop where
  wf : c.H.WF
  ne : c.b0 ≠ c.b1
  all : ∀ v ∈ c.H.nodes, c.Φ v ≠ none
  nodup : (r.n0 ++ r.n1).Nodup
  mem : ∀ v ∈ r.n0 ++ r.n1, v ∈ c.H.nodes
  m0 : ∀ v ∈ r.n0, c.Φ v = some c.b0
  m1 : ∀ v ∈ r.n1, c.Φ v = some c.b1
  hes : r.hes.Nodup
  inc : ∀ e, e ∈ r.hes ↔ ∃ v ∈ r.n0 ++ r.n1, e ∈ c.H.inc v

variable {c : NCfg} {r : Region}

theorem NOK.edge (h : NOK c r) {e : Nat} (he : e ∈ r.hes) : e ∈ c.H.edges ∧ ∃ v ∈ c.H.pins e, ∃ u, nodeMap r v = some u := by
  obtain ⟨v, hv, hi⟩ := (h.inc e).1 he
  obtain ⟨h1, h2⟩ := (h.wf.inc_iff v (h.mem v hv) e).1 hi
  refine ⟨h1, v, h2, ?_⟩
  cases hc : nodeMap r v with
  | none => exact absurd hv ((nodeMap_none h.nodup v).1 hc)
  | some u => exact ⟨u, rfl⟩

theorem NOK.region (h : NOK c r) {v u : Nat} (hu : nodeMap r v = some u) : v ∈ c.H.nodes ∧ (c.Φ v = some c.b0 ∨ c.Φ v = some c.b1) := by
  have hv : v ∈ r.n0 ++ r.n1 := by
    by_contra hh
    rw [(nodeMap_none h.nodup v).2 hh] at hu; cases hu
  refine ⟨h.mem v hv, ?_⟩
  rcases List.mem_append.1 hv with hv | hv
  · exact Or.inl (h.m0 v hv)
  · exact Or.inr (h.m1 v hv)

theorem assignOf_other (h : NOK c r) (S : Nat → Bool) {v b : Nat} (h0 : b ≠ c.b0) (h1 : b ≠ c.b1) : assignOf c r S v = some b ↔ c.Φ v = some b := by
  unfold assignOf
  cases hc : nodeMap r v with
  | none => rfl
  | some u =>
    simp only []
    have := (h.region hc).2
    constructor
    · intro hh
      split_ifs at hh
      · exact absurd (Option.some.inj hh).symm h0
      · exact absurd (Option.some.inj hh).symm h1
    · intro hh
      rw [hh] at this
      rcases this with h | h
      · exact absurd (Option.some.inj h) h0
      · exact absurd (Option.some.inj h) h1

theorem assignOf_all (h : NOK c r) (S : Nat → Bool) : ∀ v ∈ c.H.nodes, assignOf c r S v ≠ none := by
  intro v hv
  unfold assignOf
  cases hc : nodeMap r v with
  | none => exact h.all v hv
  | some u => simp

/-- connectivity in terms of the blocks other than the two blocks -/
theorem lam_split (hne : c.b0 ≠ c.b1) (Θ : Assign) (e : Nat) (h : 0 < c.H.pinsIn Θ e c.b0 ∨ 0 < c.H.pinsIn Θ e c.b1) :
    c.H.lam Θ e = (((c.H.blocksOf Θ e).erase c.b0).erase c.b1).card + 1 + (if both c Θ e then 1 else 0) := by
  unfold HG.lam
  have hm : ∀ b, b ∈ c.H.blocksOf Θ e ↔ 0 < c.H.pinsIn Θ e b := fun b => HG.mem_blocksOf
  rw [Finset.card_erase_eq_ite, Finset.card_erase_eq_ite]
  simp only [Finset.mem_erase, hm, ne_eq, hne.symm, not_false_eq_true, true_and]
  unfold both
  have hp0 : 0 < c.H.pinsIn Θ e c.b0 → 0 < (c.H.blocksOf Θ e).card := fun hh => Finset.card_pos.2 ⟨c.b0, (hm _).2 hh⟩
  have hp1 : 0 < c.H.pinsIn Θ e c.b1 → 0 < (c.H.blocksOf Θ e).card := fun hh => Finset.card_pos.2 ⟨c.b1, (hm _).2 hh⟩
  have hp2 : 0 < c.H.pinsIn Θ e c.b0 → 0 < c.H.pinsIn Θ e c.b1 → 2 ≤ (c.H.blocksOf Θ e).card := by
    intro x y
    have := Finset.card_le_card (s := {c.b0, c.b1}) (t := c.H.blocksOf Θ e) (by
      intro b hb
      simp only [Finset.mem_insert, Finset.mem_singleton] at hb
      rcases hb with rfl | rfl
      · exact (hm _).2 x
      · exact (hm _).2 y)
    rw [Finset.card_pair hne] at this
    exact this
  by_cases a : 0 < c.H.pinsIn Θ e c.b0 <;> by_cases b : 0 < c.H.pinsIn Θ e c.b1
  · have := hp2 a b
    simp only [a, b, if_true, and_self]; omega
  · have := hp0 a
    simp only [a, b, if_true, and_false, if_false]; omega
  · have := hp1 b
    simp only [a, b, if_true, false_and, if_false]; omega
  · exact absurd h (by tauto)

theorem others_eq (h : NOK c r) (S : Nat → Bool) (e : Nat) :
    ((c.H.blocksOf (assignOf c r S) e).erase c.b0).erase c.b1 = ((c.H.blocksOf c.Φ e).erase c.b0).erase c.b1 := by
  ext b
  simp only [Finset.mem_erase, HG.mem_blocksOf]
  constructor
  · rintro ⟨h1, h0, hb⟩
    exact ⟨h1, h0, by rwa [DFlow.pinsIn_pt (fun v _ => assignOf_other h S h0 h1)] at hb⟩
  · rintro ⟨h1, h0, hb⟩
    exact ⟨h1, h0, by rwa [DFlow.pinsIn_pt (fun v _ => assignOf_other h S h0 h1)]⟩

theorem some_block (h : NOK c r) {e : Nat} (he : e ∈ r.hes) (S : Nat → Bool) :
    (0 < c.H.pinsIn c.Φ e c.b0 ∨ 0 < c.H.pinsIn c.Φ e c.b1) ∧ (0 < c.H.pinsIn (assignOf c r S) e c.b0 ∨ 0 < c.H.pinsIn (assignOf c r S) e c.b1) := by
  obtain ⟨h1, v, hv, u, hu⟩ := h.edge he
  have hpos : ∀ (Θ : Assign) (b : Nat), Θ v = some b → 0 < c.H.pinsIn Θ e b := fun Θ b hb => List.countP_pos_iff.2 ⟨v, hv, by simpa using hb⟩
  refine ⟨(h.region hu).2.imp (hpos _ _) (hpos _ _), ?_⟩
  have hA : assignOf c r S v = some (if S u then c.b0 else c.b1) := by unfold assignOf; rw [hu]
  by_cases hS : S u = true
  · rw [if_pos hS] at hA; exact Or.inl (hpos _ _ hA)
  · rw [if_neg hS] at hA; exact Or.inr (hpos _ _ hA)

/-- all pins are in the two blocks iff there is no other block -/
theorem pins_two (h : NOK c r) {e : Nat} (he : e ∈ c.H.edges) :
    c.H.pinsIn c.Φ e c.b0 + c.H.pinsIn c.Φ e c.b1 < (c.H.pins e).length ↔ 0 < (((c.H.blocksOf c.Φ e).erase c.b0).erase c.b1).card := by
  have key : ∀ l : List Nat, l.countP (fun v => c.Φ v = some c.b0) + l.countP (fun v => c.Φ v = some c.b1) +
      l.countP (fun v => decide (¬ c.Φ v = some c.b0 ∧ ¬ c.Φ v = some c.b1)) = l.length := by
    intro l
    induction l with
    | nil => rfl
    | cons a l ih =>
      rw [List.countP_cons, List.countP_cons, List.countP_cons, List.length_cons]
      generalize l.countP (fun v => decide (¬ c.Φ v = some c.b0 ∧ ¬ c.Φ v = some c.b1)) = C at ih ⊢
      by_cases h0 : c.Φ a = some c.b0
      · have : ¬ c.Φ a = some c.b1 := by rw [h0]; simpa using h.ne
        simp [h0, h.ne]; omega
      · by_cases h1 : c.Φ a = some c.b1
        · simp [h1, h.ne.symm]; omega
        · simp [h0, h1]; omega
  have hk := key (c.H.pins e)
  unfold HG.pinsIn
  rw [Finset.card_pos]
  constructor
  · intro hlt
    obtain ⟨v, hv, hp⟩ := List.countP_pos_iff.1 (show 0 < (c.H.pins e).countP (fun v => decide (¬ c.Φ v = some c.b0 ∧ ¬ c.Φ v = some c.b1)) by omega)
    obtain ⟨p0, p1⟩ := of_decide_eq_true hp
    obtain ⟨b, hb⟩ := Option.ne_none_iff_exists'.1 (h.all v (h.wf.pins_mem e he v hv))
    refine ⟨b, ?_⟩
    rw [hb] at p0 p1
    simp only [Finset.mem_erase, HG.mem_blocksOf]
    exact ⟨fun hh => p1 (by rw [hh]), fun hh => p0 (by rw [hh]), List.countP_pos_iff.2 ⟨v, hv, by simpa using hb⟩⟩
  · rintro ⟨b, hb⟩
    simp only [Finset.mem_erase, HG.mem_blocksOf] at hb
    obtain ⟨h1, h0, hp⟩ := hb
    obtain ⟨v, hv, hvb⟩ := List.countP_pos_iff.1 hp
    have hvb : c.Φ v = some b := by simpa using hvb
    have : 0 < (c.H.pins e).countP (fun v => decide (¬ c.Φ v = some c.b0 ∧ ¬ c.Φ v = some c.b1)) :=
      List.countP_pos_iff.2 ⟨v, hv, decide_eq_true ⟨by rw [hvb]; simpa using h0, by rw [hvb]; simpa using h1⟩⟩
    omega

/-- **the capacity is the change of the objective**: for a hyperedge of the region, the objective changes by the capacity iff the hyperedge becomes a hyperedge
between the two blocks -/
theorem term_diff (h : NOK c r) {e : Nat} (he : e ∈ r.hes) (S : Nat → Bool) :
    c.H.term (assignOf c r S) e c.o - c.H.term c.Φ e c.o =
    (if both c (assignOf c r S) e then capacity c e else 0) - (if both c c.Φ e then capacity c e else 0) := by
  obtain ⟨s1, s2⟩ := some_block h he S
  have l1 := lam_split h.ne c.Φ e s1
  have l2 := lam_split h.ne (assignOf c r S) e s2
  have pt := pins_two h (h.edge he).1
  rw [others_eq h S e] at l2
  revert l1 l2 pt
  generalize (((c.H.blocksOf c.Φ e).erase c.b0).erase c.b1).card = k
  intro l1 l2 pt
  unfold capacity
  cases ho : c.o with
  | km1 =>
    simp only [HG.term]
    rw [l1, l2]
    by_cases x : both c (assignOf c r S) e <;> by_cases y : both c c.Φ e <;> simp only [x, y, if_true, if_false] <;> push_cast <;> ring
  | cut =>
    simp only [HG.term]
    rw [l1, l2]
    by_cases hk : 0 < k
    · rw [if_pos (pt.2 hk), if_pos (show k + 1 + _ > 1 by omega), if_pos (show k + 1 + _ > 1 by omega)]; simp
    · have hk0 : k = 0 := by omega
      rw [if_neg (fun hh => hk (pt.1 hh))]
      subst hk0
      by_cases x : both c (assignOf c r S) e <;> by_cases y : both c c.Φ e <;> simp [x, y]
  | soed =>
    simp only [HG.term]
    have hcap : (c.H.lam c.Φ e = 1 ∨ (c.H.lam c.Φ e = 2 ∧ 0 < c.H.pinsIn c.Φ e c.b0 ∧ 0 < c.H.pinsIn c.Φ e c.b1)) ↔ k = 0 := by
      have hb : (0 < c.H.pinsIn c.Φ e c.b0 ∧ 0 < c.H.pinsIn c.Φ e c.b1) ↔ both c c.Φ e := Iff.rfl
      rw [hb, l1]
      by_cases y : both c c.Φ e
      · simp only [y, if_true, and_true]; omega
      · simp only [y, if_false, and_false, or_false]; omega
    rw [if_congr hcap rfl rfl, l1, l2]
    by_cases hk : k = 0
    · subst hk
      by_cases x : both c (assignOf c r S) e <;> by_cases y : both c c.Φ e <;> simp [x, y]
    · rw [if_neg hk, if_pos (show k + 1 + _ > 1 by omega), if_pos (show k + 1 + _ > 1 by omega)]
      by_cases x : both c (assignOf c r S) e <;> by_cases y : both c c.Φ e <;> simp only [x, y, if_true, if_false] <;> push_cast <;> ring

/-- hyperedges outside the region do not change -/
theorem term_out (h : NOK c r) {e : Nat} (he : e ∈ c.H.edges) (hr : e ∉ r.hes) (S : Nat → Bool) : c.H.term (assignOf c r S) e c.o = c.H.term c.Φ e c.o := by
  apply HG.term_congr
  intro v hv
  unfold assignOf
  cases hc : nodeMap r v with
  | none => rfl
  | some u =>
    exfalso
    have hv' : v ∈ r.n0 ++ r.n1 := by
      by_contra hh
      rw [(nodeMap_none h.nodup v).2 hh] at hc; cases hc
    exact hr ((h.inc e).2 ⟨v, hv', (h.wf.inc_iff v (h.mem v hv') e).2 ⟨he, hv⟩⟩)

/-! ### Entries -/

/-- a net is cut by the side assignment -/
def isCut (S : Nat → Bool) (pins : List Nat) : Bool := pins.any S && pins.any (fun u => !S u)

/-- total capacity of the cut nets -/
def netCut (S : Nat → Bool) (nets : Nets) : Int := (nets.map (fun p => if isCut S p.2 then p.1 else 0)).sum

theorem isCut_perm {S : Nat → Bool} {l l' : List Nat} (h : l.Perm l') : isCut S l = isCut S l' := by
  unfold isCut
  rw [Bool.eq_iff_iff]
  simp only [Bool.and_eq_true, List.any_eq_true, h.mem_iff]

theorem sortPins_perm (snk : Nat) (l : List Nat) : (sortPins snk l).Perm l := by
  unfold sortPins
  cases l with
  | nil => exact List.Perm.refl _
  | cons a r =>
    simp only []
    split_ifs
    · exact (List.perm_insertionSort _ _).cons a
    · exact List.perm_insertionSort _ _

theorem pushFront_perm (l : List Nat) (s : Nat) : (pushFront l s).Perm (s :: l) := by
  unfold pushFront
  cases l with
  | nil => exact List.Perm.refl _
  | cons a r => exact (List.perm_append_comm (l₁ := r) (l₂ := [a])).cons s

/-- what the net of an entry contributes -/
def netVal (S : Nat → Bool) : Option (Int × List Nat) → Int
  | none => 0
  | some p => if isCut S p.2 then p.1 else 0

theorem both_iff (h : NOK c r) (S : Nat → Bool) (e : Nat) :
    both c (assignOf c r S) e ↔
    ((c.H.pins e).any (fun v => (nodeMap r v).isNone && decide (c.Φ v = some c.b0)) = true ∨ ∃ u ∈ (c.H.pins e).filterMap (nodeMap r), S u = true) ∧
    ((c.H.pins e).any (fun v => (nodeMap r v).isNone && decide (c.Φ v = some c.b1)) = true ∨ ∃ u ∈ (c.H.pins e).filterMap (nodeMap r), S u = false) := by
  have key : ∀ b (s : Bool), (∀ u, (if S u then c.b0 else c.b1) = b ↔ S u = s) → (0 < c.H.pinsIn (assignOf c r S) e b ↔
      ((c.H.pins e).any (fun v => (nodeMap r v).isNone && decide (c.Φ v = some b)) = true ∨ ∃ u ∈ (c.H.pins e).filterMap (nodeMap r), S u = s)) := by
    intro b s hs
    unfold HG.pinsIn
    rw [List.countP_pos_iff]
    simp only [List.any_eq_true, Bool.and_eq_true, decide_eq_true_eq, Option.isNone_iff_eq_none, List.mem_filterMap]
    constructor
    · rintro ⟨v, hv, hb⟩
      unfold assignOf at hb
      cases hc : nodeMap r v with
      | none => rw [hc] at hb; exact Or.inl ⟨v, hv, hc, hb⟩
      | some u => rw [hc] at hb; exact Or.inr ⟨u, ⟨v, hv, hc⟩, (hs u).1 (Option.some.inj hb)⟩
    · rintro (⟨v, hv, hc, hb⟩ | ⟨u, ⟨v, hv, hc⟩, hb⟩)
      · exact ⟨v, hv, by unfold assignOf; rw [hc]; exact hb⟩
      · exact ⟨v, hv, by unfold assignOf; rw [hc]; simp only []; rw [(hs u).2 hb]⟩
  unfold both
  rw [key c.b0 true (fun u => by cases S u <;> simp [h.ne.symm]), key c.b1 false (fun u => by cases S u <;> simp [h.ne])]

/-- an entry is exact: its contributions for a side assignment and for the current partition -/
theorem entry_val (h : NOK c r) {e : Nat} (he : e ∈ r.hes) {S : Nat → Bool} (h0 : S 0 = true) (h1 : S (sinkOf r) = false) :
    (entryDefault c r e).nonrem + netVal S (entryDefault c r e).net = (if both c (assignOf c r S) e then capacity c e else 0) ∧
    (entryDefault c r e).total = (if both c c.Φ e then capacity c e else 0) := by
  have hbi := both_iff h S e
  obtain ⟨_, v, hv, u, hu⟩ := h.edge he
  have hreg : u ∈ (c.H.pins e).filterMap (nodeMap r) := List.mem_filterMap.2 ⟨v, hv, hu⟩
  unfold entryDefault
  simp only []
  by_cases hz : capacity c e = 0
  · rw [if_pos hz, hz]
    simp [netVal]
  · rw [if_neg hz]
    have htot : (if 0 < c.H.pinsIn c.Φ e c.b0 ∧ 0 < c.H.pinsIn c.Φ e c.b1 then capacity c e else 0) = if both c c.Φ e then capacity c e else 0 := rfl
    generalize (c.H.pins e).filterMap (nodeMap r) = reg at *
    generalize (c.H.pins e).any (fun v => (nodeMap r v).isNone && decide (c.Φ v = some c.b0)) = cs at *
    generalize (c.H.pins e).any (fun v => (nodeMap r v).isNone && decide (c.Φ v = some c.b1)) = ct at *
    have hemp : reg.isEmpty = false := by cases reg with
      | nil => simp at hreg
      | cons => rfl
    by_cases hst : (cs && ct) = true
    · rw [if_pos hst]
      rw [Bool.and_eq_true] at hst
      have : both c (assignOf c r S) e := hbi.2 ⟨Or.inl hst.1, Or.inl hst.2⟩
      simp [netVal, this, htot]
    · rw [if_neg hst, hemp]
      simp only [Bool.false_eq_true, if_false]
      have hL : ∀ L : List Nat, L = (if cs = true then pushFront reg 0 else if ct = true then pushFront reg (sinkOf r) else reg) →
          (isCut S L = true ↔ both c (assignOf c r S) e) := by
        intro L hL
        rw [hbi]
        cases cs with
        | true =>
          have hct : ct = false := by cases ct; rfl; simp at hst
          rw [if_pos rfl] at hL
          rw [hL, isCut_perm (pushFront_perm _ _), isCut]
          simp [h0, hct]
        | false =>
          rw [if_neg (by simp)] at hL
          cases ct with
          | true =>
            rw [if_pos rfl] at hL
            rw [hL, isCut_perm (pushFront_perm _ _), isCut]
            simp [h1]
          | false =>
            rw [if_neg (by simp)] at hL
            rw [hL, isCut]
            simp
      have hL' := hL _ rfl
      generalize (if cs = true then pushFront reg 0 else if ct = true then pushFront reg (sinkOf r) else reg) = L at *
      by_cases hlen : L.length > 1
      · rw [if_pos hlen]
        refine ⟨?_, htot⟩
        simp only [netVal, Int.zero_add]
        rw [isCut_perm (sortPins_perm _ _)]
        by_cases hb : both c (assignOf c r S) e
        · rw [if_pos hb, if_pos (hL'.2 hb)]
        · rw [if_neg hb, if_neg (fun hh => hb (hL'.1 hh))]
      · rw [if_neg hlen]
        refine ⟨?_, htot⟩
        simp only [netVal, Int.add_zero]
        have hnc : ¬ isCut S L = true := by
          intro hh
          unfold isCut at hh
          simp only [Bool.and_eq_true, List.any_eq_true, Bool.not_eq_true'] at hh
          obtain ⟨⟨a, ha, hSa⟩, ⟨b, hb, hSb⟩⟩ := hh
          match L, ha, hb, hlen with
          | [x], ha, hb, _ =>
            rw [List.mem_singleton] at ha hb
            subst ha; subst hb
            rw [hSa] at hSb; cases hSb
          | x :: y :: t, _, _, hl => simp at hl
        rw [if_neg (fun hb => hnc (hL'.2 hb))]

end FNet
end Verif
