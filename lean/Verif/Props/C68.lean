import Verif.Model.LPIP
import Verif.Lemmas.Gain
import Verif.Lemmas.GainComp3
/-!
# C68: move selection of the label propagation initial partitioner

Specification: `HG.cut` of the (partial) assignment (Spec/Hypergraph.lean).
-/
namespace Verif
namespace LPIP

variable {H : HG} {Φ : Assign}

/-- blocks of the other pins -/
def rest (H : HG) (Φ : Assign) (e v : Nat) : Finset Nat := (((H.pins e).erase v).filterMap Φ).toFinset

theorem mem_rest (hw : H.WF) {e v : Nat} (he : e ∈ H.edges) {c : Nat} : c ∈ rest H Φ e v ↔ ∃ u ∈ H.pins e, u ≠ v ∧ Φ u = some c := by
  unfold rest
  rw [List.mem_toFinset, List.mem_filterMap]
  constructor
  · rintro ⟨u, hu, h⟩
    rw [(hw.pins_nodup e he).mem_erase_iff] at hu
    exact ⟨u, hu.2, hu.1, h⟩
  · rintro ⟨u, h1, h2, h3⟩
    exact ⟨u, ((hw.pins_nodup e he).mem_erase_iff).2 ⟨h2, h1⟩, h3⟩

theorem mem_blocks {e c : Nat} : c ∈ H.blocksOf Φ e ↔ ∃ u ∈ H.pins e, Φ u = some c := by
  unfold HG.blocksOf
  rw [List.mem_toFinset, List.mem_filterMap]

theorem blocks_put (hw : H.WF) {e v b : Nat} (he : e ∈ H.edges) (hv : v ∈ H.pins e) : H.blocksOf (Φ.put v b) e = insert b (rest H Φ e v) := by
  ext c
  rw [mem_blocks, Finset.mem_insert, mem_rest hw he]
  constructor
  · rintro ⟨u, hu, h⟩
    by_cases hc : u = v
    · subst hc; rw [Assign.put_same] at h; cases h; exact Or.inl rfl
    · rw [Assign.put_other _ hc] at h; exact Or.inr ⟨u, hu, hc, h⟩
  · rintro (rfl | ⟨u, hu, hc, h⟩)
    · exact ⟨v, hv, Assign.put_same _ _ _⟩
    · exact ⟨u, hu, by rw [Assign.put_other _ hc]; exact h⟩

theorem blocks_some (hw : H.WF) {e v a : Nat} (he : e ∈ H.edges) (hv : v ∈ H.pins e) (ha : Φ v = some a) : H.blocksOf Φ e = insert a (rest H Φ e v) := by
  have : Φ.put v a = Φ := by
    funext u
    by_cases hu : u = v
    · subst hu; rw [Assign.put_same, ha]
    · rw [Assign.put_other _ hu]
  rw [← blocks_put hw he hv, this]

theorem blocks_none (hw : H.WF) {e v : Nat} (he : e ∈ H.edges) (ha : Φ v = none) : H.blocksOf Φ e = rest H Φ e v := by
  ext c
  rw [mem_blocks, mem_rest hw he]
  constructor
  · rintro ⟨u, hu, h⟩
    refine ⟨u, hu, ?_, h⟩
    rintro rfl; rw [ha] at h; cases h
  · rintro ⟨u, hu, _, h⟩; exact ⟨u, hu, h⟩

theorem pins_src (hw : H.WF) {e v a : Nat} (he : e ∈ H.edges) (hv : v ∈ H.pins e) (ha : Φ v = some a) :
    (a ∈ rest H Φ e v ↔ H.pinsIn Φ e a > 1) ∧ 0 < H.pinsIn Φ e a := by
  have hp := (List.perm_cons_erase hv).countP_eq (fun u => Φ u = some a)
  unfold HG.pinsIn
  rw [hp, List.countP_cons, if_pos (by simpa using ha)]
  refine ⟨?_, Nat.succ_pos _⟩
  rw [gt_iff_lt, Nat.lt_add_left_iff_pos, List.countP_pos_iff]
  unfold rest
  rw [List.mem_toFinset, List.mem_filterMap]
  simp

/-- contribution of a hyperedge to the cut -/
def cutTerm (H : HG) (Φ : Assign) (e : Nat) : Int := if H.lam Φ e > 1 then H.ew e else 0

/-- gain for block `b` contributed by one hyperedge in the scan -/
def contrib (H : HG) (Φ : Assign) (src : Option Nat) (b e : Nat) : Int :=
  match src with
  | none => if H.lam Φ e = 1 then (if b ∈ H.blocksOf Φ e then H.ew e else 0) - H.ew e else 0
  | some a => if H.lam Φ e = 1 ∧ H.pinsIn Φ e a > 1 then - H.ew e
      else if H.lam Φ e = 2 then (if b ∈ H.blocksOf Φ e ∧ H.pinsIn Φ e a = 1 ∧ H.pinsIn Φ e b > 0 then H.ew e else 0) else 0

theorem card_insert' (R : Finset Nat) (b : Nat) : (insert b R).card = if b ∈ R then R.card else R.card + 1 := Finset.card_insert_eq_ite

theorem contrib_eq (hw : H.WF) {e v b : Nat} (he : e ∈ H.edges) (hv : v ∈ H.pins e) (hb : Φ v ≠ some b) :
    contrib H Φ (Φ v) b e = cutTerm H Φ e - cutTerm H (Φ.put v b) e := by
  have h2 : H.lam (Φ.put v b) e = (insert b (rest H Φ e v)).card := by unfold HG.lam; rw [blocks_put hw he hv]
  rw [card_insert'] at h2
  cases ha : Φ v with
  | none =>
    have h1 : H.lam Φ e = (rest H Φ e v).card := by unfold HG.lam; rw [blocks_none hw he ha]
    have hm : b ∈ H.blocksOf Φ e ↔ b ∈ rest H Φ e v := by rw [blocks_none hw he ha]
    unfold contrib cutTerm
    dsimp only
    rw [h1, h2]
    simp only [hm]
    generalize (rest H Φ e v) = R
    by_cases hR : b ∈ R
    · have : 0 < R.card := Finset.card_pos.2 ⟨b, hR⟩
      simp only [hR, if_true]
      split <;> omega
    · simp only [hR, if_false]
      by_cases h1 : R.card = 1
      · simp [h1]
      · rw [if_neg h1]
        by_cases h0 : R.card > 1
        · rw [if_pos h0, if_pos (by omega)]; omega
        · rw [if_neg h0, if_neg (by omega)]; omega
  | some a =>
    have hab : a ≠ b := fun h => hb (by rw [ha, h])
    have h1 : H.lam Φ e = (insert a (rest H Φ e v)).card := by unfold HG.lam; rw [blocks_some hw he hv ha]
    rw [card_insert'] at h1
    obtain ⟨p1, p2⟩ := pins_src hw he hv ha
    have hm : b ∈ H.blocksOf Φ e ↔ b ∈ rest H Φ e v := by
      rw [blocks_some hw he hv ha, Finset.mem_insert]
      exact ⟨fun h => h.resolve_left (Ne.symm hab), Or.inr⟩
    have hpos : b ∈ H.blocksOf Φ e ↔ H.pinsIn Φ e b > 0 := HG.mem_blocksOf
    have hpair : a ∈ rest H Φ e v → b ∈ rest H Φ e v → 2 ≤ (rest H Φ e v).card := by
      intro x y
      have : ({a, b} : Finset Nat) ⊆ rest H Φ e v := by
        intro z hz
        rcases Finset.mem_insert.1 hz with rfl | hz
        · exact x
        · rw [Finset.mem_singleton.1 hz]; exact y
      have h := Finset.card_le_card this
      rwa [Finset.card_pair hab] at h
    unfold contrib cutTerm
    dsimp only
    have p3 : H.pinsIn Φ e a = 1 ↔ a ∉ rest H Φ e v := by rw [p1]; omega
    simp only [← hpos, hm, p3, ← p1, h1, h2]
    clear hm hpos p1 p2 p3 h1 h2
    revert hpair
    generalize (rest H Φ e v) = R
    intro hpair
    have ca : a ∈ R → 0 < R.card := fun h => Finset.card_pos.2 ⟨a, h⟩
    have cb : b ∈ R → 0 < R.card := fun h => Finset.card_pos.2 ⟨b, h⟩
    by_cases xa : a ∈ R <;> by_cases xb : b ∈ R <;>
      simp only [xa, xb, if_true, if_false, not_true, not_false_iff, and_true, true_and, false_and, and_false] <;>
      simp only [xa, xb, forall_true_left] at ca cb hpair <;>
      repeat' split <;> omega


/-- a hyperedge that makes its blocks valid -/
def marks (H : HG) (Φ : Assign) (src : Option Nat) (e : Nat) : Prop :=
  match src with
  | none => True
  | some a => ¬ (H.lam Φ e = 1 ∧ H.pinsIn Φ e a > 1)

def edge (H : HG) (Φ : Assign) (src : Option Nat) (a : Acc) (e : Nat) : Acc :=
  match src with
  | none => edgeU H Φ a e
  | some x => edgeA H Φ x a e

theorem edge_spec (src : Option Nat) (a : Acc) (e b : Nat) :
    (edge H Φ src a e).score b - (edge H Φ src a e).internal = a.score b - a.internal + contrib H Φ src b e ∧
    ((edge H Φ src a e).valid b = true ↔ a.valid b = true ∨ (marks H Φ src e ∧ b ∈ H.blocksOf Φ e)) := by
  cases src with
  | none =>
    unfold edge edgeU contrib marks mark addScore
    dsimp only
    by_cases h : H.lam Φ e = 1 <;> by_cases hb : b ∈ H.blocksOf Φ e <;> simp [h, hb] <;> omega
  | some x =>
    unfold edge edgeA contrib marks mark addScore
    dsimp only
    by_cases h : H.lam Φ e = 1 ∧ H.pinsIn Φ e x > 1
    · rw [if_pos h, if_pos h]
      constructor
      · dsimp only; omega
      · dsimp only; constructor
        · exact Or.inl
        · rintro (h' | h')
          · exact h'
          · exact absurd h h'.1
    · rw [if_neg h, if_neg h]
      by_cases h2 : H.lam Φ e = 2
      · rw [if_pos h2, if_pos h2]
        dsimp only
        constructor
        · simp only [Bool.and_eq_true, decide_eq_true_iff]
          split <;> omega
        · by_cases hb : b ∈ H.blocksOf Φ e <;> simp only [hb, h, if_true, if_false, not_false_iff, and_true, and_false, or_true, or_false]
      · rw [if_neg h2, if_neg h2]
        dsimp only
        constructor
        · omega
        · by_cases hb : b ∈ H.blocksOf Φ e <;> simp only [hb, h, if_true, if_false, not_false_iff, and_true, and_false, or_true, or_false]

theorem scan_fold (src : Option Nat) (b : Nat) : ∀ (l : List Nat) (a : Acc),
    (l.foldl (edge H Φ src) a).score b - (l.foldl (edge H Φ src) a).internal = a.score b - a.internal + (l.map (contrib H Φ src b)).sum ∧
    ((l.foldl (edge H Φ src) a).valid b = true ↔ a.valid b = true ∨ ∃ e ∈ l, marks H Φ src e ∧ b ∈ H.blocksOf Φ e) := by
  intro l
  induction l with
  | nil => intro a; simp
  | cons e l ih =>
    intro a
    obtain ⟨i1, i2⟩ := ih (edge H Φ src a e)
    obtain ⟨e1, e2⟩ := edge_spec (H := H) (Φ := Φ) src a e b
    rw [List.foldl_cons, List.map_cons, List.sum_cons]
    refine ⟨by omega, ?_⟩
    rw [i2, e2, or_assoc, List.exists_mem_cons_iff]

theorem scan_eq (v : Nat) : scan H Φ v = (H.inc v).foldl (edge H Φ (Φ v)) Acc.empty := by
  unfold scan
  cases Φ v <;> rfl

/-- `v` has an incident hyperedge with a pin in block `c` -/
def Adjacent (H : HG) (Φ : Assign) (v c : Nat) : Prop := ∃ e ∈ H.inc v, ∃ u ∈ H.pins e, Φ u = some c

theorem scan_spec (hw : H.WF) {v b : Nat} (hv : v ∈ H.nodes) (hb : Φ v ≠ some b) :
    (scan H Φ v).score b - (scan H Φ v).internal = H.cut Φ - H.cut (Φ.put v b) ∧ ((scan H Φ v).valid b = true ↔ Adjacent H Φ v b) := by
  rw [scan_eq]
  obtain ⟨h1, h2⟩ := scan_fold (H := H) (Φ := Φ) (Φ v) b (H.inc v) Acc.empty
  constructor
  · rw [h1]
    have hs := GainComp.sum_change hw hv (f := cutTerm H Φ) (g := cutTerm H (Φ.put v b)) (by
      intro e _ hne
      unfold cutTerm
      rw [HG.lam_congr (Ψ := Φ.put v b)]
      intro u hu
      rw [Assign.put_other]
      rintro rfl; exact hne hu)
    have hc : ∀ Ψ : Assign, H.cut Ψ = (H.edges.map (cutTerm H Ψ)).sum := fun Ψ => rfl
    rw [hc, hc, hs]
    have : (H.inc v).map (contrib H Φ (Φ v) b) = (H.inc v).map (fun e => cutTerm H Φ e - cutTerm H (Φ.put v b) e) := by
      apply List.map_congr_left
      intro e he
      obtain ⟨m1, m2⟩ := (hw.inc_iff v hv e).1 he
      exact contrib_eq hw m1 m2 hb
    rw [this]
    show (0 : Int) - 0 + _ = _
    omega
  · rw [h2]
    unfold Adjacent
    constructor
    · rintro (h | ⟨e, he, _, h⟩)
      · cases h
      · exact ⟨e, he, mem_blocks.1 h⟩
    · rintro ⟨e, he, h⟩
      refine Or.inr ⟨e, he, ?_, mem_blocks.2 h⟩
      obtain ⟨m1, m2⟩ := (hw.inc_iff v hv e).1 he
      unfold marks
      cases ha : Φ v with
      | none => trivial
      | some a =>
        rintro ⟨hl, hp⟩
        have hmem : b ∈ H.blocksOf Φ e := mem_blocks.2 h
        have hmem' : a ∈ H.blocksOf Φ e := mem_blocks.2 ⟨v, m2, ha⟩
        have : H.blocksOf Φ e = {a} := by
          obtain ⟨x, hx⟩ := Finset.card_eq_one.1 hl
          rw [hx, Finset.mem_singleton] at hmem'
          rw [hx, hmem']
        rw [this, Finset.mem_singleton] at hmem
        exact hb (by rw [ha, hmem])

theorem findMax_spec (fits : Nat → Bool) (src : Option Nat) (a : Acc) : ∀ (l : List Nat) (best : Option Nat × Option Int),
    let r := l.foldl (tryBlock fits src a) best
    (r = best ∨ ∃ c ∈ l, r = (some c, some (a.score c - a.internal)) ∧ fits c = true ∧ a.valid c = true ∧ src ≠ some c) ∧
    (∀ s, best.2 = some s → ∃ t, r.2 = some t ∧ s ≤ t ∧ (r ≠ best → s < t)) ∧
    (∀ c ∈ l, fits c = true → a.valid c = true → src ≠ some c → ∃ t, r.2 = some t ∧ a.score c - a.internal ≤ t) := by
  intro l
  induction l with
  | nil => intro best; exact ⟨Or.inl rfl, fun s hs => ⟨s, hs, Int.le_refl _, fun h => absurd rfl h⟩, fun c hc => (by cases hc)⟩
  | cons x l ih =>
    intro best
    dsimp only
    rw [List.foldl_cons]
    by_cases hx : (src ≠ some x ∧ a.valid x = true) ∧ (fits x = true ∧ better (a.score x - a.internal) best.2 = true)
    · have e : tryBlock fits src a best x = (some x, some (a.score x - a.internal)) := by unfold tryBlock; rw [if_pos hx.1, if_pos hx.2]
      rw [e]
      obtain ⟨i1, i2, i3⟩ := ih (some x, some (a.score x - a.internal))
      obtain ⟨t, t1, t2, _⟩ := i2 _ rfl
      refine ⟨?_, ?_, ?_⟩
      · rcases i1 with i1 | ⟨c, hc, i1⟩
        · exact Or.inr ⟨x, List.mem_cons_self, i1, hx.2.1, hx.1.2, hx.1.1⟩
        · exact Or.inr ⟨c, List.mem_cons_of_mem _ hc, i1⟩
      · intro s hs
        have hb := hx.2.2
        rw [hs] at hb
        have : a.score x - a.internal > s := of_decide_eq_true hb
        exact ⟨t, t1, by omega, fun _ => by omega⟩
      · intro c hc hf hv hsrc
        rcases List.mem_cons.1 hc with rfl | hc
        · exact ⟨t, t1, t2⟩
        · exact i3 c hc hf hv hsrc
    · have e : tryBlock fits src a best x = best := by
        unfold tryBlock
        by_cases h1 : src ≠ some x ∧ a.valid x = true
        · rw [if_pos h1, if_neg (fun h2 => hx ⟨h1, h2⟩)]
        · rw [if_neg h1]
      rw [e]
      obtain ⟨i1, i2, i3⟩ := ih best
      refine ⟨?_, i2, ?_⟩
      · rcases i1 with i1 | ⟨c, hc, i1⟩
        · exact Or.inl i1
        · exact Or.inr ⟨c, List.mem_cons_of_mem _ hc, i1⟩
      · intro c hc hf hv hsrc
        rcases List.mem_cons.1 hc with rfl | hc
        · cases hb : best.2 with
          | none => exact absurd ⟨⟨hsrc, hv⟩, hf, by rw [hb]; rfl⟩ hx
          | some s =>
            obtain ⟨t, t1, t2, _⟩ := i2 s hb
            refine ⟨t, t1, ?_⟩
            by_contra hlt
            exact hx ⟨⟨hsrc, hv⟩, hf, by rw [hb]; exact decide_eq_true (by omega)⟩
        · exact i3 c hc hf hv hsrc

/-- **C68**. For a node with or without a block in any partial partition: the result is the node's current block (or none), or a different block that it fits into and
that is adjacent to it; then the score is exactly the decrease of the cut, and positive if the node had a block. No fitting adjacent block is better. -/
theorem C68_move (hw : H.WF) {v : Nat} (hv : v ∈ H.nodes) (k : Nat) (fits : Nat → Bool) :
    let r := computeMaxGainMove H Φ k fits v
    (r.1 = Φ v ∨ ∃ b < k, r.1 = some b ∧ Φ v ≠ some b ∧ fits b = true ∧ Adjacent H Φ v b ∧ r.2 = some (H.cut Φ - H.cut (Φ.put v b)) ∧
      (Φ v ≠ none → H.cut (Φ.put v b) < H.cut Φ)) ∧
    (∀ c < k, fits c = true → Adjacent H Φ v c → ∃ b, r.1 = some b ∧ H.cut (Φ.put v b) ≤ H.cut (Φ.put v c)) := by
  intro r
  obtain ⟨f1, f2, f3⟩ := findMax_spec fits (Φ v) (scan H Φ v) (List.range k) (Φ v, if Φ v = none then none else some 0)
  have hr : r = (List.range k).foldl (tryBlock fits (Φ v) (scan H Φ v)) (Φ v, if Φ v = none then none else some 0) := rfl
  rw [← hr] at f1 f2 f3
  have hself : ∀ a, Φ v = some a → Φ.put v a = Φ := by
    intro a ha
    funext u
    by_cases hu : u = v
    · subst hu; rw [Assign.put_same, ha]
    · rw [Assign.put_other _ hu]
  rcases f1 with f1 | ⟨b, hb, f1, hf, hva, hs⟩
  · refine ⟨Or.inl (by rw [f1]), ?_⟩
    intro c hc hfc hac
    cases ha : Φ v with
    | none =>
      have hne : Φ v ≠ some c := by rw [ha]; simp
      obtain ⟨t, t1, _⟩ := f3 c (List.mem_range.2 hc) hfc ((scan_spec hw hv hne).2.2 hac) hne
      rw [f1, ha] at t1
      cases t1
    | some a =>
      refine ⟨a, by rw [f1, ha], ?_⟩
      rw [hself a ha]
      by_cases hca : a = c
      · rw [← hca, hself a ha]
      · have hne : Φ v ≠ some c := by rw [ha]; simpa using hca
        obtain ⟨g1, g2⟩ := scan_spec hw hv hne
        obtain ⟨t, t1, t2⟩ := f3 c (List.mem_range.2 hc) hfc (g2.2 hac) hne
        rw [f1, ha] at t1
        have : (0 : Int) = t := Option.some.inj t1
        omega
  · obtain ⟨g1, g2⟩ := scan_spec hw hv hs
    have hpos : Φ v ≠ none → H.cut (Φ.put v b) < H.cut Φ := by
      intro hn
      obtain ⟨t, t1, _, t3⟩ := f2 0 (by dsimp only; rw [if_neg hn])
      have hne : r ≠ (Φ v, if Φ v = none then none else some 0) := by
        intro he
        apply hs
        have := congrArg Prod.fst he
        rw [f1] at this
        exact this.symm
      have h3 := t3 hne
      rw [f1] at t1
      have : (scan H Φ v).score b - (scan H Φ v).internal = t := Option.some.inj t1
      omega
    refine ⟨Or.inr ⟨b, List.mem_range.1 hb, by rw [f1], hs, hf, g2.1 hva, by rw [f1, g1], hpos⟩, ?_⟩
    intro c hc hfc hac
    refine ⟨b, by rw [f1], ?_⟩
    by_cases hne : Φ v = some c
    · rw [hself c hne]
      have := hpos (by rw [hne]; simp)
      omega
    · obtain ⟨q1, q2⟩ := scan_spec hw hv hne
      obtain ⟨t, t1, t2⟩ := f3 c (List.mem_range.2 hc) hfc (q2.2 hac) hne
      rw [f1] at t1
      have : (scan H Φ v).score b - (scan H Φ v).internal = t := Option.some.inj t1
      omega

/-- concrete case: three hyperedges on four nodes; node 1 is in block 0, its only cut hyperedge `{1, 2, 3}` disappears when it moves to block 1, where its neighbours
2 and 3 are; the unassigned node 0 of the second assignment goes to the block of node 1 -/
def exH : HG where
  nodes := [0, 1, 2, 3]
  edges := [0, 1, 2]
  pins := fun e => if e = 0 then [0, 1] else if e = 1 then [1, 2, 3] else if e = 2 then [2, 3] else []
  inc := fun v => if v = 0 then [0] else if v = 1 then [0, 1] else if v = 2 then [1, 2] else if v = 3 then [1, 2] else []
  nw := fun _ => 1
  ew := fun e => e + 1

example : computeMaxGainMove exH (fun v => if v = 0 ∨ v = 1 then some 0 else some 1) 2 (fun _ => true) 1 = (some 1, some 1) ∧
    computeMaxGainMove exH (fun v => if v = 0 then none else if v = 1 then some 0 else some 1) 2 (fun _ => true) 0 = (some 0, some 0) := by decide +kernel

end LPIP
end Verif
