import Verif.Model.FlowNetwork
import Verif.Lemmas.DFlow1
/-! # Region around the cut of two blocks -/
namespace Verif
namespace FNet
open DFlow (set set_same set_other set_apply)

variable {g : Grow}

/-- the nodes popped so far and the nodes in the queues are different nodes of the two blocks -/
structure BInv (g : Grow) (P : List Nat) (x : Bfs) : Prop where
  nodup : (P ++ (x.queue ++ x.next)).Nodup
  vis : ∀ v ∈ P ++ (x.queue ++ x.next), x.vn v = true
  mem : ∀ v ∈ P ++ (x.queue ++ x.next), v ∈ g.H.nodes
  blk : ∀ v ∈ P ++ (x.queue ++ x.next), g.Φ v = some g.b0 ∨ g.Φ v = some g.b1

/-- the parts of the search state that adding pins does not change -/
def Frame (x y : Bfs) : Prop := y.queue = x.queue ∧ y.ch = x.ch ∧ y.locked = x.locked ∧ y.dist = x.dist

theorem addPin_spec {P : List Nat} {x : Bfs} (h : BInv g P x) {v : Nat} (hv : v ∈ g.H.nodes) : BInv g P (addPin g x v) ∧ Frame x (addPin g x v) := by
  unfold addPin
  by_cases hx : x.vn v = true
  · rw [if_pos hx]; exact ⟨h, rfl, rfl, rfl, rfl⟩
  · rw [if_neg hx]
    have hnew : v ∉ P ++ (x.queue ++ x.next) := fun hm => hx (h.vis v hm)
    simp only []
    by_cases hc : (decide (g.Φ v = some g.b0) && !x.locked g.b0 || decide (g.Φ v = some g.b1) && !x.locked g.b1) = true
    · rw [if_pos hc]
      refine ⟨⟨?_, ?_, ?_, ?_⟩, rfl, rfl, rfl, rfl⟩
      · simp only []
        rw [← List.append_assoc, ← List.append_assoc, List.append_assoc P, List.nodup_append]
        refine ⟨h.nodup, List.nodup_singleton v, fun a ha b hb => ?_⟩
        rw [List.mem_singleton] at hb
        subst hb
        exact fun hh => hnew (hh ▸ ha)
      · intro a ha
        simp only [List.mem_append, List.mem_singleton] at ha
        simp only [set_apply]
        split_ifs with hav
        · rfl
        · exact h.vis a (by simp only [List.mem_append]; tauto)
      · intro a ha
        simp only [List.mem_append, List.mem_singleton] at ha
        by_cases hav : a = v
        · subst hav; exact hv
        · exact h.mem a (by simp only [List.mem_append]; tauto)
      · intro a ha
        simp only [List.mem_append, List.mem_singleton] at ha
        by_cases hav : a = v
        · subst hav
          simp only [Bool.or_eq_true, Bool.and_eq_true, decide_eq_true_eq] at hc
          exact hc.imp And.left And.left
        · exact h.blk a (by simp only [List.mem_append]; tauto)
    · rw [if_neg hc]
      refine ⟨⟨h.nodup, fun a ha => ?_, h.mem, h.blk⟩, rfl, rfl, rfl, rfl⟩
      simp only [set_apply]
      split_ifs
      · rfl
      · exact h.vis a ha

theorem addPinList_spec {P : List Nat} (l : List Nat) : ∀ {x : Bfs}, BInv g P x → (∀ v ∈ l, v ∈ g.H.nodes) →
    BInv g P (l.foldl (addPin g) x) ∧ Frame x (l.foldl (addPin g) x) := by
  induction l with
  | nil => intro x h _; exact ⟨h, rfl, rfl, rfl, rfl⟩
  | cons v l ih =>
    intro x h hl
    obtain ⟨h1, f1⟩ := addPin_spec h (hl v (by simp))
    obtain ⟨h2, f2⟩ := ih h1 (fun a ha => hl a (by simp [ha]))
    exact ⟨h2, f2.1.trans f1.1, f2.2.1.trans f1.2.1, f2.2.2.1.trans f1.2.2.1, f2.2.2.2.trans f1.2.2.2⟩

theorem addPins_spec (hw : g.H.WF) {P : List Nat} {x : Bfs} (h : BInv g P x) {e : Nat} (he : e ∈ g.H.edges) : BInv g P (addPins g x e) ∧ Frame x (addPins g x e) := by
  have key : ∀ y : Bfs, BInv g P y → Frame x y →
      BInv g P (if y.q0 ≥ g.mw0 ∧ y.q1 ≥ g.mw1 then { y with lockQ := true } else y) ∧ Frame x (if y.q0 ≥ g.mw0 ∧ y.q1 ≥ g.mw1 then { y with lockQ := true } else y) := by
    intro y hy hf
    split_ifs
    · exact ⟨⟨hy.nodup, hy.vis, hy.mem, hy.blk⟩, hf⟩
    · exact ⟨hy, hf⟩
  unfold addPins
  apply key
  · split_ifs
    · obtain ⟨h1, _⟩ := addPinList_spec (g.H.pins e) h (hw.pins_mem e he)
      exact ⟨h1.nodup, h1.vis, h1.mem, h1.blk⟩
    · exact h
  · split_ifs
    · obtain ⟨_, h2⟩ := addPinList_spec (g.H.pins e) h (hw.pins_mem e he)
      exact h2
    · exact ⟨rfl, rfl, rfl, rfl⟩

theorem swapQueue_inv {P : List Nat} {x : Bfs} (h : BInv g P x) : BInv g P (swapQueue x) ∧ (swapQueue x).ch = x.ch ∧ (swapQueue x).locked = x.locked := by
  unfold swapQueue
  split_ifs
  · exact ⟨h, rfl, rfl⟩
  · have hp : (P ++ (x.next ++ x.queue)).Perm (P ++ (x.queue ++ x.next)) := List.Perm.append_left _ List.perm_append_comm
    exact ⟨⟨hp.nodup_iff.2 h.nodup, fun v hv => h.vis v (hp.mem_iff.1 hv), fun v hv => h.mem v (hp.mem_iff.1 hv), fun v hv => h.blk v (hp.mem_iff.1 hv)⟩, rfl, rfl⟩

/-- the region found so far -/
structure RgInv (g : Grow) (P : List Nat) (r : Region) (x : Bfs) : Prop where
  sub : ∀ v ∈ r.n0 ++ r.n1, v ∈ P ∧ g.fixed v = false
  b0 : ∀ v ∈ r.n0, g.Φ v = some g.b0
  b1 : ∀ v ∈ r.n1, g.Φ v = some g.b1
  nd0 : r.n0.Nodup
  nd1 : r.n1.Nodup
  w0 : r.w0 = (r.n0.map g.H.nw).sum
  w1 : r.w1 = (r.n1.map g.H.nw).sum
  hes : r.hes.Nodup
  ch : ∀ e, x.ch e = true ↔ e ∈ r.hes
  inc : ∀ e, e ∈ r.hes ↔ ∃ v ∈ r.n0 ++ r.n1, e ∈ g.H.inc v
  pins : r.numPins = ((r.n0 ++ r.n1).map (fun v => (g.H.inc v).length)).sum
  lim0 : ∀ l v t, r.n0 = l ++ v :: t → (l.map g.H.nw).sum < g.mw0
  lim1 : ∀ l v t, r.n1 = l ++ v :: t → (l.map g.H.nw).sum < g.mw1
  limP : r.numPins = 0 ∨ ∃ v ∈ r.n0 ++ r.n1, r.numPins < g.maxPins + (g.H.inc v).length

/-- the loop over the incident hyperedges -/
theorem visitEdges_spec (hw : g.H.WF) {P : List Nat} (fixed : Bool) (l : List Nat) : ∀ {r : Region} {x : Bfs}, BInv g P x → (∀ e ∈ l, e ∈ g.H.edges) →
    (∀ e, x.ch e = true ↔ e ∈ r.hes) → r.hes.Nodup →
    BInv g P (l.foldl (visitEdge g fixed) (r, x)).2 ∧ (l.foldl (visitEdge g fixed) (r, x)).2.queue = x.queue ∧ (l.foldl (visitEdge g fixed) (r, x)).2.locked = x.locked ∧
    (∀ e, (l.foldl (visitEdge g fixed) (r, x)).2.ch e = true ↔ e ∈ (l.foldl (visitEdge g fixed) (r, x)).1.hes) ∧
    (l.foldl (visitEdge g fixed) (r, x)).1.hes.Nodup ∧
    (∀ e, e ∈ (l.foldl (visitEdge g fixed) (r, x)).1.hes ↔ e ∈ r.hes ∨ (fixed = false ∧ e ∈ l)) ∧
    (l.foldl (visitEdge g fixed) (r, x)).1 = { r with hes := (l.foldl (visitEdge g fixed) (r, x)).1.hes } := by
  induction l with
  | nil => intro r x h _ hc hn; exact ⟨h, rfl, rfl, hc, hn, fun e => by simp, rfl⟩
  | cons e l ih =>
    intro r x h hl hc hn
    obtain ⟨h1, f1⟩ := addPins_spec hw h (hl e (by simp))
    rw [List.foldl_cons]
    by_cases hb : (!fixed && !(addPins g x e).ch e) = true
    · have e1 : visitEdge g fixed (r, x) e = ({ r with hes := r.hes ++ [e] }, { addPins g x e with ch := set (addPins g x e).ch e true }) := by
        unfold visitEdge; simp only []; rw [if_pos hb]
      rw [e1]
      simp only [Bool.and_eq_true, Bool.not_eq_true'] at hb
      have hnew : e ∉ r.hes := by
        rw [← hc e, ← f1.2.1, hb.2]; simp
      obtain ⟨a1, a2, a3, a4, a5, a6, a7⟩ := ih (r := { r with hes := r.hes ++ [e] }) (x := { addPins g x e with ch := set (addPins g x e).ch e true })
        ⟨h1.nodup, h1.vis, h1.mem, h1.blk⟩ (fun a ha => hl a (by simp [ha]))
        (by intro a; simp only [set_apply, f1.2.1, List.mem_append, List.mem_singleton]
            by_cases hae : a = e
            · simp [hae]
            · simp [hae, hc a])
        (by simp only [List.nodup_append, hn, List.nodup_singleton, true_and]
            intro a ha b hb; rw [List.mem_singleton] at hb; subst hb; exact fun hh => hnew (hh ▸ ha))
      refine ⟨a1, a2.trans f1.1, a3.trans f1.2.2.1, a4, a5, fun a => ?_, a7⟩
      rw [a6 a]
      simp only [List.mem_append, List.mem_cons, List.not_mem_nil, or_false, hb.1, true_and]
      tauto
    · have e1 : visitEdge g fixed (r, x) e = (r, addPins g x e) := by
        unfold visitEdge; simp only []; rw [if_neg hb]
      rw [e1]
      obtain ⟨a1, a2, a3, a4, a5, a6, a7⟩ := ih (r := r) (x := addPins g x e) h1 (fun a ha => hl a (by simp [ha])) (by rw [f1.2.1]; exact hc) hn
      refine ⟨a1, a2.trans f1.1, a3.trans f1.2.2.1, a4, a5, fun a => ?_, a7⟩
      rw [a6 a]
      simp only [List.mem_cons]
      constructor
      · rintro (h | ⟨h, h'⟩)
        · exact Or.inl h
        · exact Or.inr ⟨h, Or.inr h'⟩
      · rintro (h | ⟨h, rfl | h'⟩)
        · exact Or.inl h
        · left
          rw [← hc, ← f1.2.1]
          simp only [h, Bool.not_false, Bool.true_and, Bool.not_eq_true', Bool.not_eq_false] at hb
          exact hb
        · exact Or.inr ⟨h, h'⟩

theorem lim_snoc {l0 : List Nat} {w : Nat → Int} {b : Int} {hn : Nat} (h : ∀ l v t, l0 = l ++ v :: t → (l.map w).sum < b) (h0 : (l0.map w).sum < b) :
    ∀ l v t, l0 ++ [hn] = l ++ v :: t → (l.map w).sum < b := by
  intro l v t he
  rcases List.eq_nil_or_concat t with rfl | ⟨t', a, rfl⟩
  · have := (List.append_inj' he rfl).1
    rw [← this]; exact h0
  · have e2 : l0 ++ [hn] = (l ++ v :: t') ++ [a] := by simpa using he
    exact h l v t' (List.append_inj' e2 rfl).1

theorem visit_spec (hw : g.H.WF) (hne : g.b0 ≠ g.b1) {P : List Nat} {r : Region} {x : Bfs} {hn : Nat} (hB : BInv g (P ++ [hn]) x) (hR : RgInv g P r x)
    (hnP : hn ∉ P) (l0 : x.locked g.b0 = false → r.w0 < g.mw0) (l1 : x.locked g.b1 = false → r.w1 < g.mw1)
    (lp : r.numPins < g.maxPins ∨ (x.locked g.b0 = true ∧ x.locked g.b1 = true)) :
    BInv g (P ++ [hn]) (visit g r x hn).2 ∧ RgInv g (P ++ [hn]) (visit g r x hn).1 (visit g r x hn).2 := by
  have hnode : hn ∈ g.H.nodes := hB.mem hn (by simp)
  have hsubP : ∀ v ∈ r.n0 ++ r.n1, v ∈ P ++ [hn] ∧ g.fixed v = false := fun v hv => ⟨List.mem_append.2 (Or.inl (hR.sub v hv).1), (hR.sub v hv).2⟩
  have hsame : ∀ y : Bfs, y.ch = x.ch → RgInv g (P ++ [hn]) r y := fun y hy =>
    ⟨hsubP, hR.b0, hR.b1, hR.nd0, hR.nd1, hR.w0, hR.w1, hR.hes, by rw [hy]; exact hR.ch, hR.inc, hR.pins, hR.lim0, hR.lim1, hR.limP⟩
  have hie : ∀ e ∈ g.H.inc hn, e ∈ g.H.edges := fun e he => ((hw.inc_iff hn hnode e).1 he).1
  unfold visit
  split_ifs with hc hfix hz
  · obtain ⟨a1, a2, a3, a4, a5, a6, a7⟩ := visitEdges_spec hw (g.fixed hn) (g.H.inc hn) (r := r) (x := x) hB hie hR.ch hR.hes
    refine ⟨a1, ?_⟩
    rw [a7]
    have hh : ∀ e, e ∈ ((g.H.inc hn).foldl (visitEdge g (g.fixed hn)) (r, x)).1.hes ↔ e ∈ r.hes := fun e => by rw [a6, hfix]; simp
    exact ⟨hsubP, hR.b0, hR.b1, hR.nd0, hR.nd1, hR.w0, hR.w1, a5, a4, fun e => by rw [hh]; exact hR.inc e, hR.pins, hR.lim0, hR.lim1, hR.limP⟩
  · -- block 0
    have hlk : x.locked g.b0 = false := by
      simp only [hz, decide_true, Bool.true_and, Bool.or_eq_true, Bool.not_eq_true', Bool.and_eq_true, decide_eq_true_eq, Option.some.injEq] at hc
      rcases hc with h | ⟨h, _⟩
      · exact h
      · exact absurd h hne
    have hpn : r.numPins < g.maxPins := by
      rcases lp with h | ⟨h, _⟩
      · exact h
      · rw [hlk] at h; cases h
    obtain ⟨a1, a2, a3, a4, a5, a6, a7⟩ := visitEdges_spec hw (g.fixed hn) (g.H.inc hn)
      (r := { r with n0 := r.n0 ++ [hn], w0 := r.w0 + g.H.nw hn, numPins := r.numPins + (g.H.inc hn).length }) (x := x) hB hie hR.ch hR.hes
    refine ⟨a1, ?_⟩
    rw [a7]
    have hff : g.fixed hn = false := by simpa using hfix
    refine ⟨fun v hv => ?_, fun v hv => ?_, hR.b1, ?_, hR.nd1, ?_, hR.w1, a5, a4, fun e => ?_, ?_, ?_, hR.lim1, ?_⟩
    · simp only [List.mem_append, List.mem_singleton] at hv
      rcases hv with (hv | rfl) | hv
      · exact hsubP v (by simp [hv])
      · exact ⟨by simp, hff⟩
      · exact hsubP v (by simp [hv])
    · rcases List.mem_append.1 hv with hv | hv
      · exact hR.b0 v hv
      · rw [List.mem_singleton.1 hv]; exact hz
    · rw [List.nodup_append]
      refine ⟨hR.nd0, List.nodup_singleton _, fun a ha b hb => ?_⟩
      rw [List.mem_singleton] at hb
      subst hb
      exact fun hh => hnP (hh ▸ (hR.sub a (by simp [ha])).1)
    · simp [hR.w0]
    · rw [a6, hff]
      simp only [true_and]
      rw [hR.inc]
      constructor
      · rintro (⟨v, hv, he⟩ | he)
        · exact ⟨v, by simp only [List.mem_append] at hv ⊢; tauto, he⟩
        · exact ⟨hn, by simp, he⟩
      · rintro ⟨v, hv, he⟩
        simp only [List.mem_append, List.mem_singleton] at hv
        rcases hv with (hv | rfl) | hv
        · exact Or.inl ⟨v, by simp [hv], he⟩
        · exact Or.inr he
        · exact Or.inl ⟨v, by simp [hv], he⟩
    · simp only [hR.pins, List.map_append, List.sum_append, List.map_cons, List.map_nil, List.sum_cons, List.sum_nil]; omega
    · exact lim_snoc hR.lim0 (by rw [← hR.w0]; exact l0 hlk)
    · right
      exact ⟨hn, by simp, by simp only []; omega⟩
  · -- block 1
    have hz1 : g.Φ hn = some g.b1 := by
      rcases hB.blk hn (by simp) with h | h
      · exact absurd h hz
      · exact h
    have hlk : x.locked g.b1 = false := by
      simp only [hz, decide_false, Bool.false_and, Bool.false_or, Bool.and_eq_true, Bool.not_eq_true'] at hc
      exact hc.2
    have hpn : r.numPins < g.maxPins := by
      rcases lp with h | ⟨_, h⟩
      · exact h
      · rw [hlk] at h; cases h
    obtain ⟨a1, a2, a3, a4, a5, a6, a7⟩ := visitEdges_spec hw (g.fixed hn) (g.H.inc hn)
      (r := { r with n1 := r.n1 ++ [hn], w1 := r.w1 + g.H.nw hn, numPins := r.numPins + (g.H.inc hn).length }) (x := x) hB hie hR.ch hR.hes
    refine ⟨a1, ?_⟩
    rw [a7]
    have hff : g.fixed hn = false := by simpa using hfix
    refine ⟨fun v hv => ?_, hR.b0, fun v hv => ?_, hR.nd0, ?_, hR.w0, ?_, a5, a4, fun e => ?_, ?_, hR.lim0, ?_, ?_⟩
    · simp only [List.mem_append, List.mem_singleton] at hv
      rcases hv with hv | hv | rfl
      · exact hsubP v (by simp [hv])
      · exact hsubP v (by simp [hv])
      · exact ⟨by simp, hff⟩
    · rcases List.mem_append.1 hv with hv | hv
      · exact hR.b1 v hv
      · rw [List.mem_singleton.1 hv]; exact hz1
    · rw [List.nodup_append]
      refine ⟨hR.nd1, List.nodup_singleton _, fun a ha b hb => ?_⟩
      rw [List.mem_singleton] at hb
      subst hb
      exact fun hh => hnP (hh ▸ (hR.sub a (by simp [ha])).1)
    · simp [hR.w1]
    · rw [a6, hff]
      simp only [true_and]
      rw [hR.inc]
      constructor
      · rintro (⟨v, hv, he⟩ | he)
        · exact ⟨v, by simp only [List.mem_append] at hv ⊢; tauto, he⟩
        · exact ⟨hn, by simp, he⟩
      · rintro ⟨v, hv, he⟩
        simp only [List.mem_append, List.mem_singleton] at hv
        rcases hv with hv | hv | rfl
        · exact Or.inl ⟨v, by simp [hv], he⟩
        · exact Or.inl ⟨v, by simp [hv], he⟩
        · exact Or.inr he
    · simp only [hR.pins, List.map_append, List.sum_append, List.map_cons, List.map_nil, List.sum_cons, List.sum_nil]; omega
    · exact lim_snoc hR.lim1 (by rw [← hR.w1]; exact l1 hlk)
    · right
      exact ⟨hn, by simp, by simp only []; omega⟩
  · exact ⟨hB, hsame x rfl⟩

theorem lockBlocks_spec (hne : g.b0 ≠ g.b1) (r : Region) (x : Bfs) :
    ((lockBlocks g r x).locked g.b0 = false → r.w0 < g.mw0) ∧ ((lockBlocks g r x).locked g.b1 = false → r.w1 < g.mw1) ∧
    (r.numPins < g.maxPins ∨ ((lockBlocks g r x).locked g.b0 = true ∧ (lockBlocks g r x).locked g.b1 = true)) := by
  unfold lockBlocks
  simp only []
  refine ⟨fun h => ?_, fun h => ?_, ?_⟩
  · by_contra hh
    rw [if_pos (by omega : r.w0 ≥ g.mw0)] at h
    split_ifs at h <;> simp [set_apply, hne] at h
  · by_contra hh
    rw [if_pos (by omega : r.w1 ≥ g.mw1)] at h
    split_ifs at h <;> simp [set_apply] at h
  · by_cases hp : r.numPins ≥ g.maxPins
    · right
      rw [if_pos hp]
      simp [set_apply]
    · left; omega

theorem bfsLoop_spec (hw : g.H.WF) (hne : g.b0 ≠ g.b1) (f : Nat) : ∀ {P : List Nat} {r : Region} {x : Bfs}, BInv g P x → RgInv g P r x →
    g.H.nodes.length < P.length + f →
    ∃ r' x' P', bfsLoop g f r x = some (r', x') ∧ BInv g P' x' ∧ RgInv g P' r' x' := by
  induction f with
  | zero =>
    intro P r x hB _ hf
    have h1 : P.Nodup := (List.nodup_append.1 hB.nodup).1
    have h2 : P ⊆ g.H.nodes := fun v hv => hB.mem v (by simp [hv])
    have := (List.subperm_of_subset h1 h2).length_le
    omega
  | succ f ih =>
    intro P r x hB hR hf
    rw [bfsLoop]
    cases hq : x.queue with
    | nil => exact ⟨r, x, P, rfl, hB, hR⟩
    | cons hn q =>
      simp only []
      have hfr : ∀ a b : Bfs, a.queue = b.queue → a.next = b.next → a.vn = b.vn → BInv g P b → BInv g P a := by
        intro a b e1 e2 e3 h
        refine ⟨?_, ?_, ?_, ?_⟩
        · rw [e1, e2]; exact h.nodup
        · rw [e1, e2, e3]; exact h.vis
        · rw [e1, e2]; exact h.mem
        · rw [e1, e2]; exact h.blk
      have hBy : BInv g P (lockBlocks g r x) := hfr _ x rfl rfl rfl hB
      have hRy : RgInv g P r (lockBlocks g r x) := ⟨hR.sub, hR.b0, hR.b1, hR.nd0, hR.nd1, hR.w0, hR.w1, hR.hes, hR.ch, hR.inc, hR.pins, hR.lim0, hR.lim1, hR.limP⟩
      by_cases hl : ((lockBlocks g r x).locked g.b0 && (lockBlocks g r x).locked g.b1) = true
      · rw [if_pos hl]; exact ⟨r, _, P, rfl, hBy, hRy⟩
      · rw [if_neg hl]
        have e0 : P ++ (x.queue ++ x.next) = (P ++ [hn]) ++ (q ++ x.next) := by rw [hq]; simp
        have hB1 : BInv g (P ++ [hn]) { lockBlocks g r x with queue := q } := by
          refine ⟨?_, ?_, ?_, ?_⟩ <;> simp only []
          · have := hB.nodup; rw [e0] at this; exact this
          · intro v hv; exact hB.vis v (by rw [e0]; exact hv)
          · intro v hv; exact hB.mem v (by rw [e0]; exact hv)
          · intro v hv; exact hB.blk v (by rw [e0]; exact hv)
        have hnP : hn ∉ P := by
          intro hm
          have := hB.nodup
          rw [hq, List.nodup_append] at this
          exact this.2.2 hn hm hn (by simp) rfl
        have hR1 : RgInv g P r { lockBlocks g r x with queue := q } := ⟨hR.sub, hR.b0, hR.b1, hR.nd0, hR.nd1, hR.w0, hR.w1, hR.hes, hR.ch, hR.inc, hR.pins, hR.lim0, hR.lim1, hR.limP⟩
        obtain ⟨k1, k2, k3⟩ := lockBlocks_spec hne r x
        obtain ⟨v1, v2⟩ := visit_spec hw hne hB1 hR1 hnP k1 k2 k3
        have hlen : g.H.nodes.length < (P ++ [hn]).length + f := by simp; omega
        split_ifs with hz
        · obtain ⟨s1, s2, s3⟩ := swapQueue_inv v1
          refine ih s1 ?_ hlen
          exact ⟨v2.sub, v2.b0, v2.b1, v2.nd0, v2.nd1, v2.w0, v2.w1, v2.hes, by rw [s2]; exact v2.ch, v2.inc, v2.pins, v2.lim0, v2.lim1, v2.limP⟩
        · exact ih v1 v2 hlen

theorem bfsStart_spec (hw : g.H.WF) {cut : List Nat} (hc : ∀ e ∈ cut, e ∈ g.H.edges) : BInv g [] (bfsStart g cut) ∧ (bfsStart g cut).ch = fun _ => false := by
  have key : ∀ (l : List Nat) (x : Bfs), (∀ e ∈ l, e ∈ g.H.edges) → BInv g [] x → x.ch = (fun _ => false) →
      BInv g [] (l.foldl (fun x e => if 0 < g.H.pinsIn g.Φ e g.b0 ∧ 0 < g.H.pinsIn g.Φ e g.b1 then addPins g x e else x) x) ∧
      (l.foldl (fun x e => if 0 < g.H.pinsIn g.Φ e g.b0 ∧ 0 < g.H.pinsIn g.Φ e g.b1 then addPins g x e else x) x).ch = fun _ => false := by
    intro l
    induction l with
    | nil => intro x _ h1 h2; exact ⟨h1, h2⟩
    | cons e l ih =>
      intro x hl h1 h2
      rw [List.foldl_cons]
      split_ifs
      · obtain ⟨a1, a2⟩ := addPins_spec hw h1 (hl e (by simp))
        exact ih _ (fun a ha => hl a (by simp [ha])) a1 (a2.2.1.trans h2)
      · exact ih _ (fun a ha => hl a (by simp [ha])) h1 h2
  obtain ⟨k1, k2⟩ := key cut ⟨0, [], [], fun _ => false, fun _ => false, fun _ => false, fun _ => false, 0, 0, false⟩ hc
    ⟨by simp, by simp, by simp, by simp⟩ rfl
  obtain ⟨s1, s2, _⟩ := swapQueue_inv k1
  exact ⟨s1, s2.trans k2⟩

/-- the facts about the region used below -/
structure RegionOK (g : Grow) (r : Region) : Prop where
  nodup : (r.n0 ++ r.n1).Nodup
  mem : ∀ v ∈ r.n0 ++ r.n1, v ∈ g.H.nodes ∧ g.fixed v = false
  b0 : ∀ v ∈ r.n0, g.Φ v = some g.b0
  b1 : ∀ v ∈ r.n1, g.Φ v = some g.b1
  w0 : r.w0 = (r.n0.map g.H.nw).sum
  w1 : r.w1 = (r.n1.map g.H.nw).sum
  hes : r.hes.Nodup
  inc : ∀ e, e ∈ r.hes ↔ ∃ v ∈ r.n0 ++ r.n1, e ∈ g.H.inc v
  pins : r.numPins = ((r.n0 ++ r.n1).map (fun v => (g.H.inc v).length)).sum
  lim0 : ∀ l v t, r.n0 = l ++ v :: t → (l.map g.H.nw).sum < g.mw0
  lim1 : ∀ l v t, r.n1 = l ++ v :: t → (l.map g.H.nw).sum < g.mw1
  limP : r.numPins = 0 ∨ ∃ v ∈ r.n0 ++ r.n1, r.numPins < g.maxPins + (g.H.inc v).length

theorem construct_spec (hw : g.H.WF) (hne : g.b0 ≠ g.b1) {cut : List Nat} (hc : ∀ e ∈ cut, e ∈ g.H.edges) : ∃ r, construct g cut = some r ∧ RegionOK g r := by
  obtain ⟨s1, s2⟩ := bfsStart_spec hw hc
  obtain ⟨r, x, P, h1, h2, h3⟩ := bfsLoop_spec hw hne (g.H.nodes.length + 1) (P := []) (r := ⟨[], [], 0, 0, [], 0⟩) s1
    ⟨by simp, by simp, by simp, by simp, by simp, by simp, by simp, by simp, by rw [s2]; simp, by simp, by simp, by simp, by simp, by simp⟩ (by simp)
  refine ⟨r, by unfold construct; rw [h1]; rfl, ?_⟩
  refine ⟨?_, fun v hv => ⟨h2.mem v (by simp [(h3.sub v hv).1]), (h3.sub v hv).2⟩, h3.b0, h3.b1, h3.w0, h3.w1, h3.hes, h3.inc, h3.pins, h3.lim0, h3.lim1, h3.limP⟩
  rw [List.nodup_append]
  refine ⟨h3.nd0, h3.nd1, fun a ha b hb hh => ?_⟩
  subst hh
  have h0 := h3.b0 a ha
  rw [h3.b1 a hb] at h0
  exact hne (Option.some.inj h0).symm

end FNet
end Verif
