import Verif.Model.FlatIP
import Verif.Spec.Placement
import Verif.Lemmas.Hypergraph
/-!
# C67: flat initial partitioners

Specification: `Placed` (Spec/Placement.lean).
-/
namespace Verif
namespace FlatIP

variable {C : Ctx}

/-- the input: a well-formed hypergraph, at least one block, the fixed vertices are nodes and fixed to one of the `k` blocks -/
structure Ctx.OK (C : Ctx) : Prop where
  wf : C.H.WF
  k_pos : 0 < C.k
  fix_nodup : C.fixedNodes.Nodup
  fix_mem : ∀ v ∈ C.fixedNodes, v ∈ C.H.nodes
  fix_block : ∀ v ∈ C.fixedNodes, C.fixedBlock v < C.k

/-- the assignment of the fixed vertices -/
def Ctx.fixedAssign (C : Ctx) : Assign := fun v => if v ∈ C.fixedNodes then some (C.fixedBlock v) else none

theorem Placed.append {H : HG} {k : Nat} {bound : Nat → Int} {Φ Ψ Χ : Assign} {t t' : List (Nat × Nat)} (h : Placed H k bound Φ t Ψ) (h' : Placed H k bound Ψ t' Χ) :
    Placed H k bound Φ (t ++ t') Χ := by
  induction h with
  | nil Φ => exact h'
  | cons hv hf hb hfit _ ih => exact Placed.cons hv hf hb hfit (ih h')

/-- a placed node stays where it is -/
theorem Placed.mono {H : HG} {k : Nat} {bound : Nat → Int} {Φ Ψ : Assign} {t : List (Nat × Nat)} (h : Placed H k bound Φ t Ψ) {v b : Nat} (hv : Φ v = some b) :
    Ψ v = some b := by
  induction h with
  | nil Φ => exact hv
  | cons _ hf _ _ _ ih =>
    refine ih ?_
    rw [Assign.put_other]
    · exact hv
    · rintro rfl; rw [hf] at hv; cases hv

/-- the nodes of the trace are distinct, unassigned before, and end in the block given by the trace -/
theorem Placed.trace {H : HG} {k : Nat} {bound : Nat → Int} {Φ Ψ : Assign} {t : List (Nat × Nat)} (h : Placed H k bound Φ t Ψ) :
    (t.map Prod.fst).Nodup ∧ (∀ x ∈ t, Φ x.1 = none ∧ Ψ x.1 = some x.2 ∧ x.2 < k ∧ x.1 ∈ H.nodes) ∧
      (∀ v, v ∉ t.map Prod.fst → Ψ v = Φ v) := by
  induction h with
  | nil Φ => exact ⟨List.nodup_nil, fun x hx => (by cases hx), fun _ _ => rfl⟩
  | @cons Φ Ψ v b tr hv hf hb hfit h ih =>
    obtain ⟨i1, i2, i3⟩ := ih
    refine ⟨?_, ?_, ?_⟩
    · rw [List.map_cons, List.nodup_cons]
      refine ⟨fun hm => ?_, i1⟩
      obtain ⟨x, hx, hxe⟩ := List.mem_map.1 hm
      have := (i2 x hx).1
      rw [hxe, Assign.put_same] at this
      cases this
    · intro x hx
      rcases List.mem_cons.1 hx with rfl | hx
      · exact ⟨hf, Placed.mono h (by rw [Assign.put_same]), hb, hv⟩
      · obtain ⟨a1, a2, a3, a4⟩ := i2 x hx
        refine ⟨?_, a2, a3, a4⟩
        by_cases he : x.1 = v
        · rw [he]; exact hf
        · rwa [Assign.put_other _ he] at a1
    · intro u hu
      rw [List.map_cons, List.mem_cons, not_or] at hu
      rw [i3 u hu.2, Assign.put_other _ hu.1]

/-! ### Partition invariant -/

/-- block weights are those of the assignment -/
def POK (C : Ctx) (p : Part) : Prop := ∀ c, p.wt c = C.H.blockWeight p.part c

theorem POK.set (hC : C.OK) {p : Part} (h : POK C p) {v b : Nat} (hv : v ∈ C.H.nodes) (hf : p.part v = none) : POK C (setNodePart C p v b) := by
  intro c
  show (if c = b then p.wt c + C.H.nw v else p.wt c) = C.H.blockWeight (p.part.put v b) c
  rw [HG.blockWeight_put hC.wf.nodes_nodup hv, hf, h c]
  by_cases hc : c = b <;> simp [hc]

theorem fits_iff {p : Part} (h : POK C p) (v b : Nat) : fits C p v b = true ↔ C.H.blockWeight p.part b + C.H.nw v ≤ C.bound b := by
  unfold fits; rw [decide_eq_true_iff, h b]

theorem fits_iff_not {p : Part} (h : POK C p) (v b : Nat) : fits C p v b = false ↔ C.bound b < C.H.blockWeight p.part b + C.H.nw v := by
  rw [← Bool.not_eq_true, fits_iff h]; omega

theorem POK.empty : POK C Part.empty := by
  intro c
  show (0 : Int) = C.H.blockWeight (fun _ => none) c
  unfold HG.blockWeight
  simp

theorem preassign_aux (hC : C.OK) : ∀ (l : List Nat) (p : Part), l.Nodup → (∀ v ∈ l, v ∈ C.H.nodes) → (∀ v ∈ l, p.part v = none) → POK C p →
    POK C (l.foldl (fun p v => setNodePart C p v (C.fixedBlock v)) p) ∧
    (l.foldl (fun p v => setNodePart C p v (C.fixedBlock v)) p).part = fun v => if v ∈ l then some (C.fixedBlock v) else p.part v := by
  intro l
  induction l with
  | nil => intro p _ _ _ h; exact ⟨h, by funext v; simp⟩
  | cons a l ih =>
    intro p hn hm hf h
    rw [List.nodup_cons] at hn
    rw [List.foldl_cons]
    have := ih (setNodePart C p a (C.fixedBlock a)) hn.2 (fun v hv => hm v (List.mem_cons_of_mem _ hv)) (by
      intro v hv
      show p.part.put a _ v = none
      rw [Assign.put_other]
      · exact hf v (List.mem_cons_of_mem _ hv)
      · rintro rfl; exact hn.1 hv) (h.set hC (hm a List.mem_cons_self) (hf a List.mem_cons_self))
    refine ⟨this.1, ?_⟩
    rw [this.2]
    funext v
    by_cases hv : v ∈ l
    · simp [hv]
    · by_cases hva : v = a
      · subst hva
        simp only [hv, if_false, List.mem_cons, true_or, if_true]
        exact Assign.put_same _ _ _
      · simp only [hv, if_false, List.mem_cons, hva, or_self]
        exact Assign.put_other _ hva

theorem preassign_ok (hC : C.OK) : POK C (preassign C Part.empty) ∧ (preassign C Part.empty).part = C.fixedAssign := by
  have := preassign_aux hC C.fixedNodes Part.empty hC.fix_nodup hC.fix_mem (fun _ _ => rfl) POK.empty
  exact this

/-! ### Random -/

theorem search_spec (hC : C.OK) {p : Part} {v block : Nat} (hb : block < C.k) {cur r : Nat} (h : RSearch C p v block cur r) :
    ∀ i, cur = (block + i) % C.k → (∀ j < i, fits C p v ((block + j) % C.k) = false) → i < C.k →
      r < C.k ∧ (fits C p v r = true ∨ (r = block ∧ ∀ c < C.k, fits C p v c = false)) := by
  induction h with
  | fit h => intro i hi _ _; exact ⟨hi ▸ Nat.mod_lt _ hC.k_pos, Or.inl h⟩
  | @wrap cur h hw =>
    intro i hi hj hik
    refine ⟨hb, Or.inr ⟨rfl, ?_⟩⟩
    have hall : ∀ j < i + 1, fits C p v ((block + j) % C.k) = false := by
      intro j hji
      by_cases e : j = i
      · rw [e, ← hi]; exact h
      · exact hj j (by omega)
    have hlast : i + 1 = C.k := by
      have e1 : (block + (i + 1)) % C.k = block := by
        rw [hi, Nat.mod_add_mod, Nat.add_assoc] at hw
        exact hw
      by_contra hne
      have hlt : i + 1 < C.k := by omega
      by_cases hs : block + (i + 1) < C.k
      · rw [Nat.mod_eq_of_lt hs] at e1; omega
      · rw [Nat.mod_eq_sub_mod (by omega), Nat.mod_eq_of_lt (by omega)] at e1; omega
    intro c hc
    by_cases hcb : block ≤ c
    · have := hall (c - block) (by omega)
      rwa [show block + (c - block) = c by omega, Nat.mod_eq_of_lt hc] at this
    · have := hall (c + C.k - block) (by omega)
      rwa [show block + (c + C.k - block) = c + C.k by omega, Nat.add_mod_right, Nat.mod_eq_of_lt hc] at this
  | @next cur r h hw _ ih =>
    intro i hi hj hik
    have hlt : i + 1 < C.k := by
      by_contra hne
      apply hw
      rw [hi, Nat.mod_add_mod, show block + i + 1 = block + C.k by omega, Nat.add_mod_right, Nat.mod_eq_of_lt hb]
    refine ih (i + 1) ?_ ?_ hlt
    · rw [hi, Nat.mod_add_mod, Nat.add_assoc]
    · intro j hji
      by_cases e : j = i
      · rw [e, ← hi]; exact h
      · exact hj j (by omega)

theorem search_exists (hC : C.OK) {p : Part} {v block : Nat} (hb : block < C.k) : ∀ (n i : Nat), n + i = C.k → 0 < n →
    ∃ r, RSearch C p v block ((block + i) % C.k) r := by
  intro n
  induction n with
  | zero => intro i _ h; omega
  | succ n ih =>
    intro i hi _
    cases hf : fits C p v ((block + i) % C.k) with
    | true => exact ⟨_, RSearch.fit hf⟩
    | false =>
      by_cases hw : ((block + i) % C.k + 1) % C.k = block
      · exact ⟨_, RSearch.wrap hf hw⟩
      · have hn : 0 < n := by
          by_contra hn0
          apply hw
          rw [Nat.mod_add_mod, show block + i + 1 = block + C.k by omega, Nat.add_mod_right, Nat.mod_eq_of_lt hb]
        obtain ⟨r, hr⟩ := ih (i + 1) (by omega) hn
        refine ⟨r, RSearch.next hf hw ?_⟩
        rwa [Nat.mod_add_mod]

theorem rloop_spec (hC : C.OK) {l : List Nat} {p q : Part} (h : RLoop C l p q) : POK C p → (∀ v ∈ l, v ∈ C.H.nodes) → l.Nodup →
    (∀ v ∈ l, v ∉ C.fixedNodes → p.part v = none) → ∃ tr, Placed C.H C.k C.bound p.part tr q.part ∧
      tr.map Prod.fst = l.filter (fun v => decide (v ∉ C.fixedNodes)) ∧ POK C q := by
  induction h with
  | nil p => intro hp _ _ _; exact ⟨[], Placed.nil _, rfl, hp⟩
  | fixed h _ ih =>
    intro hp hm hn hf
    obtain ⟨tr, h1, h2, h3⟩ := ih hp (fun v hv => hm v (List.mem_cons_of_mem _ hv)) (List.nodup_cons.1 hn).2 (fun v hv => hf v (List.mem_cons_of_mem _ hv))
    refine ⟨tr, h1, ?_, h3⟩
    rw [h2, List.filter_cons, if_neg (by simpa using h)]
  | @node v block cur l p q h hb hs _ ih =>
    intro hp hm hn hf
    have hv := hm v List.mem_cons_self
    have hv0 := hf v List.mem_cons_self h
    obtain ⟨s1, s2⟩ := search_spec hC hb hs 0 (by rw [Nat.add_zero, Nat.mod_eq_of_lt hb]) (fun j hj => absurd hj (Nat.not_lt_zero _)) hC.k_pos
    rw [List.nodup_cons] at hn
    obtain ⟨tr, h1, h2, h3⟩ := ih (hp.set hC hv hv0) (fun v hv => hm v (List.mem_cons_of_mem _ hv)) hn.2 (by
      intro u hu hu'
      show p.part.put v cur u = none
      rw [Assign.put_other]
      · exact hf u (List.mem_cons_of_mem _ hu) hu'
      · rintro rfl; exact hn.1 hu)
    refine ⟨(v, cur) :: tr, Placed.cons hv hv0 s1 ?_ h1, ?_, h3⟩
    · rcases s2 with s2 | ⟨_, s2⟩
      · exact Or.inl ((fits_iff hp _ _).1 s2)
      · exact Or.inr (fun c hc => (fits_iff_not hp _ _).1 (s2 c hc))
    · rw [List.map_cons, h2, List.filter_cons, if_pos (by simpa using h)]

theorem rloop_exists (hC : C.OK) (choice : Nat → Nat) (hch : ∀ v, choice v < C.k) : ∀ (l : List Nat) (p : Part), ∃ q, RLoop C l p q := by
  intro l
  induction l with
  | nil => intro p; exact ⟨p, RLoop.nil p⟩
  | cons a l ih =>
    intro p
    by_cases h : a ∈ C.fixedNodes
    · obtain ⟨q, hq⟩ := ih p
      exact ⟨q, RLoop.fixed h hq⟩
    · obtain ⟨r, hr⟩ := search_exists hC (p := p) (v := a) (hch a) C.k 0 (by omega) hC.k_pos
      rw [Nat.add_zero, Nat.mod_eq_of_lt (hch a)] at hr
      obtain ⟨q, hq⟩ := ih (setNodePart C p a r)
      exact ⟨q, RLoop.node h (hch a) hr hq⟩

/-- **C67** (random). Whatever blocks the random number generator chooses: starting from the fixed vertices in their blocks, every other node is placed exactly
once, in ascending order, into a block it fits into, or fits into no block at that moment; the block weights are exact. -/
theorem C67_random (hC : C.OK) {q : Part} (h : Random C q) :
    ∃ tr, Placed C.H C.k C.bound C.fixedAssign tr q.part ∧ tr.map Prod.fst = C.H.nodes.filter (fun v => decide (v ∉ C.fixedNodes)) ∧
      (∀ c, q.wt c = C.H.blockWeight q.part c) := by
  obtain ⟨h1, h2⟩ := preassign_ok hC
  have := rloop_spec hC h h1 (fun _ hv => hv) hC.wf.nodes_nodup (by
    intro v _ hv; rw [h2]; unfold Ctx.fixedAssign; rw [if_neg hv])
  rwa [h2] at this

/-- **C67** (random terminates). -/
theorem C67_random_terminates (hC : C.OK) : ∃ q, Random C q :=
  rloop_exists hC (fun _ => 0) (fun _ => hC.k_pos) _ _

/-! ### BFS -/

/-- unassigned nodes are found in the first `ptr` entries of the array, which only contains nodes -/
def UOK (C : Ctx) (part : Assign) (un : Nat → Nat) (ptr : Nat) : Prop :=
  (∀ i < ptr, un i ∈ C.H.nodes) ∧ (∀ v ∈ C.H.nodes, part v = none → ∃ i < ptr, un i = v)

theorem getUn_spec {part : Assign} (hfix : ∀ v ∈ C.fixedNodes, part v ≠ none) : ∀ (ptr : Nat) (un : Nat → Nat), UOK C part un ptr →
    UOK C part (getUn C part un ptr).2.1 (getUn C part un ptr).2.2 ∧
    (∀ v, (getUn C part un ptr).1 = some v → v ∈ C.H.nodes ∧ part v = none ∧
      getUn C part (getUn C part un ptr).2.1 (getUn C part un ptr).2.2 = getUn C part un ptr) ∧
    ((getUn C part un ptr).1 = none → ∀ v ∈ C.H.nodes, part v ≠ none) := by
  intro ptr
  induction ptr with
  | zero =>
    intro un h
    refine ⟨h, fun v hv => (by cases hv), fun _ v hv hn => ?_⟩
    obtain ⟨i, hi, _⟩ := h.2 v hv hn
    exact absurd hi (Nat.not_lt_zero _)
  | succ p ih =>
    intro un h
    by_cases hc : part (un 0) = none ∧ un 0 ∉ C.fixedNodes
    · have e : getUn C part un (p + 1) = (some (un 0), un, p + 1) := by rw [getUn, if_pos hc]
      rw [e]
      refine ⟨h, fun v hv => ?_, fun hh => (by cases hh)⟩
      cases hv
      exact ⟨h.1 0 (Nat.succ_pos _), hc.1, e⟩
    · have e : getUn C part un (p + 1) = getUn C part (swap un 0 p) p := by rw [getUn, if_neg hc]
      rw [e]
      apply ih
      have h0 : part (un 0) ≠ none := by
        intro hn
        by_cases hf : un 0 ∈ C.fixedNodes
        · exact hfix _ hf hn
        · exact hc ⟨hn, hf⟩
      constructor
      · intro i hi
        unfold swap
        by_cases e0 : i = 0
        · rw [if_pos e0]; exact h.1 p (Nat.lt_succ_self p)
        · rw [if_neg e0, if_neg (by omega)]; exact h.1 i (by omega)
      · intro v hv hn
        obtain ⟨i, hi, he⟩ := h.2 v hv hn
        have hi0 : i ≠ 0 := by rintro rfl; rw [he] at h0; exact h0 hn
        by_cases hp : i = p
        · refine ⟨0, by omega, ?_⟩
          unfold swap
          rw [if_pos rfl, ← hp]; exact he
        · refine ⟨i, by omega, ?_⟩
          unfold swap
          rw [if_neg hi0, if_neg hp]; exact he

theorem popLoop_spec (p : Part) (b : Nat) : ∀ (q : List Nat) (hn : Option Nat), (∀ x ∈ q, x ∈ C.H.nodes) →
    (∀ v, hn = some v → v ∈ C.H.nodes ∧ p.part v = none ∧ fits C p v b = false) →
    (∀ v, (popLoop C p b q hn).1 = some v → v ∈ C.H.nodes ∧ p.part v = none ∧ (popLoop C p b q hn).2.1 = fits C p v b) ∧
    (∀ x ∈ (popLoop C p b q hn).2.2, x ∈ C.H.nodes) ∧
    ((popLoop C p b q hn).2.1 = false → (popLoop C p b q hn).2.2 = []) ∧
    ((popLoop C p b q hn).2.1 = true → (popLoop C p b q hn).1 ≠ none) := by
  intro q
  induction q with
  | nil =>
    intro hn _ h
    refine ⟨fun v hv => ?_, fun x hx => (by cases hx), fun _ => rfl, fun hh => (by cases hh)⟩
    obtain ⟨a, b, c⟩ := h v hv
    exact ⟨a, b, c.symm⟩
  | cons x q ih =>
    intro hn hq h
    by_cases h1 : p.part x = none
    · cases h2 : fits C p x b with
      | true =>
        have e : popLoop C p b (x :: q) hn = (some x, true, q) := by rw [popLoop, if_pos h1, if_pos h2]
        rw [e]
        refine ⟨fun v hv => ?_, fun y hy => hq y (List.mem_cons_of_mem _ hy), fun hh => (by cases hh), fun _ => (by simp)⟩
        cases hv
        exact ⟨hq x List.mem_cons_self, h1, h2.symm⟩
      | false =>
        have e : popLoop C p b (x :: q) hn = popLoop C p b q (some x) := by rw [popLoop, if_pos h1, if_neg (by rw [h2]; simp)]
        rw [e]
        refine ih _ (fun y hy => hq y (List.mem_cons_of_mem _ hy)) (fun v hv => ?_)
        cases hv
        exact ⟨hq x List.mem_cons_self, h1, h2⟩
    · have e : popLoop C p b (x :: q) hn = popLoop C p b q hn := by rw [popLoop, if_neg h1]
      rw [e]
      exact ih _ (fun y hy => hq y (List.mem_cons_of_mem _ hy)) h

/-- number of assigned nodes -/
def assigned (C : Ctx) (Φ : Assign) : Nat := C.H.nodes.countP (fun v => (Φ v).isSome)

theorem assigned_put (hC : C.OK) {Φ : Assign} {v b : Nat} (hv : v ∈ C.H.nodes) (hn : Φ v = none) : assigned C (Φ.put v b) = assigned C Φ + 1 := by
  unfold assigned
  have : ∀ (l : List Nat), l.Nodup → v ∈ l → l.countP (fun u => ((Φ.put v b) u).isSome) = l.countP (fun u => (Φ u).isSome) + 1 := by
    intro l
    induction l with
    | nil => intro _ h; cases h
    | cons a l ih =>
      intro hnd hm
      rw [List.nodup_cons] at hnd
      rw [List.countP_cons, List.countP_cons]
      by_cases ha : a = v
      · subst ha
        rw [Assign.put_same, hn]
        have : l.countP (fun u => ((Φ.put a b) u).isSome) = l.countP (fun u => (Φ u).isSome) := by
          apply List.countP_congr
          intro u hu
          rw [Assign.put_other]
          rintro rfl; exact hnd.1 hu
        rw [this]; simp
      · have hm' : v ∈ l := by
          rcases List.mem_cons.1 hm with e | e
          · exact absurd e.symm ha
          · exact e
        rw [ih hnd.2 hm', Assign.put_other _ ha]; omega
  exact this _ hC.wf.nodes_nodup hv

structure Inv (C : Ctx) (s : St) : Prop where
  p : POK C s.p
  q : ∀ b, ∀ x ∈ s.q b, x ∈ C.H.nodes
  u : UOK C s.p.part s.un s.ptr
  cnt : s.cnt = assigned C s.p.part
  fix : ∀ v ∈ C.fixedNodes, s.p.part v ≠ none

/-- pushing only changes the queues and the flags -/
theorem pushPin_inv (b : Nat) {s : St} (h : Inv C s) {u : Nat} (hu : u ∈ C.H.nodes) : Inv C (pushPin b s u) ∧ (pushPin b s u).p = s.p ∧ (pushPin b s u).cnt = s.cnt := by
  unfold pushPin
  split
  · refine ⟨⟨h.p, ?_, h.u, h.cnt, h.fix⟩, rfl, rfl⟩
    intro c x hx
    dsimp only at hx
    split at hx
    · rcases List.mem_append.1 hx with hx | hx
      · exact h.q _ x hx
      · rw [List.mem_singleton.1 hx]; exact hu
    · exact h.q _ x hx
  · exact ⟨h, rfl, rfl⟩

theorem pushPins_inv (b : Nat) : ∀ (l : List Nat) (s : St), Inv C s → (∀ u ∈ l, u ∈ C.H.nodes) →
    Inv C (l.foldl (pushPin b) s) ∧ (l.foldl (pushPin b) s).p = s.p ∧ (l.foldl (pushPin b) s).cnt = s.cnt := by
  intro l
  induction l with
  | nil => intro s h _; exact ⟨h, rfl, rfl⟩
  | cons a l ih =>
    intro s h hl
    obtain ⟨a1, a2, a3⟩ := pushPin_inv b h (hl a List.mem_cons_self)
    obtain ⟨b1, b2, b3⟩ := ih _ a1 (fun u hu => hl u (List.mem_cons_of_mem _ hu))
    exact ⟨b1, b2.trans a2, b3.trans a3⟩

theorem pushEdge_inv (hC : C.OK) (b : Nat) {s : St} (h : Inv C s) {e : Nat} (he : e ∈ C.H.edges) :
    Inv C (pushEdge C b s e) ∧ (pushEdge C b s e).p = s.p ∧ (pushEdge C b s e).cnt = s.cnt := by
  unfold pushEdge
  split
  · dsimp only
    split
    · obtain ⟨a1, a2, a3⟩ := pushPins_inv b (C.H.pins e) s h (hC.wf.pins_mem e he)
      exact ⟨⟨a1.p, a1.q, a1.u, a1.cnt, a1.fix⟩, a2, a3⟩
    · exact ⟨⟨h.p, h.q, h.u, h.cnt, h.fix⟩, rfl, rfl⟩
  · exact ⟨h, rfl, rfl⟩

theorem push_inv (hC : C.OK) (b : Nat) {v : Nat} (hv : v ∈ C.H.nodes) (s : St) (h : Inv C s) :
    Inv C (push C b v s) ∧ (push C b v s).p = s.p ∧ (push C b v s).cnt = s.cnt := by
  have : ∀ (l : List Nat) (s : St), Inv C s → (∀ e ∈ l, e ∈ C.H.edges) →
      Inv C (l.foldl (pushEdge C b) s) ∧ (l.foldl (pushEdge C b) s).p = s.p ∧ (l.foldl (pushEdge C b) s).cnt = s.cnt := by
    intro l
    induction l with
    | nil => intro s h _; exact ⟨h, rfl, rfl⟩
    | cons a l ih =>
      intro s h hl
      obtain ⟨a1, a2, a3⟩ := pushEdge_inv hC b h (hl a List.mem_cons_self)
      obtain ⟨b1, b2, b3⟩ := ih _ a1 (fun u hu => hl u (List.mem_cons_of_mem _ hu))
      exact ⟨b1, b2.trans a2, b3.trans a3⟩
  exact this _ s h (fun e he => ((hC.wf.inc_iff v hv e).1 he).1)

theorem fetch_spec {s : St} (h : Inv C s) (b : Nat) :
    Inv C (fetch C b s).2.2 ∧ (fetch C b s).2.2.p = s.p ∧ (fetch C b s).2.2.cnt = s.cnt ∧
    (∀ v, (fetch C b s).1 = some v → v ∈ C.H.nodes ∧ s.p.part v = none ∧ (fetch C b s).2.1 = fits C s.p v b) ∧
    ((fetch C b s).1 = none → ∀ v ∈ C.H.nodes, s.p.part v ≠ none) ∧
    ((fetch C b s).2.1 = false → ∀ c, (fetch C b s).2.2.q c = if c = b then [] else s.q c) ∧
    (s.q b = [] → ∀ u, (getUn C s.p.part s.un s.ptr).1 = some u → (fetch C b s).1 = some u ∧
      (getUn C s.p.part (fetch C b s).2.2.un (fetch C b s).2.2.ptr).1 = some u) := by
  obtain ⟨p1, p2, p3, p4⟩ := popLoop_spec (C := C) s.p b (s.q b) none (h.q b) (fun v hv => (by cases hv))
  obtain ⟨g1, g2, g3⟩ := getUn_spec (C := C) h.fix s.ptr s.un h.u
  have hq : ∀ c, ∀ x ∈ (if c = b then (popLoop C s.p b (s.q b) none).2.2 else s.q c), x ∈ C.H.nodes := by
    intro c x hx
    split at hx
    · exact p2 x hx
    · exact h.q c x hx
  unfold fetch
  dsimp only
  cases hp : (popLoop C s.p b (s.q b) none).1 with
  | some v =>
    dsimp only
    refine ⟨⟨h.p, hq, h.u, h.cnt, h.fix⟩, rfl, rfl, ?_, fun hh => (by cases hh), ?_, ?_⟩
    · intro v' hv'; cases hv'; exact p1 v hp
    · intro hf c; rw [p3 hf]
    · intro he; rw [he] at hp; cases hp
  | none =>
    have hf : (popLoop C s.p b (s.q b) none).2.1 = false := by
      rw [← Bool.not_eq_true]; intro ht; exact p4 ht hp
    dsimp only
    cases hg : (getUn C s.p.part s.un s.ptr).1 with
    | none =>
      dsimp only
      refine ⟨⟨h.p, hq, g1, h.cnt, h.fix⟩, rfl, rfl, fun v hv => (by cases hv), fun _ => g3 hg, ?_, ?_⟩
      · intro _ c; rw [p3 hf]
      · intro _ u hu; cases hu
    | some v =>
      dsimp only
      refine ⟨⟨h.p, hq, g1, h.cnt, h.fix⟩, rfl, rfl, ?_, fun hh => (by cases hh), ?_, ?_⟩
      · intro v' hv'; cases hv'; exact ⟨(g2 v hg).1, (g2 v hg).2.1, rfl⟩
      · intro _ c; rw [p3 hf]
      · intro _ u hu; cases hu; exact ⟨rfl, by rw [(g2 v hg).2.2]; exact hg⟩

/-- one block's turn -/
theorem step_spec (hC : C.OK) {s : St} (h : Inv C s) {b : Nat} (_hb : b < C.k) :
    Inv C (step C b s) ∧
    ((∃ v, v ∈ C.H.nodes ∧ s.p.part v = none ∧ (C.H.blockWeight s.p.part b + C.H.nw v ≤ C.bound b ∨ ∀ c < C.k, C.bound c < C.H.blockWeight s.p.part c + C.H.nw v) ∧
        (step C b s).p.part = s.p.part.put v b ∧ (step C b s).cnt = s.cnt + 1) ∨
     ((step C b s).p = s.p ∧ (step C b s).cnt = s.cnt ∧ (∀ c, (step C b s).q c = if c = b then [] else s.q c) ∧
        (s.q b = [] → ∀ u, (getUn C s.p.part s.un s.ptr).1 = some u → (getUn C s.p.part (step C b s).un (step C b s).ptr).1 = some u ∧
          fits C s.p u b = false ∧ ∃ o < C.k, fits C s.p u o = true))) := by
  obtain ⟨f1, f2, f3, f4, f5, f6, f7⟩ := fetch_spec h b
  unfold step
  dsimp only
  cases hr : (fetch C b s).1 with
  | none =>
    dsimp only
    refine ⟨f1, Or.inr ⟨f2, f3, ?_, ?_⟩⟩
    · apply f6
      unfold fetch at hr ⊢
      dsimp only at hr ⊢
      cases hp : (popLoop C s.p b (s.q b) none).1 with
      | some v => rw [hp] at hr; cases hr
      | none =>
        rw [hp] at hr
        dsimp only at hr ⊢
        cases hg : (getUn C s.p.part s.un s.ptr).1 with
        | none => rfl
        | some v => rw [hg] at hr; cases hr
    · intro he u hu
      have := (f7 he u hu).1
      rw [hr] at this; cases this
  | some v =>
    dsimp only
    obtain ⟨v1, v2, v3⟩ := f4 v hr
    cases hi : ignored C (fetch C b s).2.2.p b v (fetch C b s).2.1 with
    | true =>
      rw [if_pos rfl]
      unfold ignored at hi
      rw [Bool.and_eq_true, Bool.not_eq_true', List.any_eq_true] at hi
      obtain ⟨hi1, o, ho, ho2⟩ := hi
      rw [Bool.and_eq_true] at ho2
      refine ⟨f1, Or.inr ⟨f2, f3, f6 hi1, ?_⟩⟩
      intro he u hu
      obtain ⟨w1, w2⟩ := f7 he u hu
      rw [hr] at w1
      cases w1
      rw [f2] at ho2
      exact ⟨w2, by rw [← v3]; exact hi1, o, List.mem_range.1 ho, ho2.2⟩
    | false =>
      rw [if_neg (by simp)]
      have hset : Inv C { (fetch C b s).2.2 with p := setNodePart C (fetch C b s).2.2.p v b, cnt := (fetch C b s).2.2.cnt + 1 } := by
        refine ⟨f1.p.set hC v1 (by rw [f2]; exact v2), f1.q, ⟨f1.u.1, ?_⟩, ?_, ?_⟩
        · intro x hx hn
          refine f1.u.2 x hx ?_
          change (fetch C b s).2.2.p.part.put v b x = none at hn
          by_cases e : x = v
          · rw [e, Assign.put_same] at hn; cases hn
          · rwa [Assign.put_other _ e] at hn
        · show (fetch C b s).2.2.cnt + 1 = assigned C ((fetch C b s).2.2.p.part.put v b)
          rw [assigned_put hC v1 (by rw [f2]; exact v2), f1.cnt]
        · intro x hx
          show (fetch C b s).2.2.p.part.put v b x ≠ none
          by_cases e : x = v
          · rw [e, Assign.put_same]; simp
          · rw [Assign.put_other _ e]; exact f1.fix x hx
      obtain ⟨q1, q2, q3⟩ := push_inv hC b v1 _ hset
      refine ⟨q1, Or.inl ⟨v, v1, v2, ?_, ?_, ?_⟩⟩
      · unfold ignored at hi
        rw [f2, v3] at hi
        cases hfit : fits C s.p v b with
        | true => exact Or.inl ((fits_iff h.p v b).1 hfit)
        | false =>
          right
          intro c hc
          rw [hfit, Bool.not_false, Bool.true_and, List.any_eq_false] at hi
          rw [← fits_iff_not h.p]
          by_cases e : c = b
          · rw [e]; exact hfit
          · have := hi c (List.mem_range.2 hc)
            simpa [e] using this
      · rw [q2]
        show (fetch C b s).2.2.p.part.put v b = _
        rw [f2]
      · rw [q3]
        show (fetch C b s).2.2.cnt + 1 = _
        rw [f3]

theorem steps_placed (hC : C.OK) : ∀ (l : List Nat) (s : St), (∀ b ∈ l, b < C.k) → Inv C s →
    Inv C (l.foldl (fun s b => step C b s) s) ∧ (∃ tr, Placed C.H C.k C.bound s.p.part tr (l.foldl (fun s b => step C b s) s).p.part) ∧
    s.cnt ≤ (l.foldl (fun s b => step C b s) s).cnt := by
  intro l
  induction l with
  | nil => intro s _ h; exact ⟨h, ⟨[], Placed.nil _⟩, Nat.le_refl _⟩
  | cons b l ih =>
    intro s hl h
    have hb := hl b List.mem_cons_self
    obtain ⟨s1, s2⟩ := step_spec hC h hb
    obtain ⟨i1, ⟨tr, i2⟩, i3⟩ := ih _ (fun c hc => hl c (List.mem_cons_of_mem _ hc)) s1
    rw [List.foldl_cons]
    refine ⟨i1, ?_, ?_⟩
    · rcases s2 with ⟨v, v1, v2, v3, v4, _⟩ | ⟨e, _⟩
      · rw [v4] at i2
        exact ⟨(v, b) :: tr, Placed.cons v1 v2 hb v3 i2⟩
      · rw [e] at i2
        exact ⟨tr, i2⟩
    · rcases s2 with ⟨v, _, _, _, _, v5⟩ | ⟨_, e, _⟩
      · rw [v5] at i3; omega
      · rw [e] at i3; omega

/-- a pass over the blocks without assignment empties their queues -/
theorem steps_none (hC : C.OK) : ∀ (l : List Nat) (s : St), (∀ b ∈ l, b < C.k) → Inv C s → (l.foldl (fun s b => step C b s) s).cnt = s.cnt →
    (l.foldl (fun s b => step C b s) s).p = s.p ∧ (∀ c, (l.foldl (fun s b => step C b s) s).q c = if c ∈ l then [] else s.q c) ∧
    ((∀ b ∈ l, s.q b = []) → ∀ u, (getUn C s.p.part s.un s.ptr).1 = some u → ∀ b ∈ l, fits C s.p u b = false ∧ ∃ o < C.k, fits C s.p u o = true) := by
  intro l
  induction l with
  | nil => intro s _ h _; exact ⟨rfl, fun c => (by simp), fun _ u _ b hb => (by cases hb)⟩
  | cons b l ih =>
    intro s hl h hc
    have hb := hl b List.mem_cons_self
    have hl' : ∀ c ∈ l, c < C.k := fun c hc => hl c (List.mem_cons_of_mem _ hc)
    obtain ⟨s1, s2⟩ := step_spec hC h hb
    rw [List.foldl_cons] at hc ⊢
    have hmono := (steps_placed hC l _ hl' s1).2.2
    rcases s2 with ⟨v, _, _, _, _, v5⟩ | ⟨e1, e2, e3, e4⟩
    · omega
    · obtain ⟨i1, i2, i3⟩ := ih _ hl' s1 (by omega)
      refine ⟨i1.trans e1, ?_, ?_⟩
      · intro c
        rw [i2 c, e3 c]
        by_cases hcl : c ∈ l
        · simp [hcl]
        · by_cases hcb : c = b <;> simp [hcl, hcb]
      · intro hq u hu
        obtain ⟨a1, a2, a3⟩ := e4 (hq b List.mem_cons_self) u hu
        rw [e1] at i3
        have := i3 (by
          intro c hc
          rw [e3 c]
          split
          · rfl
          · exact hq c (List.mem_cons_of_mem _ hc)) u a1
        intro c hc
        rcases List.mem_cons.1 hc with rfl | hc
        · exact ⟨a2, a3⟩
        · exact this c hc

theorem round_inv (hC : C.OK) {s : St} (h : Inv C s) : Inv C (round C s) ∧ (∃ tr, Placed C.H C.k C.bound s.p.part tr (round C s).p.part) ∧ s.cnt ≤ (round C s).cnt :=
  steps_placed hC _ s (fun _ hb => List.mem_range.1 hb) h

/-- of two consecutive rounds at least one assigns a node -/
theorem two_rounds (hC : C.OK) {s : St} (h : Inv C s) (hlt : s.cnt < C.H.nodes.length) : s.cnt < (round C (round C s)).cnt := by
  obtain ⟨r1, _, r3⟩ := round_inv hC h
  obtain ⟨_, _, t3⟩ := round_inv hC r1
  by_contra hne
  have e1 : (round C s).cnt = s.cnt := by omega
  have e2 : (round C (round C s)).cnt = (round C s).cnt := by omega
  obtain ⟨n1, n2, _⟩ := steps_none hC _ s (fun _ hb => List.mem_range.1 hb) h e1
  obtain ⟨_, _, m3⟩ := steps_none hC _ (round C s) (fun _ hb => List.mem_range.1 hb) r1 e2
  have hq : ∀ b ∈ List.range C.k, (round C s).q b = [] := by
    intro b hb
    have := n2 b
    rw [if_pos hb] at this
    exact this
  cases hg : (getUn C (round C s).p.part (round C s).un (round C s).ptr).1 with
  | none =>
    have hall := (getUn_spec (C := C) r1.fix (round C s).ptr (round C s).un r1.u).2.2 hg
    have : assigned C (round C s).p.part = C.H.nodes.length := by
      unfold assigned
      rw [List.countP_eq_length]
      intro v hv
      exact Option.isSome_iff_ne_none.2 (hall v hv)
    have := r1.cnt
    omega
  | some u =>
    have hm := m3 hq u hg
    obtain ⟨_, o, ho, hfo⟩ := hm 0 (List.mem_range.2 hC.k_pos)
    have := (hm o (List.mem_range.2 ho)).1
    rw [hfo] at this; cases this

theorem run_exists (hC : C.OK) : ∀ (n : Nat) (s : St), Inv C s → C.H.nodes.length - s.cnt ≤ n → ∃ t, Run C s t := by
  intro n
  induction n with
  | zero => intro s _ hn; exact ⟨s, Run.done (by omega)⟩
  | succ n ih =>
    intro s h hn
    by_cases hd : C.H.nodes.length ≤ s.cnt
    · exact ⟨s, Run.done hd⟩
    · by_cases hd' : C.H.nodes.length ≤ (round C s).cnt
      · exact ⟨_, Run.more (by omega) (Run.done hd')⟩
      · have := two_rounds hC h (by omega)
        obtain ⟨t, ht⟩ := ih (round C (round C s)) (round_inv hC (round_inv hC h).1).1 (by omega)
        exact ⟨t, Run.more (by omega) (Run.more (by omega) ht)⟩

theorem run_spec (hC : C.OK) {s t : St} (h : Run C s t) : Inv C s → Inv C t ∧ C.H.nodes.length ≤ t.cnt ∧ ∃ tr, Placed C.H C.k C.bound s.p.part tr t.p.part := by
  induction h with
  | done hd => intro h; exact ⟨h, hd, [], Placed.nil _⟩
  | more _ _ ih =>
    intro h
    obtain ⟨r1, ⟨tr, r2⟩, _⟩ := round_inv hC h
    obtain ⟨i1, i2, tr', i3⟩ := ih r1
    exact ⟨i1, i2, tr ++ tr', Placed.append r2 i3⟩

/-- the array of unassigned nodes: a permutation of the nodes that are not fixed (initial_partitioning_data_container.h lines 441-459) -/
def UnOK (C : Ctx) (un : Nat → Nat) (m : Nat) : Prop := ((List.range m).map un).Perm (C.H.nodes.filter (fun v => decide (v ∉ C.fixedNodes)))

theorem init_inv (hC : C.OK) {start : Nat → List Nat} (hs : ∀ b, ∀ v ∈ start b, v ∈ C.H.nodes) {un : Nat → Nat} {m : Nat} (hu : UnOK C un m) :
    Inv C (init C start un m) ∧ (init C start un m).p.part = C.fixedAssign := by
  obtain ⟨h1, h2⟩ := preassign_ok hC
  have hp : (init C start un m).p.part = C.fixedAssign := h2
  refine ⟨⟨h1, hs, ⟨?_, ?_⟩, ?_, ?_⟩, hp⟩
  · intro i hi
    have : un i ∈ (List.range m).map un := List.mem_map.2 ⟨i, List.mem_range.2 hi, rfl⟩
    rw [hu.mem_iff] at this
    exact (List.mem_filter.1 this).1
  · intro v hv hn
    rw [hp] at hn
    have hvf : v ∉ C.fixedNodes := by
      intro hf; unfold Ctx.fixedAssign at hn; rw [if_pos hf] at hn; cases hn
    have : v ∈ (List.range m).map un := by
      rw [hu.mem_iff, List.mem_filter]; exact ⟨hv, decide_eq_true hvf⟩
    obtain ⟨i, hi, he⟩ := List.mem_map.1 this
    exact ⟨i, List.mem_range.1 hi, he⟩
  · show C.fixedNodes.length = assigned C (preassign C Part.empty).part
    rw [h2]
    unfold assigned
    have e : (fun v => (C.fixedAssign v).isSome) = (fun v => decide (v ∈ C.fixedNodes)) := by
      funext v
      unfold Ctx.fixedAssign
      by_cases hv : v ∈ C.fixedNodes <;> simp [hv]
    rw [e, List.countP_eq_length_filter]
    refine (List.Perm.length_eq ?_)
    rw [List.perm_ext_iff_of_nodup hC.fix_nodup (hC.wf.nodes_nodup.filter _)]
    intro v
    rw [List.mem_filter, decide_eq_true_iff]
    exact ⟨fun hv => ⟨hC.fix_mem v hv, hv⟩, fun hv => hv.2⟩
  · intro v hv
    rw [hp]
    unfold Ctx.fixedAssign
    rw [if_pos hv]; simp

/-- **C67** (BFS). Whatever the start nodes and the order of the unassigned nodes: the algorithm terminates. -/
theorem C67_bfs_terminates (hC : C.OK) {start : Nat → List Nat} (hs : ∀ b, ∀ v ∈ start b, v ∈ C.H.nodes) {un : Nat → Nat} {m : Nat} (hu : UnOK C un m) :
    ∃ t, Run C (init C start un m) t :=
  run_exists hC _ _ (init_inv hC hs hu).1 (Nat.le_refl _)

/-- **C67** (BFS). When it terminates, the fixed vertices are in their blocks, and every other node was placed exactly once, into a block it fitted into at that
moment, or when it fitted into no block; the block weights are exact. -/
theorem C67_bfs (hC : C.OK) {start : Nat → List Nat} (hs : ∀ b, ∀ v ∈ start b, v ∈ C.H.nodes) {un : Nat → Nat} {m : Nat} (hu : UnOK C un m) {t : St}
    (h : Run C (init C start un m) t) :
    ∃ tr, Placed C.H C.k C.bound C.fixedAssign tr t.p.part ∧ (tr.map Prod.fst).Perm (C.H.nodes.filter (fun v => decide (v ∉ C.fixedNodes))) ∧
      (∀ c, t.p.wt c = C.H.blockWeight t.p.part c) := by
  obtain ⟨i1, i2⟩ := init_inv hC hs hu
  obtain ⟨r1, r2, tr, r3⟩ := run_spec hC h i1
  rw [i2] at r3
  refine ⟨tr, r3, ?_, r1.p⟩
  obtain ⟨t1, t2, t3⟩ := Placed.trace r3
  have hall : ∀ v ∈ C.H.nodes, t.p.part v ≠ none := by
    have : assigned C t.p.part = C.H.nodes.length := by
      have h1 := r1.cnt
      have h2 : assigned C t.p.part ≤ C.H.nodes.length := List.countP_le_length
      omega
    unfold assigned at this
    rw [List.countP_eq_length] at this
    intro v hv
    exact Option.isSome_iff_ne_none.1 (this v hv)
  rw [List.perm_ext_iff_of_nodup t1 (hC.wf.nodes_nodup.filter _)]
  intro v
  rw [List.mem_filter, decide_eq_true_iff]
  constructor
  · intro hv
    obtain ⟨x, hx, rfl⟩ := List.mem_map.1 hv
    obtain ⟨a1, _, _, a4⟩ := t2 x hx
    refine ⟨a4, fun hf => ?_⟩
    unfold Ctx.fixedAssign at a1
    rw [if_pos hf] at a1; cases a1
  · rintro ⟨hv, hf⟩
    by_contra hne
    have := t3 v hne
    unfold Ctx.fixedAssign at this
    rw [if_neg hf] at this
    exact hall v hv this

/-! ### What a user sees -/

/-- **C67** (complete). A placement of all nodes that are not fixed gives every node a block, and every fixed vertex its own. -/
theorem C67_complete (hC : C.OK) {tr : List (Nat × Nat)} {Ψ : Assign} (h : Placed C.H C.k C.bound C.fixedAssign tr Ψ)
    (hp : (tr.map Prod.fst).Perm (C.H.nodes.filter (fun v => decide (v ∉ C.fixedNodes)))) :
    (∀ v ∈ C.H.nodes, ∃ b < C.k, Ψ v = some b) ∧ ∀ v ∈ C.fixedNodes, Ψ v = some (C.fixedBlock v) := by
  have hf : ∀ v ∈ C.fixedNodes, Ψ v = some (C.fixedBlock v) := fun v hv => Placed.mono h (by unfold Ctx.fixedAssign; rw [if_pos hv])
  refine ⟨fun v hv => ?_, hf⟩
  by_cases hvf : v ∈ C.fixedNodes
  · exact ⟨_, hC.fix_block v hvf, hf v hvf⟩
  · have : v ∈ tr.map Prod.fst := by
      rw [hp.mem_iff, List.mem_filter]; exact ⟨hv, decide_eq_true hvf⟩
    obtain ⟨x, hx, rfl⟩ := List.mem_map.1 this
    obtain ⟨_, a2, a3, _⟩ := (Placed.trace h).2.1 x hx
    exact ⟨x.2, a3, a2⟩

theorem sum_indicator (a : Nat) : ∀ k : Nat, ((List.range k).map (fun c => if some a = some c then (1 : Int) else 0)).sum = if a < k then 1 else 0 := by
  intro k
  induction k with
  | zero => rfl
  | succ k ih =>
    rw [List.range_succ, List.map_append, List.sum_append, ih, List.map_singleton, List.sum_singleton]
    by_cases h : a = k
    · subst h; simp
    · have : ¬ (some a = some k) := fun hh => h (Option.some.inj hh)
      rw [if_neg this]
      by_cases h2 : a < k
      · rw [if_pos h2, if_pos (by omega)]; rfl
      · rw [if_neg h2, if_neg (by omega)]; rfl

theorem sum_add_map (f g : Nat → Int) (l : List Nat) : (l.map (fun c => f c + g c)).sum = (l.map f).sum + (l.map g).sum := by
  induction l with
  | nil => simp
  | cons a l ih => rw [List.map_cons, List.sum_cons, ih, List.map_cons, List.sum_cons, List.map_cons, List.sum_cons]; omega

theorem sum_wsum_le (Φ : Assign) (w : Nat → Int) (k : Nat) : ∀ l : List Nat, (∀ v ∈ l, w v = 1) →
    ((List.range k).map (fun c => wsum w Φ c l)).sum ≤ (l.countP (fun v => (Φ v).isSome) : Nat) := by
  intro l
  induction l with
  | nil =>
    intro _
    have : (fun c => wsum w Φ c []) = fun _ => (0 : Int) := by funext c; simp [wsum]
    rw [this]
    simp
  | cons a l ih =>
    intro hw
    have e : (fun c => wsum w Φ c (a :: l)) = fun c => (if Φ a = some c then (1 : Int) else 0) + wsum w Φ c l := by
      funext c
      rw [wsum_cons, hw a List.mem_cons_self]
    rw [e, sum_add_map, List.countP_cons]
    have := ih (fun v hv => hw v (List.mem_cons_of_mem _ hv))
    cases ha : Φ a with
    | none =>
      have : ((List.range k).map (fun c => if (none : Option Nat) = some c then (1 : Int) else 0)).sum = 0 := by simp
      rw [this]; simp; omega
    | some x =>
      rw [sum_indicator]
      simp only [Option.isSome_some, if_true]
      split <;> omega

theorem sum_le {f g : Nat → Int} : ∀ {l : List Nat}, (∀ c ∈ l, f c ≤ g c) → (l.map f).sum ≤ (l.map g).sum := by
  intro l
  induction l with
  | nil => intro _; exact Int.le_refl _
  | cons a l ih =>
    intro h
    rw [List.map_cons, List.sum_cons, List.map_cons, List.sum_cons]
    have := h a List.mem_cons_self
    have := ih (fun c hc => h c (List.mem_cons_of_mem _ hc))
    omega

/-- **C67** (balance). With unit node weights and bounds that together suffice for all nodes, the initial partition respects all bounds, provided the fixed
vertices do. -/
theorem C67_unit_weights_balanced {H : HG} (hn : H.nodes.Nodup) {k : Nat} {bound : Nat → Int} {Φ Ψ : Assign} {tr : List (Nat × Nat)} (h : Placed H k bound Φ tr Ψ)
    (hw : ∀ v ∈ H.nodes, H.nw v = 1) (hsum : (H.nodes.length : Int) ≤ ((List.range k).map bound).sum) (hΦ : ∀ c < k, H.blockWeight Φ c ≤ bound c) :
    ∀ c < k, H.blockWeight Ψ c ≤ bound c := by
  induction h with
  | nil Φ => exact hΦ
  | @cons Φ Ψ v b tr hv hf hb hfit _ ih =>
    apply ih
    have hfits : H.blockWeight Φ b + H.nw v ≤ bound b := by
      rcases hfit with hfit | hno
      · exact hfit
      · exfalso
        have h1 : ((List.range k).map bound).sum ≤ ((List.range k).map (fun c => H.blockWeight Φ c)).sum := by
          apply sum_le
          intro c hc
          have := hno c (List.mem_range.1 hc)
          rw [hw v hv] at this
          omega
        have h2 : ((List.range k).map (fun c => H.blockWeight Φ c)).sum ≤ (H.nodes.countP (fun v => (Φ v).isSome) : Nat) := sum_wsum_le Φ H.nw k H.nodes hw
        have h3 : H.nodes.countP (fun v => (Φ v).isSome) < H.nodes.length := by
          refine lt_of_le_of_ne List.countP_le_length (fun he => ?_)
          rw [List.countP_eq_length] at he
          have := he v hv
          rw [hf] at this; cases this
        omega
    intro c hc
    rw [HG.blockWeight_put hn hv, hf]
    have := hΦ c hc
    by_cases hcb : c = b
    · subst hcb; simpa using hfits
    · simpa [hcb] using this

/-! ### Concrete instance -/

/-- a path of three hyperedges on four nodes, two blocks with room for two nodes each, node 0 is fixed in block 1 -/
def exC : Ctx where
  H := { nodes := [0, 1, 2, 3], edges := [0, 1, 2], pins := fun e => if e < 3 then [e, e + 1] else [],
         inc := fun v => if v = 0 then [0] else if v = 1 then [0, 1] else if v = 2 then [1, 2] else if v = 3 then [2] else [],
         nw := fun _ => 1, ew := fun _ => 1 }
  k := 2
  bound := fun _ => 2
  fixedNodes := [0]
  fixedBlock := fun _ => 1
  maxSize := 10

theorem exC_ok : exC.OK where
  wf := ⟨by decide, by decide, by decide +kernel, by decide +kernel, by decide +kernel, by
    intro v hv e
    have hv' : v ∈ ([0, 1, 2, 3] : List Nat) := hv
    show e ∈ exC.H.inc v ↔ e ∈ ([0, 1, 2] : List Nat) ∧ v ∈ exC.H.pins e
    by_cases he : e ∈ ([0, 1, 2] : List Nat)
    · simp only [List.mem_cons, List.not_mem_nil, or_false] at hv' he
      rcases hv' with rfl | rfl | rfl | rfl <;> rcases he with rfl | rfl | rfl <;> simp [exC]
    · simp only [List.mem_cons, List.not_mem_nil, or_false] at hv'
      have he' := he
      simp only [List.mem_cons, List.not_mem_nil, or_false, not_or] at he'
      rcases hv' with rfl | rfl | rfl | rfl <;> simp [exC, he']⟩
  k_pos := by decide
  fix_nodup := by decide
  fix_mem := by decide
  fix_block := by decide

/-- start node 3 for block 0, no start node for block 1, array of unassigned nodes 2, 1, 3 -/
def exInit : St := init exC (fun b => if b = 0 then [3] else []) (fun i => if i = 0 then 2 else if i = 1 then 1 else 3) 3

example : UnOK exC (fun i => if i = 0 then 2 else if i = 1 then 1 else 3) 3 := by
  show List.Perm [2, 1, 3] [1, 2, 3]
  decide

/-- the first round assigns 3 to block 0 and 2 to block 1; in the second node 2 in the queue of block 0 is already assigned and node 1
from the array goes to block 0 -/
example : exInit.cnt = 1 ∧ (round exC exInit).cnt = 3 ∧ (round exC exInit).q 0 = [2] ∧ (round exC exInit).q 1 = [1] ∧
    (round exC (round exC exInit)).cnt = 4 ∧
    ((List.range 4).map (round exC (round exC exInit)).p.part) = [some 1, some 0, some 1, some 0] := by decide +kernel

end FlatIP
end Verif
