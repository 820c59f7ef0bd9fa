import Verif.Lemmas.DReb1
/-!
# Lemmas on the deterministic rebalancer: one round
-/
namespace Verif
namespace DReb
open DetLP (Mv Good Fit moveAll)
open GainComp CSt PHG

/-- The hypergraph fits into the data structures, its weights are not negative and their sum fits into 32 bits. -/
structure Env (c : Cfg) (m mx : Nat) : Prop where
  wf : c.H.WF
  fits : c.H.Fits m mx
  nw : ∀ u ∈ c.H.nodes, 0 ≤ c.H.nw u
  tot : (c.H.nodes.map c.H.nw).sum ≤ Rollback.maxHNW
  ew : ∀ e ∈ c.H.edges, 0 ≤ c.H.ew e

/-- block `a` is too heavy -/
def Over (c : Cfg) (Φ : Assign) (a : Nat) : Prop := c.maxw a < c.H.blockWeight Φ a

/-- block `b` may receive node `v`: it is lighter than its dead zone and has room for `v` -/
def CanTake (c : Cfg) (Φ : Assign) (b v : Nat) : Prop :=
  b < c.k ∧ c.H.blockWeight Φ b < c.dead b ∧ c.H.blockWeight Φ b + c.H.nw v ≤ c.maxw b

/-- block `b` is a best block for node `v`: no other block that may receive `v` gives a smaller objective value -/
def Best (c : Cfg) (Φ : Assign) (v b : Nat) : Prop :=
  Φ v ≠ some b ∧ CanTake c Φ b v ∧ ∀ b', Φ v ≠ some b' → CanTake c Φ b' v → change c.H c.o Φ v b ≤ change c.H c.o Φ v b'

/-- node `v` of block `a` may be moved in this round -/
def Movable (c : Cfg) (heavy : Nat → Bool) (Φ : Assign) (a v : Nat) : Prop :=
  v ∈ c.H.nodes ∧ Φ v = some a ∧ c.fixed v = false ∧ (c.light a (c.H.blockWeight Φ a) (c.H.nw v) = true ∨ heavy a = true) ∧ ∃ b, CanTake c Φ b v

/-- the priority of moving `v` to `b` -/
def rank (c : Cfg) (Φ : Assign) (v b : Nat) : Int := c.prio (change c.H c.o Φ v b) (c.H.nw v)

variable {c : Cfg} {σ : Type} {C : ConInfo σ} {m mx : Nat}

theorem valid_iff {L : C.Lawful m c.k mx} (hw : c.H.WF) {s : CSt σ} (hG : Good L c.H s) {b v : Nat} (hb : b < c.k) :
    valid c s.wt b (c.H.nw v) = true ↔ CanTake c s.part b v := by
  unfold valid CanTake
  rw [hG.weight hw hb]
  simp [hb]

theorem over_valid {L : C.Lawful m c.k mx} (E : Env c m mx) {s : CSt σ} (hG : Good L c.H s) {a u : Nat} (hu : u ∈ c.H.nodes) (hx : excess c s.wt a > 0) :
    valid c s.wt a (c.H.nw u) = false := by
  have := E.nw u hu
  unfold excess at hx
  unfold valid
  rw [Bool.and_eq_false_iff]
  right
  rw [decide_eq_false_iff_not]
  omega

theorem excess_iff {L : C.Lawful m c.k mx} (hw : c.H.WF) {s : CSt σ} (hG : Good L c.H s) {a : Nat} (ha : a < c.k) : excess c s.wt a > 0 ↔ Over c s.part a := by
  unfold excess Over
  rw [hG.weight hw ha]
  omega

def CleanAll (scr : Nat → Scratch) : Prop := ∀ u, (scr u).tmp.size = 0 ∧ (scr u).iso = 0

theorem want_some {L : C.Lawful m c.k mx} (E : Env c m mx) {x : St σ} (hG : Good L c.H x.s) {scr : Nat → Scratch} (hs : CleanAll scr) {u : Nat} (hu : u ∈ c.H.nodes) {q : Mv}
    (h : want C c x scr u = some q) :
    q.node = u ∧ x.s.part u = some q.src ∧ q.src < c.k ∧ Over c x.s.part q.src ∧ Movable c x.heavy x.s.part q.src u ∧ Best c x.s.part u q.dst ∧ q.gain = rank c x.s.part u q.dst := by
  unfold want at h
  cases hp : x.s.part u with
  | none => rw [hp] at h; cases h
  | some a =>
    rw [hp] at h
    dsimp only at h
    have ha := hG.inv.range u a hp
    by_cases h1 : excess c x.s.wt a > 0 ∧ (c.light a (x.s.wt a) (c.H.nw u) = true ∨ x.heavy a = true) ∧ c.fixed u = false
    · rw [if_pos h1] at h
      have hv := over_valid E hG hu h1.1
      rcases target_spec E.wf E.fits E.ew hG hu hp hv (hs u) with ⟨t1, _⟩ | ⟨b, t1, t2, t3, t4, t5, t6⟩
      · rw [t1] at h; cases h
      · rw [t1] at h
        dsimp only at h
        rw [if_pos (Ne.symm t3)] at h
        cases h
        refine ⟨rfl, rfl, ha, (excess_iff E.wf hG ha).1 h1.1, ⟨hu, hp, h1.2.2, ?_, b, (valid_iff E.wf hG t2).1 t4⟩, ⟨?_, (valid_iff E.wf hG t2).1 t4, ?_⟩, t5⟩
        · rw [← hG.weight E.wf ha]; exact h1.2.1
        · rw [hp]; simpa using Ne.symm t3
        · intro b' hb' hc
          exact t6 b' hc.1 (by rintro rfl; exact hb' hp) ((valid_iff E.wf hG hc.1).2 hc)
    · rw [if_neg h1] at h; cases h

theorem want_ne {L : C.Lawful m c.k mx} (E : Env c m mx) {x : St σ} (hG : Good L c.H x.s) {scr : Nat → Scratch} (hs : CleanAll scr) {a u : Nat}
    (ho : Over c x.s.part a) (hm : Movable c x.heavy x.s.part a u) : want C c x scr u ≠ none := by
  obtain ⟨hu, hp, hf, hl, b0, hb0⟩ := hm
  have ha := hG.inv.range u a hp
  have hx := (excess_iff E.wf hG ha).2 ho
  unfold want
  rw [hp]
  dsimp only
  rw [if_pos ⟨hx, by rw [hG.weight E.wf ha]; exact hl, hf⟩]
  have hv := over_valid E hG hu hx
  rcases target_spec E.wf E.fits E.ew hG hu hp hv (hs u) with ⟨_, t2⟩ | ⟨b, t1, t2, t3, _⟩
  · have := t2 b0 hb0.1
    rw [(valid_iff E.wf hG hb0.1).2 hb0] at this
    cases this
  · rw [t1]
    dsimp only
    rw [if_pos (Ne.symm t3)]
    simp

/-! ### The moves of a block -/

theorem mem_wanted {x : St σ} {scr : Nat → Scratch} {a : Nat} {q : Mv} : q ∈ wanted C c x scr a ↔ (∃ u ∈ c.H.nodes, want C c x scr u = some q) ∧ q.src = a := by
  unfold wanted
  rw [List.mem_filter, List.mem_filterMap, decide_eq_true_iff]

theorem want_node {x : St σ} {scr : Nat → Scratch} {u : Nat} {q : Mv} (h : want C c x scr u = some q) : q.node = u := by
  unfold want at h
  cases hp : x.s.part u with
  | none => rw [hp] at h; cases h
  | some a =>
    rw [hp] at h
    dsimp only at h
    by_cases h1 : excess c x.s.wt a > 0 ∧ (c.light a (x.s.wt a) (c.H.nw u) = true ∨ x.heavy a = true) ∧ c.fixed u = false
    · rw [if_pos h1] at h
      cases ht : (targetOf c x.s.wt (GainComp.precompute c.o C c.H x.s.con a u (scr u)) u).1 with
      | none => rw [ht] at h; cases h
      | some b =>
        rw [ht] at h
        dsimp only at h
        by_cases h2 : a ≠ b
        · rw [if_pos h2] at h; cases h; rfl
        · rw [if_neg h2] at h; cases h
    · rw [if_neg h1] at h; cases h

theorem wanted_nodup (hw : c.H.WF) (x : St σ) (scr : Nat → Scratch) (a : Nat) : ((wanted C c x scr a).map Mv.node).Nodup := by
  have h0 : ∀ l : List Nat, l.Nodup → ((l.filterMap (want C c x scr)).map Mv.node).Nodup := by
    intro l
    induction l with
    | nil => intro _; simp
    | cons u l ih =>
      intro hn
      rw [List.filterMap_cons]
      cases h : want C c x scr u with
      | none => exact ih (List.nodup_cons.1 hn).2
      | some q =>
        dsimp only
        rw [List.map_cons, List.nodup_cons]
        refine ⟨?_, ih (List.nodup_cons.1 hn).2⟩
        rw [want_node h, List.mem_map]
        rintro ⟨q', hq', he⟩
        obtain ⟨u', hu', h'⟩ := List.mem_filterMap.1 hq'
        rw [want_node h'] at he
        subst he
        exact (List.nodup_cons.1 hn).1 hu'
  exact (List.filter_sublist.map Mv.node).nodup (h0 _ hw.nodes_nodup)

theorem before_asymm {a b : Mv} (h : before a b) : ¬ before b a := by
  unfold before at *; omega

theorem before_total {a b : Mv} (h : a.node ≠ b.node) : before a b ∨ before b a := by
  unfold before; omega

theorem sorted_unique {l l' : List Mv} (hp : l.Perm l') (h : l.Pairwise before) (h' : l'.Pairwise before) : l = l' :=
  List.Perm.eq_of_pairwise (le := before) (fun _ _ _ _ h1 h2 => absurd h2 (before_asymm h1)) h h' hp

theorem sorted_ex {l : List Mv} (hn : (l.map Mv.node).Nodup) : ∃ sm : List Mv, sm.Perm l ∧ sm.Pairwise before :=
  DetLP.sorted_exists hn before (fun a b d h1 h2 => by unfold before at *; omega) (fun _ _ => before_asymm) (fun _ _ => before_total)

/-- weight of the nodes of a list of moves -/
def sumW (c : Cfg) (l : List Mv) : Int := (l.map (fun q => c.H.nw q.node)).sum

theorem takeMoves_spec (ex : Int) : ∀ (l : List Mv) (sum : Int), ∃ rest, l = (takeMoves c ex sum l).1 ++ rest ∧
    (takeMoves c ex sum l).2 = sum + sumW c (takeMoves c ex sum l).1 ∧ (ex ≤ (takeMoves c ex sum l).2 ∨ rest = []) ∧
    ((takeMoves c ex sum l).1 = [] ∨ ∃ q0 q, (takeMoves c ex sum l).1 = q0 ++ [q] ∧ sum + sumW c q0 < ex) := by
  intro l
  induction l with
  | nil => intro sum; exact ⟨[], rfl, by unfold takeMoves sumW; simp, Or.inr rfl, Or.inl rfl⟩
  | cons q l ih =>
    intro sum
    unfold takeMoves
    by_cases h : sum < ex
    · rw [if_pos h]
      obtain ⟨rest, r1, r2, r3, r4⟩ := ih (sum + c.H.nw q.node)
      refine ⟨rest, by dsimp only; rw [List.cons_append, ← r1], ?_, r3, Or.inr ?_⟩
      · dsimp only
        rw [r2]; unfold sumW; rw [List.map_cons, List.sum_cons]; omega
      · dsimp only
        rcases r4 with r4 | ⟨q0, q1, r4, r5⟩
        · exact ⟨[], q, by rw [r4]; rfl, by unfold sumW; simpa using h⟩
        · refine ⟨q :: q0, q1, by rw [r4]; rfl, ?_⟩
          unfold sumW at r5 ⊢
          rw [List.map_cons, List.sum_cons]; omega
    · rw [if_neg h]
      exact ⟨q :: l, rfl, by unfold sumW; simp, Or.inl (by dsimp only; omega), Or.inl rfl⟩

/-- the moves of block `a` that are executed -/
def taken (c : Cfg) (wt : Nat → Int) (sorted : Nat → List Mv) (a : Nat) : List Mv := (takeMoves c (excess c wt a) 0 (sorted a)).1

theorem taken_sub (wt : Nat → Int) (sorted : Nat → List Mv) (a : Nat) : (taken c wt sorted a).Sublist (sorted a) := by
  obtain ⟨rest, h, _⟩ := takeMoves_spec (c := c) (excess c wt a) (sorted a) 0
  unfold taken
  conv_rhs => rw [h]
  exact List.sublist_append_left _ _

theorem mem_executed {wt : Nat → Int} {sorted : Nat → List Mv} {q : Mv} : q ∈ executed c wt sorted ↔ ∃ a < c.k, q ∈ taken c wt sorted a := by
  unfold executed taken
  rw [List.mem_flatMap]
  simp only [List.mem_range]

/-- sorted lists of the proposed moves -/
def SortedOk (C : ConInfo σ) (c : Cfg) (x : St σ) (scr : Nat → Scratch) (sorted : Nat → List Mv) : Prop :=
  ∀ a < c.k, (sorted a).Perm (wanted C c x scr a) ∧ (sorted a).Pairwise before

theorem taken_wanted {x : St σ} {scr : Nat → Scratch} {sorted : Nat → List Mv} (hS : SortedOk C c x scr sorted) {a : Nat} (ha : a < c.k) {q : Mv}
    (h : q ∈ taken c x.s.wt sorted a) : q ∈ wanted C c x scr a := (hS a ha).1.mem_iff.1 ((taken_sub _ _ _).subset h)

theorem executed_fit {L : C.Lawful m c.k mx} (E : Env c m mx) {x : St σ} (hG : Good L c.H x.s) {scr : Nat → Scratch} (hs : CleanAll scr) {sorted : Nat → List Mv}
    (hS : SortedOk C c x scr sorted) : Fit c.H c.k x.s.part (executed c x.s.wt sorted) := by
  have key : ∀ q ∈ executed c x.s.wt sorted, q.node ∈ c.H.nodes ∧ x.s.part q.node = some q.src ∧ q.dst < c.k ∧ q.src ≠ q.dst := by
    intro q hq
    obtain ⟨a, ha, hq⟩ := mem_executed.1 hq
    obtain ⟨⟨u, hu, hqu⟩, _⟩ := mem_wanted.1 (taken_wanted hS ha hq)
    obtain ⟨r1, r2, _, _, _, r6, _⟩ := want_some E hG hs hu hqu
    rw [r1]
    exact ⟨hu, r2, r6.2.1.1, fun he => r6.1 (he ▸ r2)⟩
  refine ⟨?_, fun q hq => (key q hq).1, fun q hq => (key q hq).2.1, fun q hq => (key q hq).2.2⟩
  unfold executed
  rw [List.map_flatMap, List.nodup_flatMap]
  refine ⟨fun a ha => ?_, ?_⟩
  · have h1 := ((hS a (List.mem_range.1 ha)).1.map Mv.node).nodup_iff.2 (wanted_nodup E.wf x scr a)
    exact ((taken_sub x.s.wt sorted a).map Mv.node).nodup h1
  · refine List.Pairwise.imp_of_mem (R := fun a b => a ≠ b) ?_ List.nodup_range
    intro a b ha hb hne v hv hv'
    obtain ⟨q, hq, e1⟩ := List.mem_map.1 hv
    obtain ⟨q', hq', e2⟩ := List.mem_map.1 hv'
    have w1 := mem_wanted.1 (taken_wanted hS (List.mem_range.1 ha) hq)
    have w2 := mem_wanted.1 (taken_wanted hS (List.mem_range.1 hb) hq')
    obtain ⟨u, hu, hqu⟩ := w1.1
    obtain ⟨u', hu', hqu'⟩ := w2.1
    have t1 := want_some E hG hs hu hqu
    have t2 := want_some E hG hs hu' hqu'
    have : u = u' := by rw [← t1.1, ← t2.1, e1, e2]
    rw [← this] at t2
    rw [t1.2.1] at t2
    have h3 := Option.some.inj t2.2.1
    exact hne (by rw [← w1.2, ← w2.2, h3])

/-- the configuration with the same hypergraph for the lemmas on label propagation -/
def lp (c : Cfg) : DetLP.Cfg Unit where
  H := c.H
  k := c.k
  o := c.o
  maxw := c.maxw
  fixed := c.fixed
  border := fun _ _ => true
  best := fun _ _ => (0, 0)
  useActive := false
  actSize := 0
  iters := 0
  subRounds := 0
  perm := fun γ _ => (([], fun _ => 0), γ)

theorem sum_taken {wt : Nat → Int} {sorted : Nat → List Mv} {a : Nat} (hs : ∀ b < c.k, ∀ q ∈ taken c wt sorted b, q.src = b ∧ q.dst ≠ a) :
    ∀ l : List Nat, l.Nodup → (∀ b ∈ l, b < c.k) →
    ((l.flatMap (taken c wt sorted)).map (fun q => DetLP.delta (lp c) q a)).sum = if a ∈ l then - sumW c (taken c wt sorted a) else 0 := by
  intro l
  induction l with
  | nil => intro _ _; simp
  | cons b l ih =>
    intro hn hl
    rw [List.flatMap_cons, List.map_append, List.sum_append, ih (List.nodup_cons.1 hn).2 (fun b hb => hl b (List.mem_cons_of_mem _ hb))]
    have hb := hs b (hl b List.mem_cons_self)
    by_cases h : b = a
    · subst h
      rw [if_neg (List.nodup_cons.1 hn).1, if_pos List.mem_cons_self]
      have : ∀ l : List Mv, (∀ q ∈ l, q.src = b ∧ q.dst ≠ b) → (l.map (fun q => DetLP.delta (lp c) q b)).sum = - sumW c l := by
        intro l
        induction l with
        | nil => intro _; simp [sumW]
        | cons q l ih =>
          intro h
          have hq := h q List.mem_cons_self
          have := ih (fun y hy => h y (List.mem_cons_of_mem _ hy))
          unfold sumW at this ⊢
          rw [List.map_cons, List.sum_cons, this, List.map_cons, List.sum_cons]
          unfold DetLP.delta
          rw [if_neg hq.2, if_pos hq.1]
          show 0 - c.H.nw q.node + _ = _
          omega
      rw [this _ hb]; omega
    · have h0 : ((taken c wt sorted b).map (fun q => DetLP.delta (lp c) q a)).sum = 0 := by
        apply List.sum_eq_zero
        intro y hy
        obtain ⟨q, hq, rfl⟩ := List.mem_map.1 hy
        unfold DetLP.delta
        rw [if_neg (hb q hq).2, if_neg (by rw [(hb q hq).1]; exact h)]
        rfl
      rw [h0, zero_add]
      by_cases h2 : a ∈ l
      · rw [if_pos h2, if_pos (List.mem_cons_of_mem _ h2)]
      · rw [if_neg h2, if_neg (by simp [Ne.symm h, h2])]

/-- Effect of a round. -/
theorem round_spec {L : C.Lawful m c.k mx} (E : Env c m mx) {x x' : St σ} {g : Int} (hG : Good L c.H x.s) (h : Round C c x x' g) :
    ∃ scr sorted, CleanAll scr ∧ SortedOk C c x scr sorted ∧ Good L c.H x'.s ∧ x'.s.part = moveAll x.s.part (executed c x.s.wt sorted) ∧
      x'.heavy = heavyAfter c x sorted ∧ g = c.H.objective x'.s.part c.o - c.H.objective x.s.part c.o := by
  obtain ⟨scr, sorted, as, h1, h2, h3, h4, h5, h6, h7⟩ := h
  have hF := executed_fit E hG h1 h2
  obtain ⟨r1, r2, r3⟩ := DetLP.moves_spec (o := c.o) E.wf E.fits E.nw E.tot hG hF.nodup h3 h4 h5
  exact ⟨scr, sorted, h1, h2, r1, r2, h6, by rw [h7, r3]⟩

theorem round_exists {L : C.Lawful m c.k mx} (E : Env c m mx) {x : St σ} (hG : Good L c.H x.s) : ∃ x' g, Round C c x x' g := by
  let scr : Nat → Scratch := fun _ => ⟨⟨0, fun _ => 0, fun _ => (0, 0)⟩, 0⟩
  have hs : CleanAll scr := fun _ => ⟨rfl, rfl⟩
  choose sorted h1 using fun a => sorted_ex (wanted_nodup (C := C) E.wf x scr a)
  have hS : SortedOk C c x scr sorted := fun a _ => h1 a
  obtain ⟨as, s', r1, r2, r3⟩ := DetLP.moves_exist (o := c.o) E.wf E.fits E.nw E.tot _ hG (executed_fit E hG hs hS)
  exact ⟨⟨s', heavyAfter c x sorted⟩, _, scr, sorted, as, hs, hS, by rw [r1], r2, r3, rfl, rfl⟩

theorem want_det (E : Env c m mx) {x y : St (Packed × ConnSets)} (hG : Good (denseLawful m c.k mx) c.H x.s)
    (hG' : Good (denseLawful m c.k mx) c.H y.s) (hp : x.s.part = y.s.part) (hh : ∀ a < c.k, x.heavy a = y.heavy a) {scr scr' : Nat → Scratch} (hs : CleanAll scr) (hs' : CleanAll scr')
    {u : Nat} (hu : u ∈ c.H.nodes) : want denseCon c x scr u = want denseCon c y scr' u := by
  unfold want
  rw [← hp]
  cases hpu : x.s.part u with
  | none => rfl
  | some a =>
    have ha := hG.inv.range u a hpu
    have hw : x.s.wt a = y.s.wt a := by rw [hG.weight E.wf ha, hG'.weight E.wf ha, hp]
    have he : excess c x.s.wt a = excess c y.s.wt a := by unfold excess; rw [hw]
    have ht := target_det E.wf E.fits hG hG' hp hu hpu (hs u) (hs' u)
    dsimp only
    rw [he, hw, hh a ha, ht]

theorem round_det (E : Env c m mx) {x y x' y' : St (Packed × ConnSets)} {g g' : Int} (hG : Good (denseLawful m c.k mx) c.H x.s)
    (hG' : Good (denseLawful m c.k mx) c.H y.s) (hp : x.s.part = y.s.part) (hh : ∀ a < c.k, x.heavy a = y.heavy a) (h : Round denseCon c x x' g) (h' : Round denseCon c y y' g') :
    x'.s.part = y'.s.part ∧ (∀ a < c.k, x'.heavy a = y'.heavy a) ∧ g = g' := by
  obtain ⟨scr, so, r1, r2, r3, r4, r5, r6⟩ := round_spec E hG h
  obtain ⟨scr', so', q1, q2, q3, q4, q5, q6⟩ := round_spec E hG' h'
  have hso : ∀ a < c.k, so a = so' a := by
    intro a ha
    refine sorted_unique ((r2 a ha).1.trans ?_) (r2 a ha).2 (q2 a ha).2
    have : wanted denseCon c x scr a = wanted denseCon c y scr' a := by
      unfold wanted
      rw [List.filterMap_congr (fun u hu => want_det E hG hG' hp hh r1 q1 hu)]
    rw [this]
    exact (q2 a ha).1.symm
  have hex : ∀ a < c.k, excess c x.s.wt a = excess c y.s.wt a := by
    intro a ha; unfold excess; rw [hG.weight E.wf ha, hG'.weight E.wf ha, hp]
  have hA : executed c x.s.wt so = executed c y.s.wt so' := by
    unfold executed
    apply List.flatMap_congr
    intro a ha
    rw [hex a (List.mem_range.1 ha), hso a (List.mem_range.1 ha)]
  have hpart : x'.s.part = y'.s.part := by rw [r4, q4, hp, hA]
  refine ⟨hpart, fun a ha => ?_, by rw [r6, q6, hpart, hp]⟩
  rw [r5, q5]
  unfold heavyAfter
  rw [hex a ha, hso a ha, hh a ha]

end DReb
end Verif
