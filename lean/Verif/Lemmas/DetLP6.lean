import Verif.Lemmas.DetLP5
/-! # Steps of the deterministic label propagation: effect, determinism, existence -/
namespace Verif
namespace DetLP
open SMap (wr)
open CSt Rollback PHG

variable {Γ σ : Type} {C : ConInfo σ} {m mx : Nat}

/-- assumptions on the input -/
structure Env (c : Cfg Γ) (m mx : Nat) : Prop where
  wf : c.H.WF
  fits : c.H.Fits m mx
  nw : ∀ u ∈ c.H.nodes, 0 ≤ c.H.nw u
  tot : (c.H.nodes.map c.H.nw).sum ≤ maxHNW
  best : ∀ Φ u, (c.best Φ u).1 < c.k
  permAll : ∀ γ, (c.perm γ none).1.1.Nodup
  permAct : ∀ γ l, l.Nodup → (c.perm γ (some l)).1.1.Nodup

/-! ### Unique sorted lists -/

theorem before_asymm {a b : Mv} (h : before a b) : ¬ before b a := by unfold before at *; omega

theorem before_total {a b : Mv} (h : a.node ≠ b.node) : before a b ∨ before b a := by unfold before; omega

theorem sorted_unique {l l' : List Mv} (hp : l.Perm l') (h : l.Pairwise before) (h' : l'.Pairwise before) : l = l' :=
  List.Perm.eq_of_pairwise (le := before) (fun _ _ _ _ h1 h2 => absurd h2 (before_asymm h1)) h h' hp

theorem grouped_unique {k : Nat} {ms ms' sm sm' : List Mv} (hm : ms.Perm ms') (h : Grouped k ms sm) (h' : Grouped k ms' sm') : sm = sm' :=
  List.Perm.eq_of_pairwise (le := fun a b => key k a < key k b ∨ (key k a = key k b ∧ before a b))
    (fun a b _ _ h1 h2 => by
      rcases h1 with h1 | h1 <;> rcases h2 with h2 | h2
      · omega
      · omega
      · omega
      · exact absurd h2.2 (before_asymm h1.2)) h.2 h'.2 (h.1.trans (hm.trans h'.1.symm))

theorem sorted_exists {l : List Mv} (hn : (l.map Mv.node).Nodup) (r : Mv → Mv → Prop) (ht : ∀ a b d, ¬ r b a → ¬ r d b → ¬ r d a) (ha : ∀ a b, r a b → ¬ r b a)
    (htot : ∀ a b, a.node ≠ b.node → r a b ∨ r b a) : ∃ sm : List Mv, sm.Perm l ∧ sm.Pairwise r := by
  classical
  refine ⟨l.mergeSort (fun a b => decide (¬ r b a)), List.mergeSort_perm _ _, ?_⟩
  have hs := List.pairwise_mergeSort (le := fun a b => decide (¬ r b a)) (fun a b d h1 h2 => by
    simp only [decide_eq_true_eq] at *; exact ht a b d h1 h2) (fun a b => by
    simp only [Bool.or_eq_true, decide_eq_true_eq]; by_cases h : r b a
    · exact .inr (ha _ _ h)
    · exact .inl h) l
  have hnd : ((l.mergeSort (fun a b => decide (¬ r b a))).map Mv.node).Nodup := (((List.mergeSort_perm _ _).map _).nodup_iff).2 hn
  have hnd' : (l.mergeSort (fun a b => decide (¬ r b a))).Pairwise (fun a b => a.node ≠ b.node) := List.pairwise_map.1 hnd
  refine (hs.and hnd').imp ?_
  rintro a b ⟨h1, h2⟩
  simp only [decide_eq_true_eq] at h1
  exact (htot a b h2).resolve_right h1

theorem sorted_before {l : List Mv} (hn : (l.map Mv.node).Nodup) : ∃ sm : List Mv, sm.Perm l ∧ sm.Pairwise before :=
  sorted_exists hn before (fun a b d h1 h2 => by unfold before at *; omega) (fun _ _ => before_asymm) (fun _ _ => before_total)

theorem grouped_exists (k : Nat) {l : List Mv} (hn : (l.map Mv.node).Nodup) : ∃ sm : List Mv, Grouped k l sm :=
  sorted_exists hn _ (fun a b d h1 h2 => by unfold before at *; omega) (fun a b h => by unfold before at *; omega)
    (fun a b h => by unfold before; omega)

/-! ### Lists of moves -/

variable {c : Cfg Γ}

theorem filter_not_perm {α : Type} (p : α → Bool) : ∀ l : List α, (l.filter p ++ l.filter (fun x => !p x)).Perm l := by
  intro l
  induction l with
  | nil => simp
  | cons a l ih =>
    by_cases h : p a = true
    · rw [List.filter_cons_of_pos h, List.filter_cons_of_neg (by simp [h]), List.cons_append]; exact ih.cons a
    · rw [List.filter_cons_of_neg h, List.filter_cons_of_pos (by simp [h])]
      exact List.perm_middle.trans (ih.cons a)

theorem chosen_others (sm : List Mv) (wt : Nat → Int) : (chosen c sm wt ++ others c sm wt).Perm sm := by
  unfold chosen others
  rw [← List.map_append]
  have := (filter_not_perm (fun x : Mv × Nat => decide (x.2 < swapPrefix c sm wt x.1.src x.1.dst)) sm.zipIdx).map Prod.fst
  rwa [List.zipIdx_map_fst] at this

theorem Fit.after {H : HG} {k : Nat} {Φ : Assign} {A B : List Mv} (h : Fit H k Φ (A ++ B)) : Fit H k (moveAll Φ A) B := by
  refine ⟨(h.sublist (List.sublist_append_right A B)).nodup, fun x hx => h.mem x (by simp [hx]), ?_, fun x hx => h.dst x (by simp [hx])⟩
  intro x hx
  have hn := h.nodup
  rw [List.map_append, List.nodup_append] at hn
  rw [moveAll_other A (fun hh => hn.2.2 _ hh _ (List.mem_map.2 ⟨x, hx, rfl⟩) rfl)]
  exact h.src x (by simp [hx])

theorem Fit.okMoves (E : Env c m mx) {Φ : Assign} (hr : ∀ v b, Φ v = some b → b < c.k) {A : List Mv} (h : Fit c.H c.k Φ A) : OkMoves c A :=
  fun x hx => ⟨hr _ _ (h.src x hx), (h.dst x hx).1, (h.dst x hx).2, E.nw _ (h.mem x hx)⟩

/-- the calculated moves fit to the assignment -/
theorem want_fit (E : Env c m mx) {Φ : Assign} {us : List Nat} (hn : us.Nodup) : Fit c.H c.k Φ (us.filterMap (want c Φ)) := by
  have hw : ∀ u x, want c Φ u = some x → x.node = u ∧ u ∈ c.H.nodes ∧ Φ u = some x.src ∧ x.dst < c.k ∧ x.src ≠ x.dst := by
    intro u x h
    unfold want at h
    split_ifs at h with h1
    simp only [not_or, not_not] at h1
    cases hb : Φ u with
    | none => rw [hb] at h; cases h
    | some b =>
      rw [hb] at h
      simp only at h
      split_ifs at h with h2
      cases h
      exact ⟨rfl, h1.2.1, rfl, E.best Φ u, Ne.symm h2.2⟩
  refine ⟨?_, ?_, ?_, ?_⟩
  · have hsub : ((us.filterMap (want c Φ)).map Mv.node).Sublist us := by
      clear hn
      induction us with
      | nil => simp
      | cons u us ih =>
        cases hu : want c Φ u with
        | none => rw [List.filterMap_cons_none hu]; exact ih.cons u
        | some x =>
          rw [List.filterMap_cons_some hu, List.map_cons, (hw u x hu).1]
          exact ih.cons_cons u
    exact hn.sublist hsub
  · intro x hx
    obtain ⟨u, _, hu⟩ := List.mem_filterMap.1 hx
    obtain ⟨h1, h2, _⟩ := hw u x hu
    rw [h1]; exact h2
  · intro x hx
    obtain ⟨u, _, hu⟩ := List.mem_filterMap.1 hx
    obtain ⟨h1, h2, h3, _⟩ := hw u x hu
    rw [h1]; exact h3
  · intro x hx
    obtain ⟨u, _, hu⟩ := List.mem_filterMap.1 hx
    exact (hw u x hu).2.2.2

theorem want_free {Φ : Assign} {us : List Nat} {x : Mv} (hx : x ∈ us.filterMap (want c Φ)) : c.fixed x.node = false ∧ x.node ∈ c.H.nodes := by
  obtain ⟨u, _, h⟩ := List.mem_filterMap.1 hx
  unfold want at h
  split_ifs at h with h1
  simp only [not_or, not_not] at h1
  cases hb : Φ u with
  | none => rw [hb] at h; cases h
  | some b =>
    rw [hb] at h
    simp only at h
    split_ifs at h with h2
    cases h
    exact ⟨by simpa using h1.1, h1.2.1⟩

/-! ### Effect of `applyMovesIf` -/

theorem wt_outside {L : C.Lawful m c.k mx} (E : Env c m mx) {as : List Act} {s s' : CSt σ} (hI : Inv L c.H s) (he : CSt.exec C c.H c.k c.o s as = some s') :
    ∀ b, c.k ≤ b → s'.wt b = s.wt b := by
  refine (exec_ind (C := C) (o := c.o) (Q := fun t => Inv L c.H t ∧ ∀ b, c.k ≤ b → t.wt b = s.wt b) ?_ as ⟨hI, fun _ _ => rfl⟩ he).2
  intro t a t' h hst
  refine ⟨(h.1.step E.wf E.fits hst).1, fun b hb => ?_⟩
  rw [← h.2 b hb]
  have hp : ∀ u, t.proc u ≠ .idle → ProcOK c.H c.k u (t.part u) (t.moved u) (t.proc u) := fun u hu => h.1.procOK u (h.1.mem hu)
  cases hst with
  | @accept u src dst lim hu hd hi hp hne hle => simp only [addWt]; rw [if_neg (by omega)]
  | @reject u src dst lim hu hd hi hp hne => simp only [addWt]; rw [if_neg (by omega)]
  | @release u src dst hq =>
    have h1 := hp u (by rw [hq]; simp)
    rw [hq] at h1
    obtain ⟨_, _, h2, _⟩ := h1
    simp only [addWt]; rw [if_neg (by omega)]
  | @undo u dst hq =>
    have h1 := hp u (by rw [hq]; simp)
    rw [hq] at h1
    have h2 : dst < c.k := h1
    simp only [addWt]; rw [if_neg (by omega)]
  | _ => rfl

open Classical in
/-- effect of the activation -/
def AEff (c : Cfg Γ) (rd : Nat) (A : List Mv) (a a' : ASt) : Prop :=
  if c.useActive then (∀ e, a'.lmE e = if touched c rd A a e then rd else a.lmE e) ∧ (∀ v, a'.lmN v = if woken c rd A a v then rd else a.lmN v) ∧
    ∀ v, a'.act.count v = a.act.count v + if woken c rd A a v then 1 else 0
  else a' = a

theorem apply_spec {L : C.Lawful m c.k mx} (E : Env c m mx) {rd : Nat} {x x' : St σ} {A : List Mv} {g : Int} (hG : Good L c.H x.s)
    (hF : (A.map Mv.node).Nodup) (h : Apply C c rd x A x' g) :
    Good L c.H x'.s ∧ x'.s.part = moveAll x.s.part A ∧ g = c.H.objective x.s.part c.o - c.H.objective x'.s.part c.o ∧
    (∀ b, c.k ≤ b → x'.s.wt b = x.s.wt b) ∧ AEff c rd A x.a x'.a := by
  obtain ⟨⟨as, h1, h2, h3, h4⟩, h5⟩ := h
  obtain ⟨r1, r2, r3⟩ := moves_spec (o := c.o) E.wf E.fits E.nw E.tot hG hF h1 h2 h3
  refine ⟨r1, r2, by rw [h4, r3]; omega, wt_outside E hG.inv h2, ?_⟩
  unfold AEff
  split_ifs at h5 ⊢
  · exact activation_spec h5
  · exact h5

theorem apply_exists {L : C.Lawful m c.k mx} (E : Env c m mx) {rd : Nat} {x : St σ} {A : List Mv} (hG : Good L c.H x.s)
    (hF : Fit c.H c.k x.s.part A) : ∃ x' g, Apply C c rd x A x' g := by
  obtain ⟨as, s', h1, h2, h3⟩ := moves_exist (o := c.o) E.wf E.fits E.nw E.tot A hG hF
  by_cases hu : c.useActive = true
  · obtain ⟨a', ha⟩ := activation_exists (c := c) rd A x.a
    exact ⟨⟨s', a'⟩, _, ⟨as, by rw [h1], h2, h3, rfl⟩, by rw [if_pos hu]; exact ha⟩
  · exact ⟨⟨s', x.a⟩, _, ⟨as, by rw [h1], h2, h3, rfl⟩, by rw [if_neg hu]⟩

/-- the same data up to the order of the list of active nodes -/
structure ASame (a b : ASt) : Prop where
  lmN : a.lmN = b.lmN
  lmE : a.lmE = b.lmE
  act : a.act.Perm b.act

theorem AEff.det {rd : Nat} {A : List Mv} {a b a' b' : ASt} (h : AEff c rd A a a') (h' : AEff c rd A b b') (hs : ASame a b) : ASame a' b' := by
  unfold AEff at h h'
  split_ifs at h h' with hu
  · obtain ⟨h1, h2, h3⟩ := h
    obtain ⟨k1, k2, k3⟩ := h'
    have t1 : touched c rd A a = touched c rd A b := by unfold touched; rw [hs.lmE]
    have t2 : woken c rd A a = woken c rd A b := by unfold woken; rw [hs.lmN, t1]
    refine ⟨funext fun v => by rw [h2, k2, t2, hs.lmN], funext fun e => by rw [h1, k1, t1, hs.lmE], ?_⟩
    rw [List.perm_iff_count]
    intro v
    rw [h3, k3, t2, (List.perm_iff_count.1 hs.act) v]
  · rw [h, h']; exact hs

/-- active nodes are marked and occur once -/
def ANod (rd : Nat) (a : ASt) : Prop := a.act.Nodup ∧ ∀ v ∈ a.act, a.lmN v = rd

theorem AEff.nod {rd : Nat} {A : List Mv} {a a' : ASt} (h : AEff c rd A a a') (hn : ANod rd a) : ANod rd a' := by
  unfold AEff at h
  split_ifs at h with hu
  · obtain ⟨h1, h2, h3⟩ := h
    constructor
    · rw [List.nodup_iff_count_le_one]
      intro v
      rw [h3]
      split_ifs with hw
      · have : v ∉ a.act := fun hh => hw.2 (hn.2 v hh)
        rw [List.count_eq_zero.2 this]
      · exact List.nodup_iff_count_le_one.1 hn.1 v
    · intro v hv
      rw [h2]
      split_ifs with hw
      · rfl
      · have := h3 v
        rw [if_neg hw] at this
        have hc : 0 < a'.act.count v := List.count_pos_iff.2 hv
        exact hn.2 v (List.count_pos_iff.1 (by omega))
  · rw [h]; exact hn

/-- same partition and same data of the active nodes -/
structure Eqv (x y : St σ) : Prop where
  part : x.s.part = y.s.part
  wt : x.s.wt = y.s.wt
  a : ASame x.a y.a

theorem apply_det {L : C.Lawful m c.k mx} (E : Env c m mx) {rd : Nat} {x x' y y' : St σ} {A : List Mv} {g g' : Int} (hG : Good L c.H x.s) (hG' : Good L c.H y.s)
    (hF : (A.map Mv.node).Nodup) (h : Apply C c rd x A x' g) (h' : Apply C c rd y A y' g') (he : Eqv x y) : Eqv x' y' ∧ g = g' := by
  obtain ⟨a1, a2, a3, a4, a5⟩ := apply_spec E hG hF h
  obtain ⟨b1, b2, b3, b4, b5⟩ := apply_spec E hG' hF h'
  have hp : x'.s.part = y'.s.part := by rw [a2, b2, he.part]
  refine ⟨⟨hp, ?_, a5.det b5 he.a⟩, by rw [a3, b3, he.part, hp]⟩
  funext b
  by_cases hb : b < c.k
  · rw [a1.weight E.wf hb, b1.weight E.wf hb, hp]
  · rw [a4 b (by omega), b4 b (by omega), he.wt]

/-! ### Relation between the states before and after a step -/

/-- the partition is balanced -/
def Balanced (c : Cfg Γ) (Φ : Assign) : Prop := ∀ b < c.k, c.H.blockWeight Φ b ≤ c.maxw b

/-- what a step guarantees; `S` are the nodes it may move -/
structure Eff (L : C.Lawful m c.k mx) (rd : Nat) (S : Nat → Prop) (x x' : St σ) (g : Int) : Prop where
  good : Good L c.H x'.s
  gain : g = c.H.objective x.s.part c.o - c.H.objective x'.s.part c.o
  nonneg : 0 ≤ g
  moved : ∀ v, ¬ S v → x'.s.part v = x.s.part v
  bal : (∀ b < c.k, c.maxw b < 2 ^ 31) → Balanced c x.s.part → Balanced c x'.s.part
  nod : ANod rd x.a → ANod rd x'.a

theorem Eff.refl {L : C.Lawful m c.k mx} {rd : Nat} {S : Nat → Prop} {x : St σ} (h : Good L c.H x.s) : Eff (c := c) L rd S x x 0 :=
  ⟨h, by omega, le_rfl, fun _ _ => rfl, fun _ h => h, fun h => h⟩

theorem Eff.trans {L : C.Lawful m c.k mx} {rd : Nat} {S : Nat → Prop} {x y z : St σ} {g g' : Int} (h : Eff (c := c) L rd S x y g) (h' : Eff (c := c) L rd S y z g') :
    Eff (c := c) L rd S x z (g + g') :=
  ⟨h'.good, by rw [h.gain, h'.gain]; omega, by have := h.nonneg; have := h'.nonneg; omega, fun v hv => (h'.moved v hv).trans (h.moved v hv),
    fun h0 hb => h'.bal h0 (h.bal h0 hb), fun hn => h'.nod (h.nod hn)⟩

theorem Eff.mono {L : C.Lawful m c.k mx} {rd : Nat} {S S' : Nat → Prop} {x y : St σ} {g : Int} (h : Eff (c := c) L rd S x y g) (hs : ∀ v, S v → S' v) :
    Eff (c := c) L rd S' x y g :=
  ⟨h.good, h.gain, h.nonneg, fun v hv => h.moved v (fun hh => hv (hs v hh)), h.bal, h.nod⟩

/-- perform and undo moves -/
theorem undo_spec {L : C.Lawful m c.k mx} (E : Env c m mx) {rd : Nat} {x x1 x2 : St σ} {A : List Mv} {g g' : Int} (hG : Good L c.H x.s)
    (hF : Fit c.H c.k x.s.part A) (h : Apply C c rd x A x1 g) (h' : Apply C c rd x1 (A.map Mv.swap) x2 g') :
    Eff (c := c) L rd (fun _ => False) x x2 (g + g') ∧ g + g' = 0 ∧ x2.s.part = x.s.part := by
  obtain ⟨a1, a2, a3, a4, a5⟩ := apply_spec E hG hF.nodup h
  have hF' := hF.swap hG.inv.range
  obtain ⟨b1, b2, b3, b4, b5⟩ := apply_spec E a1 hF'.nodup h'
  have hp : x2.s.part = x.s.part := by rw [b2, a2, moveAll_swap hF]
  have hz : g + g' = 0 := by rw [a3, b3, hp]; omega
  exact ⟨⟨b1, by rw [hz, hp]; omega, le_of_eq hz.symm, fun v _ => by rw [hp], fun _ hb => by rw [hp]; exact hb, fun hn => b5.nod (a5.nod hn)⟩, hz, hp⟩

theorem blockWeight_nonneg (E : Env c m mx) (Φ : Assign) (b : Nat) : 0 ≤ c.H.blockWeight Φ b := by
  unfold HG.blockWeight
  apply List.sum_nonneg
  intro x hx
  obtain ⟨u, hu, rfl⟩ := List.mem_map.1 hx
  first
    | exact E.nw u (List.mem_of_mem_filter hu)
    | (split_ifs
       · exact E.nw u hu
       · exact le_rfl)

/-! ### The first step -/

theorem prefix_spec {L : C.Lawful m c.k mx} (E : Env c m mx) {rd : Nat} {x x' : St σ} {ms rest : List Mv} {g : Int} {rev : Bool} (hG : Good L c.H x.s)
    (hF : Fit c.H c.k x.s.part ms) (h : PrefixStep C c rd x ms x' g rev rest) :
    Eff (c := c) L rd (fun v => v ∈ ms.map Mv.node) x x' g ∧ Fit c.H c.k x'.s.part rest ∧ ∀ y ∈ rest, y ∈ ms := by
  cases h with
  | keep sm rest x1 g hg ha hr h0 =>
    have hFs := hF.perm hg.1
    have hco := hFs.perm (chosen_others (c := c) sm x.s.wt)
    have hch := hFs.sublist (chosen_sublist (c := c) sm x.s.wt)
    obtain ⟨a1, a2, a3, a4, a5⟩ := apply_spec E hG hch.nodup ha
    refine ⟨⟨a1, a3, h0, ?_, ?_, a5.nod⟩, ?_, ?_⟩
    · intro v hv
      rw [a2]
      apply moveAll_other
      intro hh
      exact hv ((hg.1.map _).subset (((chosen_sublist (c := c) sm x.s.wt).map _).subset hh))
    · intro hm hb b hbk
      rw [a2, blockWeight_moveAll c E.wf _ _ hch, ← hG.weight E.wf hbk]
      refine chosen_balanced hg.keySorted (hFs.okMoves E hG.inv.range) ?_ hbk
      intro b' hb'
      rw [hG.weight E.wf hb']
      refine ⟨hb b' hb', ?_⟩
      have := hm b' hb'
      have := blockWeight_nonneg E x.s.part b'
      omega
    · rw [a2]; exact (hco.after).perm hr
    · intro y hy; exact hg.1.subset ((others_sublist (c := c) sm x.s.wt).subset (hr.subset hy))
  | undo sm rest x1 x2 g g' hg ha hr h0 hu =>
    have hFs := hF.perm hg.1
    have hch := hFs.sublist (chosen_sublist (c := c) sm x.s.wt)
    obtain ⟨e, hz, hp⟩ := undo_spec E hG hch ha hu
    refine ⟨e.mono (fun _ h => h.elim), ?_, ?_⟩
    · rw [hp]; exact (hFs.sublist (others_sublist (c := c) sm x.s.wt)).perm hr
    · intro y hy; exact hg.1.subset ((others_sublist (c := c) sm x.s.wt).subset (hr.subset hy))

theorem prefix_det {L : C.Lawful m c.k mx} (E : Env c m mx) {rd : Nat} {x x' y y' : St σ} {ms ms' rest rest' : List Mv} {g g' : Int} {rev rev' : Bool}
    (hG : Good L c.H x.s) (hG' : Good L c.H y.s) (hF : Fit c.H c.k x.s.part ms) (hm : ms.Perm ms') (he : Eqv x y)
    (h : PrefixStep C c rd x ms x' g rev rest) (h' : PrefixStep C c rd y ms' y' g' rev' rest') : Eqv x' y' ∧ g = g' ∧ rev = rev' ∧ rest.Perm rest' := by
  have hF' : Fit c.H c.k y.s.part ms' := by rw [← he.part]; exact hF.perm hm.symm
  cases h with
  | keep sm rest x1 g hg ha hr h0 =>
    cases h' with
    | keep sm' rest' y1 g' hg' ha' hr' h0' =>
      obtain rfl := grouped_unique hm hg hg'
      rw [← he.wt] at ha' hr'
      obtain ⟨r1, r2⟩ := apply_det E hG hG' ((hF.perm hg.1).sublist (chosen_sublist (c := c) sm x.s.wt)).nodup ha ha' he
      exact ⟨r1, r2, rfl, hr.trans hr'.symm⟩
    | undo sm' rest' y1 y2 g1 g2 hg' ha' hr' h0' hu' =>
      obtain rfl := grouped_unique hm hg hg'
      rw [← he.wt] at ha'
      obtain ⟨r1, r2⟩ := apply_det E hG hG' ((hF.perm hg.1).sublist (chosen_sublist (c := c) sm x.s.wt)).nodup ha ha' he
      omega
  | undo sm rest x1 x2 g1 g2 hg ha hr h0 hu =>
    have hch := (hF.perm hg.1).sublist (chosen_sublist (c := c) sm x.s.wt)
    cases h' with
    | keep sm' rest' y1 g' hg' ha' hr' h0' =>
      obtain rfl := grouped_unique hm hg hg'
      rw [← he.wt] at ha'
      obtain ⟨r1, r2⟩ := apply_det E hG hG' hch.nodup ha ha' he
      omega
    | undo sm' rest' y1 y2 g1' g2' hg' ha' hr' h0' hu' =>
      obtain rfl := grouped_unique hm hg hg'
      rw [← he.wt] at ha' hr' hu'
      obtain ⟨r1, r2⟩ := apply_det E hG hG' hch.nodup ha ha' he
      have q1 := (apply_spec E hG hch.nodup ha).1
      have q2 := (apply_spec E hG' hch.nodup ha').1
      obtain ⟨r3, r4⟩ := apply_det E q1 q2 (hch.swap hG.inv.range).nodup hu hu' r1
      exact ⟨r3, by rw [r2, r4], rfl, hr.trans hr'.symm⟩

theorem prefix_exists {L : C.Lawful m c.k mx} (E : Env c m mx) {rd : Nat} {x : St σ} {ms : List Mv} (hG : Good L c.H x.s)
    (hF : Fit c.H c.k x.s.part ms) : ∃ x' g rev rest, PrefixStep C c rd x ms x' g rev rest := by
  obtain ⟨sm, hg⟩ := grouped_exists c.k hF.nodup
  have hch := (hF.perm hg.1).sublist (chosen_sublist (c := c) sm x.s.wt)
  obtain ⟨x1, g, ha⟩ := apply_exists (rd := rd) E hG hch
  by_cases h0 : 0 ≤ g
  · exact ⟨x1, g, false, _, .keep sm _ x1 g hg ha (List.Perm.refl _) h0⟩
  · obtain ⟨a1, a2, _⟩ := apply_spec E hG hch.nodup ha
    obtain ⟨x2, g', hu⟩ := apply_exists (rd := rd) E a1 (by rw [a2]; exact hch.swap hG.inv.range)
    exact ⟨x2, _, true, _, .undo sm _ x1 x2 g g' hg ha (List.Perm.refl _) (by omega) hu⟩

/-! ### The second step -/

theorem sorted_spec {L : C.Lawful m c.k mx} (E : Env c m mx) {rd : Nat} {x x' : St σ} {ms : List Mv} {g : Int} (hG : Good L c.H x.s)
    (hF : Fit c.H c.k x.s.part ms) (h : SortedStep C c rd x ms x' g) : Eff (c := c) L rd (fun v => v ∈ ms.map Mv.node) x x' g := by
  cases h with
  | keep sm t x1 g hp hs ht ha h0 =>
    have hFs := hF.perm hp
    have hch := hFs.sublist (validMoves_sublist sm t)
    obtain ⟨a1, a2, a3, a4, a5⟩ := apply_spec E hG hch.nodup ha
    refine ⟨a1, a3, h0, ?_, ?_, a5.nod⟩
    · intro v hv
      rw [a2]
      apply moveAll_other
      intro hh
      exact hv ((hp.map _).subset (((validMoves_sublist sm t).map _).subset hh))
    · intro hm hb b hbk
      obtain ⟨r1, r2⟩ := reverted_spec (hFs.okMoves E hG.inv.range) ht
      rw [a2, blockWeight_moveAll c E.wf _ _ hch, ← hG.weight E.wf hbk, validMoves_sum, ← r1.pw]
      exact r2 (fun b' hb' => by rw [hG.weight E.wf hb']; exact hb b' hb') b hbk
  | undo sm t x1 x2 g g' hp hs ht ha h0 hu =>
    have hch := (hF.perm hp).sublist (validMoves_sublist sm t)
    exact (undo_spec E hG hch ha hu).1.mono (fun _ h => h.elim)

theorem sorted_det {L : C.Lawful m c.k mx} (E : Env c m mx) {rd : Nat} {x x' y y' : St σ} {ms ms' : List Mv} {g g' : Int}
    (hG : Good L c.H x.s) (hG' : Good L c.H y.s) (hF : Fit c.H c.k x.s.part ms) (hm : ms.Perm ms') (he : Eqv x y)
    (h : SortedStep C c rd x ms x' g) (h' : SortedStep C c rd y ms' y' g') : Eqv x' y' ∧ g = g' := by
  cases h with
  | keep sm t x1 g hp hs ht ha h0 =>
    cases h' with
    | keep sm' t' y1 g' hp' hs' ht' ha' h0' =>
      obtain rfl := sorted_unique (hp.trans (hm.trans hp'.symm)) hs hs'
      rw [← he.wt] at ht'
      obtain rfl := reverted_det ht ht'
      exact apply_det E hG hG' ((hF.perm hp).sublist (validMoves_sublist sm t)).nodup ha ha' he
    | undo sm' t' y1 y2 g1 g2 hp' hs' ht' ha' h0' hu' =>
      obtain rfl := sorted_unique (hp.trans (hm.trans hp'.symm)) hs hs'
      rw [← he.wt] at ht'
      obtain rfl := reverted_det ht ht'
      obtain ⟨_, r2⟩ := apply_det E hG hG' ((hF.perm hp).sublist (validMoves_sublist sm t)).nodup ha ha' he
      omega
  | undo sm t x1 x2 g1 g2 hp hs ht ha h0 hu =>
    have hch := (hF.perm hp).sublist (validMoves_sublist sm t)
    cases h' with
    | keep sm' t' y1 g' hp' hs' ht' ha' h0' =>
      obtain rfl := sorted_unique (hp.trans (hm.trans hp'.symm)) hs hs'
      rw [← he.wt] at ht'
      obtain rfl := reverted_det ht ht'
      obtain ⟨_, r2⟩ := apply_det E hG hG' hch.nodup ha ha' he
      omega
    | undo sm' t' y1 y2 g1' g2' hp' hs' ht' ha' h0' hu' =>
      obtain rfl := sorted_unique (hp.trans (hm.trans hp'.symm)) hs hs'
      rw [← he.wt] at ht'
      obtain rfl := reverted_det ht ht'
      obtain ⟨r1, r2⟩ := apply_det E hG hG' hch.nodup ha ha' he
      have q1 := (apply_spec E hG hch.nodup ha).1
      have q2 := (apply_spec E hG' hch.nodup ha').1
      obtain ⟨r3, r4⟩ := apply_det E q1 q2 (hch.swap hG.inv.range).nodup hu hu' r1
      exact ⟨r3, by rw [r2, r4]⟩

theorem sorted_step_exists {L : C.Lawful m c.k mx} (E : Env c m mx) {rd : Nat} {x : St σ} {ms : List Mv} (hG : Good L c.H x.s)
    (hF : Fit c.H c.k x.s.part ms) : ∃ x' g, SortedStep C c rd x ms x' g := by
  obtain ⟨sm, hp, hs⟩ := sorted_before hF.nodup
  have hFs := hF.perm hp
  obtain ⟨t, ht⟩ := reverted_total (wt := x.s.wt) (hFs.okMoves E hG.inv.range)
  have hch := hFs.sublist (validMoves_sublist sm t)
  obtain ⟨x1, g, ha⟩ := apply_exists (rd := rd) E hG hch
  by_cases h0 : 0 ≤ g
  · exact ⟨x1, g, .keep sm t x1 g hp hs ht ha h0⟩
  · obtain ⟨a1, a2, _⟩ := apply_spec E hG hch.nodup ha
    obtain ⟨x2, g', hu⟩ := apply_exists (rd := rd) E a1 (by rw [a2]; exact hch.swap hG.inv.range)
    exact ⟨x2, _, .undo sm t x1 x2 g g' hp hs ht ha (by omega) hu⟩

/-! ### Sub-rounds -/

/-- nodes that may be moved -/
def Free (c : Cfg Γ) (v : Nat) : Prop := c.fixed v = false ∧ v ∈ c.H.nodes

theorem free_of_ms {Φ : Assign} {us : List Nat} {ms : List Mv} (hm : ms.Perm (us.filterMap (want c Φ))) {v : Nat} (h : v ∈ ms.map Mv.node) : Free c v := by
  obtain ⟨x, hx, rfl⟩ := List.mem_map.1 h
  exact want_free (hm.subset hx)

theorem subRound_spec {L : C.Lawful m c.k mx} (E : Env c m mx) {rd n : Nat} {us : List Nat} {x x' : St σ} {g : Int} {rev : Bool} (hn : us.Nodup) (hG : Good L c.H x.s)
    (h : SubRound C c rd us x x' g rev n) : Eff (c := c) L rd (Free c) x x' g := by
  cases h with
  | none h => exact Eff.refl hG
  | one ms rest x1 g rev hm h0 h1 h2 =>
    exact (prefix_spec E hG ((want_fit E hn).perm hm) h1).1.mono (fun v hv => free_of_ms hm hv)
  | two ms rest x1 x2 g g2 rev hm h0 h1 h2 h3 =>
    obtain ⟨p1, p2, p3⟩ := prefix_spec E hG ((want_fit E hn).perm hm) h1
    refine (p1.mono (fun v hv => free_of_ms hm hv)).trans ((sorted_spec E p1.good p2 h3).mono (fun v hv => ?_))
    obtain ⟨y, hy, rfl⟩ := List.mem_map.1 hv
    exact free_of_ms hm (List.mem_map.2 ⟨y, p3 y hy, rfl⟩)

theorem subRound_det {L : C.Lawful m c.k mx} (E : Env c m mx) {rd n n' : Nat} {us : List Nat} {x x' y y' : St σ} {g g' : Int} {rev rev' : Bool} (hn : us.Nodup)
    (hG : Good L c.H x.s) (hG' : Good L c.H y.s) (he : Eqv x y) (h : SubRound C c rd us x x' g rev n) (h' : SubRound C c rd us y y' g' rev' n') :
    Eqv x' y' ∧ g = g' ∧ rev = rev' ∧ n = n' := by
  have key : ∀ {ms ms' rest rest' : List Mv} {x1 y1 : St σ} {g g' : Int} {rev rev' : Bool}, ms.Perm (us.filterMap (want c x.s.part)) →
      ms'.Perm (us.filterMap (want c y.s.part)) → PrefixStep C c rd x ms x1 g rev rest → PrefixStep C c rd y ms' y1 g' rev' rest' →
      Eqv x1 y1 ∧ g = g' ∧ rev = rev' ∧ rest.Perm rest' ∧ ms.length = ms'.length := by
    intro ms ms' rest rest' x1 y1 g g' rev rev' hm hm' h1 h1'
    have hmm : ms.Perm ms' := by rw [← he.part] at hm'; exact hm.trans hm'.symm
    obtain ⟨r1, r2, r3, r4⟩ := prefix_det E hG hG' ((want_fit E hn).perm hm) hmm he h1 h1'
    exact ⟨r1, r2, r3, r4, hmm.length_eq⟩
  have nil : ∀ {ms : List Mv}, ms.Perm (us.filterMap (want c y.s.part)) → us.filterMap (want c x.s.part) = [] → ms = [] := by
    intro ms hm h0
    rw [← he.part, h0] at hm
    exact hm.eq_nil
  have nil' : ∀ {ms : List Mv}, ms.Perm (us.filterMap (want c x.s.part)) → us.filterMap (want c y.s.part) = [] → ms = [] := by
    intro ms hm h0
    rw [he.part, h0] at hm
    exact hm.eq_nil
  cases h with
  | none h =>
    cases h' with
    | none h' => exact ⟨he, rfl, rfl, rfl⟩
    | one ms rest x1 g rev hm h0 h1 h2 => exact absurd (nil hm h) h0
    | two ms rest x1 x2 g g2 rev hm h0 h1 h2 h3 => exact absurd (nil hm h) h0
  | one ms rest x1 g rev hm h0 h1 h2 =>
    cases h' with
    | none h' => exact absurd (nil' hm h') h0
    | one ms' rest' y1 g' rev' hm' h0' h1' h2' =>
      obtain ⟨r1, r2, r3, r4, r5⟩ := key hm hm' h1 h1'
      exact ⟨r1, r2, r3, r5⟩
    | two ms' rest' y1 y2 g' g2' rev' hm' h0' h1' h2' h3' =>
      obtain ⟨r1, r2, r3, r4, r5⟩ := key hm hm' h1 h1'
      exact absurd ⟨by rw [r2]; exact h2'.1, fun hh => h2'.2 (by rw [hh] at r4; exact r4.nil_eq.symm)⟩ h2
  | two ms rest x1 x2 g g2 rev hm h0 h1 h2 h3 =>
    cases h' with
    | none h' => exact absurd (nil' hm h') h0
    | one ms' rest' y1 g' rev' hm' h0' h1' h2' =>
      obtain ⟨r1, r2, r3, r4, r5⟩ := key hm hm' h1 h1'
      exact absurd ⟨by rw [← r2]; exact h2.1, fun hh => h2.2 (by rw [hh] at r4; exact r4.eq_nil)⟩ h2'
    | two ms' rest' y1 y2 g' g2' rev' hm' h0' h1' h2' h3' =>
      obtain ⟨r1, r2, r3, r4, r5⟩ := key hm hm' h1 h1'
      obtain ⟨p1, p2, p3⟩ := prefix_spec E hG ((want_fit E hn).perm hm) h1
      obtain ⟨q1, q2, q3⟩ := prefix_spec E hG' ((want_fit E hn).perm hm') h1'
      obtain ⟨s1, s2⟩ := sorted_det E p1.good q1.good p2 r4 r1 h3 h3'
      exact ⟨s1, by rw [r2, s2], r3, r5⟩

theorem subRound_exists {L : C.Lawful m c.k mx} (E : Env c m mx) {rd : Nat} {us : List Nat} {x : St σ} (hn : us.Nodup) (hG : Good L c.H x.s) :
    ∃ x' g rev n, SubRound C c rd us x x' g rev n := by
  by_cases h0 : us.filterMap (want c x.s.part) = []
  · exact ⟨x, 0, false, 0, .none h0⟩
  · obtain ⟨x1, g, rev, rest, h1⟩ := prefix_exists (rd := rd) E hG (want_fit E hn (Φ := x.s.part))
    by_cases h2 : g > 0 ∧ rest ≠ []
    · obtain ⟨p1, p2, _⟩ := prefix_spec E hG (want_fit E hn) h1
      obtain ⟨x2, g2, h3⟩ := sorted_step_exists (rd := rd) E p1.good p2
      exact ⟨x2, _, rev, _, .two _ rest x1 x2 g g2 rev (List.Perm.refl _) h0 h1 h2 h3⟩
    · exact ⟨x1, g, rev, _, .one _ rest x1 g rev (List.Perm.refl _) h0 h1 h2⟩

end DetLP
end Verif
