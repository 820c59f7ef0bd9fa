import Verif.Lemmas.Dyn17
import Verif.Spec.NLevel
/-!
# Quiescent states of the coarsening phase
-/
namespace Verif
namespace Dyn
open SMap (wr)

variable {s0 : DH} {mx : Int} {s s' : St} {G : Gh}

theorem Tree.up {n : Nat} {mg : Nat → Bool} {par : Nat → Nat} {kids sg : Nat → List Nat} (t : Tree n mg par kids sg) {x y : Nat} (h : y ∈ sg x) :
    ∃ i, par^[i] y = x := by
  revert h
  refine t.induct (P := fun x => y ∈ sg x → ∃ i, par^[i] y = x) ?_ x
  intro x ih h
  rcases (t.mem_iff x y).1 h with h | ⟨w, h1, h2, h3⟩
  · exact ⟨0, h⟩
  · obtain ⟨i, hi⟩ := ih w ((t.kid w x).2 ⟨h1, h2⟩) h3
    exact ⟨i + 1, by rw [Function.iterate_succ_apply', hi, h2]⟩

theorem Tree.down {n : Nat} {mg : Nat → Bool} {par : Nat → Nat} {kids sg : Nat → List Nat} (t : Tree n mg par kids sg) {P : Nat → Prop}
    (hroot : ∀ y, P y → P (par y)) (hmg : ∀ y, P y → par y ≠ y → mg y = true) (i : Nat) {y : Nat} (hy : P y) : y ∈ sg (par^[i] y) := by
  have hP : ∀ i, P (par^[i] y) := by
    intro i
    induction i with
    | zero => exact hy
    | succ i ih => rw [Function.iterate_succ_apply']; exact hroot _ ih
  induction i with
  | zero => exact t.self y
  | succ i ih =>
    rw [Function.iterate_succ_apply']
    by_cases h : par (par^[i] y) = par^[i] y
    · rw [h]; exact ih
    · exact t.sub (t.par_mem (hmg _ (hP i) h)) ih

/-- what holds when every contraction is finished -/
theorem Inv.en_iff (hI : Inv s0 mx s G) (hf : ∀ v, s.h.par v ≠ v → G.fin v = true) (v : Nat) (hv : v < s0.n) :
    s.h.en v = true ↔ s0.en v = true ∧ s.h.par v = v := by
  constructor
  · intro h
    refine ⟨hI.p.enLe v h, ?_⟩
    by_contra hp
    have := (hI.p.finD v (hf v hp)).1
    rw [h] at this; cases this
  · rintro ⟨h1, h2⟩
    by_contra he
    exact (hI.p.dis v ⟨hv, h1⟩ (by simpa using he)).1 h2

/-- a pin stays a pin when it is contracted, as long as the net is not removed -/
theorem Inv.isIn_up (hI : Inv s0 mx s G) (hf : ∀ v, s.h.par v ≠ v → G.fin v = true) {e : Nat} (he : ∀ k, G.rem k e = false) {y : Nat}
    (hy : G.isIn s0 s.h.par y e) : G.isIn s0 s.h.par (s.h.par y) e := by
  by_cases hp : s.h.par y = y
  · rw [hp]; exact hy
  · have hm := (hI.p.finD y (hf y hp)).2.2.1
    rcases hI.e.comp y e hm hy (fun k _ => he k) with h | h
    · rcases hI.e.oneIn y e h with h | ⟨w, h1, h2, h3, _⟩
      · exact Or.inl h
      · exact Or.inr ⟨w, h1, by rw [← h1]; exact h2, h3⟩
    · exact Or.inr ⟨y, rfl, Ne.symm hp, h⟩

theorem Inv.isIn_orig (hI : Inv s0 mx s G) (hf : ∀ v, s.h.par v ≠ v → G.fin v = true) {e x : Nat} (hx : G.isIn s0 s.h.par x e) :
    ∃ y i, s0.orig y e ∧ s.h.par^[i] y = x := by
  revert hx
  refine hI.t.tree.induct (P := fun x => G.isIn s0 s.h.par x e → ∃ y i, s0.orig y e ∧ s.h.par^[i] y = x) ?_ x
  intro x ih hx
  rcases hx with h | ⟨w, h1, h2, h3⟩
  · exact ⟨x, 0, h, rfl⟩
  · have hm : G.mg w = true := (hI.p.finD w (hf w (by rw [h1]; exact Ne.symm h2))).2.2.1
    obtain ⟨y, i, h4, h5⟩ := ih w ((hI.t.tree.kid w x).2 ⟨hm, h1⟩) (hI.e.log e |>.inn w (Or.inr h3)).1
    exact ⟨y, i + 1, h4, by rw [Function.iterate_succ_apply', h5, h1]⟩

/-- valid pins -/
theorem Inv.pin_iff (hI : Inv s0 mx s G) (hf : ∀ v, s.h.par v ≠ v → G.fin v = true) {e : Nat} (hu : s0.used e) (he : ∀ k, G.rem k e = false) (x : Nat) :
    x ∈ s.h.edgePins e ↔ G.isIn s0 s.h.par x e ∧ s.h.par x = x := by
  show x ∈ (s.h.pins e).take (s.h.size e) ↔ _
  rw [(hI.e.pins e hu).tmem x]
  constructor
  · rintro ⟨h1, h2, h3⟩
    refine ⟨h1, ?_⟩
    by_contra hp
    rcases hI.e.comp x e (hI.p.finD x (hf x hp)).2.2.1 h1 (fun k _ => he k) with h | h
    · rw [h2] at h; cases h
    · rw [h3] at h; cases h
  · rintro ⟨h1, h2⟩
    have hno : ¬ (G.one x e = true ∨ G.two x e = true) := by
      intro h
      obtain ⟨_, hl, hd, _⟩ := hI.e.logU x e h
      exact (hI.p.dis x hl hd).1 h2
    refine ⟨h1, ?_, ?_⟩
    · rw [bool_false_iff]; exact fun h => hno (Or.inl h)
    · rw [bool_false_iff]; exact fun h => hno (Or.inr h)

theorem Inv.weight (hI : Inv s0 mx s G) (hf : ∀ v, s.h.par v ≠ v → G.fin v = true) (x : Nat) (hx : s0.live x) :
    s.h.wt x = ((G.sg x).map s0.wt).sum := by
  revert hx
  refine hI.t.tree.induct (P := fun x => s0.live x → s.h.wt x = ((G.sg x).map s0.wt).sum) ?_ x
  intro x ih hx
  rw [hI.p.wtS x]
  have hins : inside s0 s.h.par s.h.en x = (G.kids x).toFinset := by
    ext v
    rw [inside, Finset.mem_filter, Finset.mem_range, List.mem_toFinset, hI.t.tree.kid]
    constructor
    · rintro ⟨h1, h2, h3, h4⟩
      exact ⟨(hI.p.finD v (hf v (hI.p.dis v ⟨h1, h3⟩ h4).1)).2.2.1, h2⟩
    · rintro ⟨h1, h2⟩
      have := (hI.t.ina.lm v h1).1
      exact ⟨this.1, h2, this.2, hI.p.mgD v h1⟩
  rw [hins, List.sum_toFinset _ (hI.t.tree.knd x)]
  have : ((G.kids x).map s.h.wt) = (G.kids x).map (fun w => ((G.sg w).map s0.wt).sum) := by
    refine List.map_congr_left ?_
    intro w hw
    exact ih w hw (hI.t.ina.lm w ((hI.t.tree.kid w x).1 hw).1).1
  rw [this, hI.t.tree.seg x, List.map_cons, List.sum_cons, List.map_flatMap]
  congr 1
  induction G.kids x with
  | nil => rfl
  | cons a k ihk => rw [List.flatMap_cons, List.sum_append, List.map_cons, List.sum_cons, ihk]

theorem INAOK.dg_eq {n : Nat} {L : Nat → Prop} {mg mid : Nat → Bool} {par : Nat → Nat} {kids sg : Nat → List Nat} {ver : Nat → Nat}
    {keep : Op → Nat → Bool} {v0 : Nat → Int} {base : Nat → List Nat} {ops : Nat → List Op} {V : Nat} {a : INA}
    (h : INAOK n L mg mid par kids sg ver keep v0 base ops V a) (t : Tree n mg par kids sg) {x : Nat} (hx : L x) (hm : mg x = false) :
    a.dg x = (((sg x).flatMap a.active).length : Int) := by
  rw [h.dg x hx hm, List.length_flatMap]
  have : ∀ y ∈ sg x, a.sz y = (a.active y).length := by
    intro y hy
    unfold INA.active
    rw [List.length_map, List.length_take]
    have := (h.arr y (h.mem_live t hx hy)).le
    omega
  have h2 : (sg x).map (fun y => (a.sz y : Int)) = (sg x).map (fun y => ((a.active y).length : Int)) := by
    refine List.map_congr_left ?_
    intro y hy; rw [this y hy]
  rw [h2]
  induction sg x with
  | nil => rfl
  | cons b l ih => simp only [List.map_cons, List.sum_cons, ih]; omega

/-- a state in which all registered contractions are performed -/
theorem Inv.contracted (hc : Clean s0) (hI : Inv s0 mx s G) (hf : ∀ v, s.h.par v ≠ v → G.fin v = true) : ContractedBy s0 s.h s.h.par := by
  classical
  have hen := hI.en_iff hf
  have hused : ∀ e < s0.m, s.h.een e = true → s0.used e ∧ ∀ k, G.rem k e = false := by
    intro e hm he
    have := (hI.n.enabled e).1 he
    exact ⟨⟨hm, this.1⟩, this.2⟩
  have hup : ∀ {e : Nat}, (∀ k, G.rem k e = false) → ∀ (i y : Nat), G.isIn s0 s.h.par y e → G.isIn s0 s.h.par (s.h.par^[i] y) e := by
    intro e he i
    induction i with
    | zero => intro y hy; exact hy
    | succ i ih => intro y hy; rw [Function.iterate_succ_apply']; exact hI.isIn_up hf he (ih y hy)
  have hmem : ∀ u y, s0.live u → (y ∈ G.sg u ↔ s0.live y ∧ ∃ i, s.h.par^[i] y = u) := by
    intro u y hu
    constructor
    · intro h
      exact ⟨hI.t.ina.mem_live hI.t.tree hu h, hI.t.tree.up h⟩
    · rintro ⟨hy, i, hi⟩
      rw [← hi]
      refine hI.t.tree.down (P := s0.live) ?_ ?_ i hy
      · intro z hz
        by_cases hp : s.h.par z = z
        · rw [hp]; exact hz
        · exact (hI.p.root z hp).2
      · intro z _ hp
        exact (hI.p.finD z (hf z hp)).2.2.1
  refine ⟨hen, ?_, ?_, ?_, ?_⟩
  · intro u hu he
    have hl : s0.live u := ⟨hu, hI.p.enLe u he⟩
    rw [hI.weight hf u hl, ← List.sum_toFinset _ (hI.t.tree.nodup hu)]
    refine Finset.sum_congr ?_ (fun _ _ => rfl)
    ext y
    rw [List.mem_toFinset, hmem u y hl, Finset.mem_filter, Finset.mem_range]
    constructor
    · rintro ⟨h1, h2⟩; exact ⟨h1.1, h1.2, ((hen u hu).1 he).2, h2⟩
    · rintro ⟨h1, h2, _, h3⟩; exact ⟨⟨h1, h2⟩, h3⟩
  · intro e hm he
    exact (hI.e.pins e (hused e hm he).1).tnd
  · intro e hm he u
    obtain ⟨hu, hr⟩ := hused e hm he
    rw [hI.pin_iff hf hu hr]
    constructor
    · rintro ⟨h1, h2⟩
      obtain ⟨y, i, h3, h4⟩ := hI.isIn_orig hf h1
      exact ⟨y, h3.2, h2, i, h4⟩
    · rintro ⟨y, h1, h2, i, h3⟩
      refine ⟨?_, h2⟩
      rw [← h3]
      exact hup hr i y (Or.inl ⟨hu, h1⟩)
  · intro u hu he
    have hl : s0.live u := ⟨hu, hI.p.enLe u he⟩
    have hm := hI.mg_false he
    obtain ⟨n1, n2⟩ := Inv.nets_of hc hI.t hI.e hI.p hl hm
      (fun w e hw hne _ => (hI.p.finD w (hf w (by rw [hw]; exact Ne.symm hne))).2.2.1)
    refine ⟨_, hI.t.ina.incidentEdges hI.t.tree hl hm rfl, n1, ?_, hI.t.ina.dg_eq hI.t.tree hl hm⟩
    intro e
    show e ∈ G.nets s.h.ina u ↔ _
    rw [n2]
    constructor
    · rintro ⟨h1, h2⟩
      have hr : ∀ k, G.rem k e = false := by
        intro k
        rw [bool_false_iff]; intro h
        have := h2 k (hI.n.remV k e h)
        rw [h] at this; cases this
      have hus : s0.used e := by
        rcases h1 with h | ⟨w, _, _, h⟩
        · exact h.1
        · exact (hI.e.logU w e (Or.inr h)).1
      exact ⟨hus.1, (hI.n.enabled e).2 ⟨hus.2, hr⟩, (hI.pin_iff hf hus hr u).2 ⟨h1, ((hen u hu).1 he).2⟩⟩
    · rintro ⟨h1, h2, h3⟩
      obtain ⟨hus, hr⟩ := hused e h1 h2
      exact ⟨((hI.pin_iff hf hus hr u).1 h3).1, fun k _ => hr k⟩

/-- no operation of a thread fails -/
theorem Inv.progress (hc : Clean s0) (hI : Inv s0 mx s G) (i : Nat) (hi : s.thr i ≠ .idle) : ∃ s', TStep mx i s s' := by
  cases ht : s.thr i with
  | idle => exact absurd ht hi
  | look v =>
    by_cases hp : s.h.par v = v
    · exact ⟨_, .lookEnd s v ht hp⟩
    · exact ⟨_, .lookGo s v ht hp⟩
  | tryC u v =>
    by_cases ev : s.h.en v = true
    · by_cases hp : s.h.par v = u
      · by_cases hw : s.h.wt u + s.h.wt v ≤ mx
        · by_cases h0 : s.h.pend v = 0
          · by_cases hr : s.ref u v = true
            · exact ⟨_, .refused s u v ht ev hp h0 hw⟩
            · exact ⟨_, .start s u v ht ev h0 hw (by simpa using hr)⟩
          · exact ⟨_, .pending s u v ht (Or.inr (Or.inr ⟨by omega, hw⟩))⟩
        · exact ⟨_, .tooHeavy s u v ht ev hp (by omega)⟩
      · exact ⟨_, .pending s u v ht (Or.inr (Or.inl hp))⟩
    · exact ⟨_, .pending s u v ht (Or.inl (by simpa using ev))⟩
  | load u v => exact ⟨_, .load s u v ht⟩
  | iter u v st j sh failed =>
    have hok := hI.thr i
    rw [ht] at hok
    obtain ⟨hr, hm, _⟩ := hok
    obtain ⟨_, _, n3⟩ := Inv.nets_run hc hI hr hm
    by_cases hj : j < (G.nets s.h.ina v).length
    · exact ⟨_, .defer s u v st j sh failed _ _ ht n3 (List.getElem?_eq_getElem hj)⟩
    · exact ⟨_, .iterEnd s u v st j sh failed _ ht n3 (by omega)⟩
  | late u v st sh failed =>
    cases failed with
    | nil =>
      obtain ⟨a, ha, _⟩ := Inv.merge hc hI ht
      exact ⟨_, .merge s u v st sh a ht ha⟩
    | cons e failed =>
      have hok := hI.thr i
      rw [ht] at hok
      obtain ⟨hr, hm, htk, hst, htodo⟩ := hok
      obtain ⟨l, k, b, h, _⟩ := Inv.edge hc hI (i := i) (u := u) (e := e) (todo' := failed) (by rw [ht]; rfl) hm htk htodo (List.Perm.refl _)
      exact ⟨_, .lateEdge s u v st sh e failed l k b ht h⟩
  | tick u v st => exact ⟨_, .tick s u v st ht⟩
  | unreg u v st sp => exact ⟨_, .unreg s u v st sp ht⟩

/-- contracting a net does not fail -/
theorem Inv.edge_ok (hc : Clean s0) (hI : Inv s0 mx s G) {i u v st j : Nat} {sh : Nat → Bool} {failed l : List Nat} {e : Nat}
    (hi : s.thr i = .iter u v st j sh failed) (hl : s.h.ina.incidentEdges v = some l) (he : l[j]? = some e) :
    ∃ s', TStep mx i s s' ∧ ∃ l' k b, contractHE u v (s.h.pins e) (s.h.size e) = some (l', k, b) ∧ s'.h = s.h.setEdge e l' k := by
  have hok := hI.thr i
  rw [hi] at hok
  obtain ⟨hr, hm, ht, hst, htodo⟩ := hok
  obtain ⟨n1, n2, n3⟩ := Inv.nets_run hc hI hr hm
  have hl' := hl
  rw [n3] at hl'
  injection hl' with hl'
  subst hl'
  have hdrop : (G.nets s.h.ina v).drop j = e :: (G.nets s.h.ina v).drop (j + 1) := by
    obtain ⟨hj, he⟩ := List.getElem?_eq_some_iff.1 he
    rw [List.drop_eq_getElem_cons hj, he]
  obtain ⟨l2, k2, b2, hcon2, _⟩ := Inv.edge hc hI (i := i) (u := u) (e := e) (todo' := failed ++ (G.nets s.h.ina v).drop (j + 1)) (by rw [hi]; rfl) hm ht htodo
    (by rw [hdrop]; exact List.perm_middle)
  exact ⟨_, .edge s u v st j sh failed _ e l2 k2 b2 hi n3 he hcon2, l2, k2, b2, hcon2, rfl⟩

end Dyn
end Verif
