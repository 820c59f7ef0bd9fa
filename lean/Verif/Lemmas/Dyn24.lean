import Verif.Lemmas.Dyn23
/-!
# Between batches the hypergraph is the original one, contracted along the remaining forest
-/
namespace Verif
namespace Dyn
open SMap (wr)

variable {s0 : DH} {par ver bi : Nat → Nat} {G : Gh} {V c : Nat} {h : DH} {U : UG}

/-- the remaining forest -/
def restPar (par : Nat → Nat) (mg : Nat → Bool) (v : Nat) : Nat := if mg v then par v else v

theorem restPar_mg {mg : Nat → Bool} {v : Nat} (h : mg v = true) : restPar par mg v = par v := by unfold restPar; rw [h]; rfl

theorem restPar_root {mg : Nat → Bool} {v : Nat} (h : mg v = false) : restPar par mg v = v := by unfold restPar; rw [h]; rfl

theorem BInv.mg_iff (hI : BInv s0 par ver bi G V c h U) (v : Nat) : U.mg v = true ↔ par v ≠ v ∧ bi v < c := by
  constructor
  · intro hm
    have hp := hI.core.tree.par_ne hm
    refine ⟨hp, ?_⟩
    by_contra hlt
    have := (hI.undone v hp (by omega)).mg
    rw [hm] at this; cases this
  · rintro ⟨h1, h2⟩; exact (hI.later v h1 h2).mg

theorem BInv.mg_rest (hI : BInv s0 par ver bi G V c h U) (v : Nat) : U.mg v = true ↔ restPar par U.mg v ≠ v := by
  constructor
  · intro hm; rw [restPar_mg hm]; exact hI.core.tree.par_ne hm
  · intro hne
    by_contra hm
    exact hne (restPar_root (by simpa using hm))

theorem BInv.log_mg (hI : BInv s0 par ver bi G V c h U) {v e : Nat} (hl : U.one v e = true ∨ U.two v e = true) : U.mg v = true := by
  have hp := (hI.core.log e |>.inn v hl).2
  rcases Nat.lt_or_ge (bi v) c with hlt | hge
  · exact (hI.later v hp hlt).mg
  · have := hI.undone v hp hge
    rcases hl with hl | hl
    · rw [this.one e] at hl; cases hl
    · rw [this.two e] at hl; cases hl

theorem BInv.mid (hS : Stat s0 par ver bi G) (hI : BInv s0 par ver bi G V c h U) : U.mid = fun _ => false := by
  funext v
  by_cases hp : par v = v
  · exact (hI.core.root v hp).2.1
  · rcases Nat.lt_or_ge (bi v) c with hlt | hge
    · exact (hI.later v hp hlt).mid
    · exact (hI.undone v hp hge).mid

theorem BInv.en (hS : Stat s0 par ver bi G) (hI : BInv s0 par ver bi G V c h U) (v : Nat) (hv : v < s0.n) : h.en v = true ↔ s0.en v = true ∧ restPar par U.mg v = v := by
  by_cases hp : par v = v
  · obtain ⟨h1, _, h3⟩ := hI.core.root v hp
    rw [h3 hv, restPar_root h1]; simp
  · have hl := (hS.live v hp).1
    rcases Nat.lt_or_ge (bi v) c with hlt | hge
    · have := hI.later v hp hlt
      rw [this.en, restPar_mg this.mg]; simp [hp]
    · have := hI.undone v hp hge
      rw [this.en, restPar_root this.mg]; simp [hl.2]

/-- pins by the remaining logs -/
def UG.isIn (U : UG) (s0 : DH) (par : Nat → Nat) (x e : Nat) : Prop := InN (fun x => s0.orig x e) par (fun v => U.two v e) x

theorem BInv.comp (hS : Stat s0 par ver bi G) (hI : BInv s0 par ver bi G V c h U) {v e : Nat} (hm : U.mg v = true) (hin : U.isIn s0 par v e)
    (hr : ∀ k < ver v, G.rem k e = false) : U.one v e = true ∨ U.two v e = true := by
  obtain ⟨hp, hlt⟩ := (hI.mg_iff v).1 hm
  have hl := hI.later v hp hlt
  rw [hl.one, hl.two]
  refine hS.comp v e hp ?_ hr
  rcases hin with h1 | ⟨w, h1, h2, h3⟩
  · exact Or.inl h1
  · exact Or.inr ⟨w, h1, h2, hI.core.twoLe w e h3⟩

theorem BInv.verV (hI : BInv s0 par ver bi G V c h U) {v : Nat} (hm : U.mg v = true) : ver v ≤ V := (hI.core.ina.stk v hm).1

theorem BInv.isIn_up (hS : Stat s0 par ver bi G) (hI : BInv s0 par ver bi G V c h U) {e : Nat} (he : ∀ k < V, G.rem k e = false) {y : Nat}
    (hy : U.isIn s0 par y e) : U.isIn s0 par (restPar par U.mg y) e := by
  by_cases hm : U.mg y = true
  · rw [restPar_mg hm]
    obtain ⟨hp, hlt⟩ := (hI.mg_iff y).1 hm
    rcases hI.comp hS hm hy (fun k hk => he k (Nat.lt_of_lt_of_le hk (hI.verV hm))) with h | h
    · rcases hS.oneIn y e (hI.core.oneLe y e h) with h | ⟨w, h1, h2, h3, h4⟩
      · exact Or.inl h
      · have hw := hI.later w (by exact Ne.symm h2) (by omega)
        exact Or.inr ⟨w, h1, by rw [← h1]; exact h2, by show U.two w e = true; rw [hw.two]; exact h3⟩
    · exact Or.inr ⟨y, rfl, Ne.symm hp, h⟩
  · rw [restPar_root (by simpa using hm)]; exact hy

theorem BInv.isIn_orig (hI : BInv s0 par ver bi G V c h U) {e x : Nat} (hx : U.isIn s0 par x e) :
    ∃ y i, s0.orig y e ∧ (restPar par U.mg)^[i] y = x := by
  revert hx
  refine hI.core.tree.induct (P := fun x => U.isIn s0 par x e → ∃ y i, s0.orig y e ∧ (restPar par U.mg)^[i] y = x) ?_ x
  intro x ih hx
  rcases hx with h | ⟨w, h1, h2, h3⟩
  · exact ⟨x, 0, h, rfl⟩
  · have hm : U.mg w = true := hI.log_mg (Or.inr h3)
    obtain ⟨y, i, h4, h5⟩ := ih w ((hI.core.tree.kid w x).2 ⟨hm, h1⟩) (hI.core.log e |>.inn w (Or.inr h3)).1
    exact ⟨y, i + 1, h4, by rw [Function.iterate_succ_apply', h5, restPar_mg hm, h1]⟩

theorem BInv.pin_iff (hS : Stat s0 par ver bi G) (hI : BInv s0 par ver bi G V c h U) {e : Nat} (hu : s0.used e) (he : ∀ k < V, G.rem k e = false) (x : Nat) :
    x ∈ h.edgePins e ↔ U.isIn s0 par x e ∧ restPar par U.mg x = x := by
  show x ∈ (h.pins e).take (h.size e) ↔ _
  rw [(hI.core.pins e hu).tmem x]
  constructor
  · rintro ⟨h1, h2, h3⟩
    refine ⟨h1, ?_⟩
    by_contra hp
    have hm := (hI.mg_rest x).2 hp
    rcases hI.comp hS hm h1 (fun k hk => he k (Nat.lt_of_lt_of_le hk (hI.verV hm))) with h | h
    · rw [h2] at h; cases h
    · rw [h3] at h; cases h
  · rintro ⟨h1, h2⟩
    have hno : ¬ (U.one x e = true ∨ U.two x e = true) := fun h => (hI.mg_rest x).1 (hI.log_mg h) h2
    refine ⟨h1, ?_, ?_⟩
    · rw [bool_false_iff]; exact fun h => hno (Or.inl h)
    · rw [bool_false_iff]; exact fun h => hno (Or.inr h)

theorem BInv.weight (hS : Stat s0 par ver bi G) (hI : BInv s0 par ver bi G V c h U) (x : Nat) : h.wt x = ((U.sg x).map s0.wt).sum := by
  refine hI.core.tree.induct (P := fun x => h.wt x = ((U.sg x).map s0.wt).sum) ?_ x
  intro x ih
  rw [hI.core.wtS x]
  have hins : inside s0 par h.en x = (U.kids x).toFinset := by
    ext v
    rw [inside, Finset.mem_filter, Finset.mem_range, List.mem_toFinset, hI.core.tree.kid]
    constructor
    · rintro ⟨h1, h2, h3, h4⟩
      refine ⟨?_, h2⟩
      rw [hI.mg_rest]
      intro hr
      rw [(hI.en hS v h1).2 ⟨h3, hr⟩] at h4; cases h4
    · rintro ⟨h1, h2⟩
      have hl := (hI.core.ina.lm v h1).1
      obtain ⟨hp, hlt⟩ := (hI.mg_iff v).1 h1
      exact ⟨hl.1, h2, hl.2, (hI.later v hp hlt).en⟩
  rw [hins, List.sum_toFinset _ (hI.core.tree.knd x)]
  have : ((U.kids x).map h.wt) = (U.kids x).map (fun w => ((U.sg w).map s0.wt).sum) := by
    refine List.map_congr_left ?_
    intro w hw
    exact ih w hw
  rw [this, hI.core.tree.seg x, List.map_cons, List.sum_cons, List.map_flatMap]
  congr 1
  induction U.kids x with
  | nil => rfl
  | cons a k ihk => rw [List.flatMap_cons, List.sum_append, List.map_cons, List.sum_cons, ihk]

/-- nets found in the lists of a node, by the remaining logs -/
theorem BInv.nets (hc : Clean s0) (hS : Stat s0 par ver bi G) (hI : BInv s0 par ver bi G V c h U) {x : Nat} (hx : s0.live x) (hm : U.mg x = false) :
    ((U.sg x).flatMap h.ina.active).Nodup ∧ ∀ e, e ∈ (U.sg x).flatMap h.ina.active ↔ U.isIn s0 par x e ∧ ∀ k < V, G.rem k e = false := by
  classical
  have t := hI.core.tree
  refine t.nets (orig := s0.orig) (one := U.one) (two := U.two) (base := fun y => if s0.live y then s0.ina.active y else [])
    (Q := fun e => ∀ k < V, G.rem k e = false) hI.core.log hx.1 ?_ ?_ ?_ ?_
  · intro e hq y hy w hw hne h2
    rw [t.kid]
    exact ⟨hI.log_mg (Or.inr h2), hw⟩
  · intro e hq y hy w hw hin
    have hmw := ((t.kid w y).1 hw).1
    exact hI.comp hS hmw hin (fun k hk => hq k (Nat.lt_of_lt_of_le hk (hI.verV hmw)))
  · intro y hy
    by_cases hl : s0.live y
    · simp only [hl, if_true]; exact hc.nets y hl
    · simp only [hl, if_false]
      refine ⟨by simp, fun e => ?_⟩
      constructor
      · intro h; simp at h
      · intro h; exact absurd (hc.orig_live h) hl
  · intro y hy
    have hly := hI.core.ina.mem_live t hx hy
    obtain ⟨h1, h2⟩ := hI.core.ina.activeSpec hly (hc.nets y hly).1
    refine ⟨h1, fun e => ?_⟩
    rw [h2, hI.mid hS]
    simp only [hly, if_true, Bool.false_eq_true, or_false]
    have hone : ∀ z, U.mg z = true → U.one z e = G.one z e := by
      intro z hz
      obtain ⟨hp, hlt⟩ := (hI.mg_iff z).1 hz
      exact (hI.later z hp hlt).one e
    have e1 : (∀ z, U.mg z = true → y ∈ U.sg z → G.keep (Op.contr z) e = true) ↔ ∀ z ∈ U.sg x, z ≠ x → y ∈ U.sg z → U.one z e = false := by
      constructor
      · intro h z hz hne hyz
        have hmz := t.inner_mg hz hne
        have := h z hmz hyz
        rw [hone z hmz]
        simpa [Gh.keep] using this
      · intro h z hz hyz
        have hzx : z ∈ U.sg x := t.head_of hx.1 hm (t.lt z hz).1 hyz hy
        have := h z hzx (by rintro rfl; rw [hm] at hz; cases hz) hyz
        rw [hone z hz] at this
        simpa [Gh.keep] using this
    have e2 : (∀ k < V, G.keep (Op.ver k) e = true) ↔ ∀ k < V, G.rem k e = false := by
      simp [Gh.keep]
    rw [e1, e2]

theorem BInv.contracted (hc : Clean s0) (hS : Stat s0 par ver bi G) (hI : BInv s0 par ver bi G V c h U) : ContractedBy s0 h (restPar par U.mg) := by
  classical
  have hen := hI.en hS
  have t := hI.core.tree
  have t' : Tree s0.n U.mg (restPar par U.mg) U.kids U.sg := t.congr (fun v hv => restPar_mg hv)
  have hused : ∀ e < s0.m, h.een e = true → s0.used e ∧ ∀ k < V, G.rem k e = false := by
    intro e hm he
    have := (hI.core.een e).1 he
    exact ⟨⟨hm, this.1⟩, this.2⟩
  have hup : ∀ {e : Nat}, (∀ k < V, G.rem k e = false) → ∀ (i y : Nat), U.isIn s0 par y e → U.isIn s0 par ((restPar par U.mg)^[i] y) e := by
    intro e he i
    induction i with
    | zero => intro y hy; exact hy
    | succ i ih => intro y hy; rw [Function.iterate_succ_apply']; exact hI.isIn_up hS he (ih y hy)
  have hmem : ∀ u y, s0.live u → (y ∈ U.sg u ↔ s0.live y ∧ ∃ i, (restPar par U.mg)^[i] y = u) := by
    intro u y hu
    constructor
    · intro h
      exact ⟨hI.core.ina.mem_live t hu h, t'.up h⟩
    · rintro ⟨hy, i, hi⟩
      rw [← hi]
      refine t'.down (P := s0.live) ?_ ?_ i hy
      · intro z hz
        by_cases hm : U.mg z = true
        · rw [restPar_mg hm]; exact (hI.core.ina.lm z hm).2
        · rw [restPar_root (by simpa using hm)]; exact hz
      · intro z _ hp
        exact (hI.mg_rest z).2 hp
  refine ⟨fun v hv => hen v hv, ?_, ?_, ?_, ?_⟩
  · intro u hu he
    have hl : s0.live u := ⟨hu, ((hen u hu).1 he).1⟩
    rw [hI.weight hS u, ← List.sum_toFinset _ (t.nodup hu)]
    refine Finset.sum_congr ?_ (fun _ _ => rfl)
    ext y
    rw [List.mem_toFinset, hmem u y hl, Finset.mem_filter, Finset.mem_range]
    constructor
    · rintro ⟨h1, h2⟩; exact ⟨h1.1, h1.2, ((hen u hu).1 he).2, h2⟩
    · rintro ⟨h1, h2, _, h3⟩; exact ⟨⟨h1, h2⟩, h3⟩
  · intro e hm he
    exact (hI.core.pins e (hused e hm he).1).tnd
  · intro e hm he u
    obtain ⟨hu, hr⟩ := hused e hm he
    rw [hI.pin_iff hS hu hr]
    constructor
    · rintro ⟨h1, h2⟩
      obtain ⟨y, i, h3, h4⟩ := hI.isIn_orig h1
      exact ⟨y, h3.2, h2, i, h4⟩
    · rintro ⟨y, h1, h2, i, h3⟩
      refine ⟨?_, h2⟩
      rw [← h3]
      exact hup hr i y (Or.inl ⟨hu, h1⟩)
  · intro u hu he
    have hl : s0.live u := ⟨hu, ((hen u hu).1 he).1⟩
    have hm : U.mg u = false := by
      rw [bool_false_iff]; intro hm
      exact (hI.mg_rest u).1 hm ((hen u hu).1 he).2
    obtain ⟨n1, n2⟩ := hI.nets hc hS hl hm
    refine ⟨_, hI.core.ina.incidentEdges t hl hm (by rw [hI.mid hS]), n1, ?_, hI.core.ina.dg_eq t hl hm⟩
    intro e
    rw [n2]
    constructor
    · rintro ⟨h1, hr⟩
      have hus : s0.used e := by
        rcases h1 with h | ⟨w, _, _, h⟩
        · exact h.1
        · exact (hS.logU w e (Or.inr (hI.core.twoLe w e h))).1
      exact ⟨hus.1, (hI.core.een e).2 ⟨hus.2, hr⟩, (hI.pin_iff hS hus hr u).2 ⟨h1, ((hen u hu).1 he).2⟩⟩
    · rintro ⟨h1, h2, h3⟩
      obtain ⟨hus, hr⟩ := hused e h1 h2
      exact ⟨((hI.pin_iff hS hus hr u).1 h3).1, hr⟩

theorem undoE_mono (l : List RemovedNets) {w : Nat → Bool} {e : Nat} (h : w e = true) : undoE l w e = true := by
  induction l generalizing w with
  | nil => exact h
  | cons R rest ih => exact ih (by show (w e || _) = true; rw [h, Bool.true_or])

/-- restoring the nets removed at the end of a version -/
theorem BInv.nets_back (hS : Stat s0 par ver bi G) (hI : BInv s0 par ver bi G (V + 1) c h U) (hver : ∀ v, U.mg v = true → ver v ≤ V) {ord : List Nat}
    (ho : ord.Perm ((List.range h.n).filter h.en)) :
    ∃ R rest, h.removed = R :: rest ∧ ∃ h', { h with removed := rest }.restoreNetsStep R ord = some h' ∧ ∃ U', U'.mg = U.mg ∧ BInv s0 par ver bi G V c h' U' := by
  have C := hI.core
  have hrem := C.rem
  cases hR : h.removed with
  | nil => rw [hR] at hrem; exact hrem.elim
  | cons R rest =>
    rw [hR] at hrem
    obtain ⟨r1, r2⟩ := hrem
    refine ⟨R, rest, rfl, ?_⟩
    have hA := C.ina
    rw [hI.mid hS] at hA
    obtain ⟨a, ha, hA'⟩ := hA.restoreAll C.tree hver (ord := ord) (ho.nodup_iff.2 (List.nodup_range.filter _)) (by
      intro x
      rw [ho.mem_iff, List.mem_filter, List.mem_range, C.nEq]
      constructor
      · rintro ⟨h1, h2⟩
        have := (hI.en hS x h1).1 h2
        refine ⟨⟨h1, this.1⟩, ?_⟩
        rw [bool_false_iff]; intro hm
        exact (hI.mg_rest x).1 hm this.2
      · rintro ⟨h1, h2⟩
        exact ⟨h1.1, (hI.en hS x h1.1).2 ⟨h1.2, restPar_root h2⟩⟩)
    have hmid := hI.mid hS
    refine ⟨{ h with een := fun e => h.een e || (R.map Prod.fst).contains e, ew := fun e => h.ew e - addedWeight h.ew R e, ina := a, V := h.V - 1, removed := rest }, ?_,
      { U with ops := fun x => (U.ops x).tail }, rfl, ?_⟩
    · unfold DH.restoreNetsStep
      show (match INA.restoreAll ord h.ina with | none => none | some a => _) = _
      rw [ha]
    · have hC : UCore s0 par ver bi G V { h with een := fun e => h.een e || (R.map Prod.fst).contains e, ew := fun e => h.ew e - addedWeight h.ew R e, ina := a, V := h.V - 1, removed := rest }
          { U with ops := fun x => (U.ops x).tail } := by
        refine ⟨C.nEq, C.mEq, C.biEq, by show h.V - 1 = V; rw [C.VEq]; rfl, C.tree, ?_, C.log, C.pins, C.sorted, C.other, C.oneLe, C.twoLe, C.root, C.wtS, ?_, r2, ?_, ?_⟩
        · show INAOK s0.n s0.live U.mg U.mid par U.kids U.sg ver G.keep s0.ina.vr s0.ina.active (fun x => (U.ops x).tail) V a
          rw [hmid]; exact hA'
        · intro e
          show (h.een e || (R.map Prod.fst).contains e) = true ↔ _
          rw [Bool.or_eq_true, C.een e, ← r1 e]
          constructor
          · rintro (⟨h1, h2⟩ | h1)
            · exact ⟨h1, fun k hk => h2 k (by omega)⟩
            · refine ⟨?_, fun k hk => ?_⟩
              · have h0 := C.een0
                rw [hR] at h0
                rw [← h0]
                refine undoE_mono rest (w := fun e => h.een e || (R.map Prod.fst).contains e) ?_
                show (h.een e || (R.map Prod.fst).contains e) = true
                rw [(r1 e).symm.trans h1, Bool.or_true]
              · rw [bool_false_iff]; intro hk'
                have := hS.once V k e h1 hk'
                omega
          · rintro ⟨h1, h2⟩
            by_cases h3 : G.rem V e = true
            · exact Or.inr h3
            · refine Or.inl ⟨h1, fun k hk => ?_⟩
              by_cases hkV : k = V
              · rw [hkV]; simpa using h3
              · exact h2 k (by omega)
        · have := C.ew
          rw [hR] at this; exact this
        · have := C.een0
          rw [hR] at this; exact this
      exact ⟨hC, fun v h1 h2 => ⟨(hI.later v h1 h2).mg, (hI.later v h1 h2).mid, (hI.later v h1 h2).en, (hI.later v h1 h2).one, (hI.later v h1 h2).two⟩,
        fun v h1 h2 => ⟨(hI.undone v h1 h2).mg, (hI.undone v h1 h2).mid, (hI.undone v h1 h2).en, (hI.undone v h1 h2).one, (hI.undone v h1 h2).two⟩⟩

end Dyn
end Verif
