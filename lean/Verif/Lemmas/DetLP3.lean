import Verif.Lemmas.DetLP2
import Verif.Lemmas.Rollback7
/-! # Performing a set of moves -/
namespace Verif
namespace DetLP
open SMap (wr)
open CSt Rollback PHG

section
variable {σ : Type} {C : ConInfo σ} {H : HG} {m k mx : Nat} {o : Metrics.Obj}

/-- the assignment after the moves -/
def moveAll (Φ : Assign) (A : List Mv) : Assign := A.foldl (fun Φ m => Φ.put m.node m.dst) Φ

theorem moveAll_other (A : List Mv) : ∀ {Φ : Assign} {v : Nat}, v ∉ A.map Mv.node → moveAll Φ A v = Φ v := by
  induction A with
  | nil => intro Φ v _; rfl
  | cons a A ih =>
    intro Φ v h
    rw [List.map_cons, List.mem_cons, not_or] at h
    show moveAll (Φ.put a.node a.dst) A v = _
    rw [ih h.2]; simp [Assign.put, h.1]

theorem moveAll_mem (A : List Mv) : ∀ {Φ : Assign}, (A.map Mv.node).Nodup → ∀ m ∈ A, moveAll Φ A m.node = some m.dst := by
  induction A with
  | nil => intro Φ _ m hm; simp at hm
  | cons a A ih =>
    intro Φ hn m hm
    rw [List.map_cons, List.nodup_cons] at hn
    show moveAll (Φ.put a.node a.dst) A m.node = _
    rcases List.mem_cons.1 hm with rfl | hm
    · rw [moveAll_other A hn.1]; simp [Assign.put]
    · exact ih hn.2 m hm

/-- The moves fit to the assignment. -/
structure Fit (H : HG) (k : Nat) (Φ : Assign) (A : List Mv) : Prop where
  nodup : (A.map Mv.node).Nodup
  mem : ∀ m ∈ A, m.node ∈ H.nodes
  src : ∀ m ∈ A, Φ m.node = some m.src
  dst : ∀ m ∈ A, m.dst < k ∧ m.src ≠ m.dst

theorem Fit.sublist {Φ : Assign} {A B : List Mv} (h : Fit H k Φ A) (hs : B.Sublist A) : Fit H k Φ B :=
  ⟨h.nodup.sublist (hs.map _), fun m hm => h.mem m (hs.subset hm), fun m hm => h.src m (hs.subset hm), fun m hm => h.dst m (hs.subset hm)⟩

theorem Fit.perm {Φ : Assign} {A B : List Mv} (h : Fit H k Φ A) (hs : B.Perm A) : Fit H k Φ B :=
  ⟨((hs.map _).nodup_iff).2 h.nodup, fun m hm => h.mem m (hs.subset hm), fun m hm => h.src m (hs.subset hm), fun m hm => h.dst m (hs.subset hm)⟩

theorem Fit.swap {Φ : Assign} {A : List Mv} (h : Fit H k Φ A) (hr : ∀ v b, Φ v = some b → b < k) : Fit H k (moveAll Φ A) (A.map Mv.swap) := by
  have hn : (A.map Mv.swap).map Mv.node = A.map Mv.node := by rw [List.map_map]; rfl
  refine ⟨by rw [hn]; exact h.nodup, ?_, ?_, ?_⟩
  · intro m hm
    obtain ⟨m', h1, rfl⟩ := List.mem_map.1 hm
    exact h.mem m' h1
  · intro m hm
    obtain ⟨m', h1, rfl⟩ := List.mem_map.1 hm
    exact moveAll_mem A h.nodup m' h1
  · intro m hm
    obtain ⟨m', h1, rfl⟩ := List.mem_map.1 hm
    exact ⟨hr _ _ (h.src m' h1), Ne.symm (h.dst m' h1).2⟩

theorem moveAll_swap {Φ : Assign} {A : List Mv} (h : Fit H k Φ A) : moveAll (moveAll Φ A) (A.map Mv.swap) = Φ := by
  have hn : (A.map Mv.swap).map Mv.node = A.map Mv.node := by rw [List.map_map]; rfl
  funext v
  by_cases hv : v ∈ A.map Mv.node
  · obtain ⟨m, h1, rfl⟩ := List.mem_map.1 hv
    have := moveAll_mem (A.map Mv.swap) (Φ := moveAll Φ A) (by rw [hn]; exact h.nodup) m.swap (List.mem_map.2 ⟨m, h1, rfl⟩)
    rw [show m.node = m.swap.node from rfl, this]
    exact (h.src m h1).symm
  · rw [moveAll_other _ (by rw [hn]; exact hv), moveAll_other _ hv]

/-- weights of the blocks after the moves -/
theorem blockWeight_moveAll {Γ : Type} (c : Cfg Γ) (hw : c.H.WF) (A : List Mv) (b : Nat) : ∀ {Φ : Assign}, Fit c.H c.k Φ A →
    c.H.blockWeight (moveAll Φ A) b = c.H.blockWeight Φ b + (A.map (fun m => delta c m b)).sum := by
  induction A with
  | nil => intro Φ _; simp [moveAll]
  | cons a A ih =>
    intro Φ h
    have hn := h.nodup
    rw [List.map_cons, List.nodup_cons] at hn
    show c.H.blockWeight (moveAll (Φ.put a.node a.dst) A) b = _
    rw [ih ⟨hn.2, fun m hm => h.mem m (by simp [hm]), ?_, fun m hm => h.dst m (by simp [hm])⟩,
      HG.blockWeight_put hw.nodes_nodup (h.mem a (by simp)), h.src a (by simp), List.map_cons, List.sum_cons]
    · unfold delta
      have e1 : (b = a.dst) = (a.dst = b) := propext eq_comm
      simp only [Option.some.injEq, e1]
      omega
    · intro m hm
      have : m.node ≠ a.node := fun hh => hn.1 (hh ▸ List.mem_map.2 ⟨m, hm, rfl⟩)
      simp [Assign.put, this, h.src m (by simp [hm])]

/-- state of the partition between two phases -/
structure Good (L : C.Lawful m k mx) (H : HG) (s : CSt σ) : Prop where
  inv : Inv L H s
  wt : WtInv H k s
  quiet : s.quiescent H = true

theorem Good.weight {L : C.Lawful m k mx} (hw : H.WF) {s : CSt σ} (h : Good L H s) {b : Nat} (hb : b < k) : s.wt b = H.blockWeight s.part b :=
  (quiescent_sim hw h.inv h.wt h.quiet).wt b hb

theorem starts_mem {A : List Mv} {as : List Act} (h : (startsOf as).Perm (A.map (fun m => Act.start m.node m.dst maxHNW))) :
    Unlimited as ∧ (∀ m ∈ A, Act.start m.node m.dst maxHNW ∈ as) ∧ (startNodes as).Perm (A.map Mv.node) := by
  have hmem : ∀ u d l, Act.start u d l ∈ as ↔ Act.start u d l ∈ startsOf as := by
    intro u d l; unfold startsOf; rw [List.mem_filter]; simp
  refine ⟨?_, ?_, ?_⟩
  · intro u d l hh
    rw [hmem, h.mem_iff] at hh
    obtain ⟨m, _, h2⟩ := List.mem_map.1 hh
    cases h2; rfl
  · intro m hm
    rw [hmem, h.mem_iff]
    exact List.mem_map.2 ⟨m, hm, rfl⟩
  · rw [startNodes_startsOf]
    have := h.filterMap (fun a => match a with | Act.start u _ _ => some u | _ => none)
    refine this.trans ?_
    rw [List.filterMap_map]
    have e : (((fun a => match a with | Act.start u _ _ => some u | _ => none) ∘ fun m : Mv => Act.start m.node m.dst maxHNW)) = (fun m => some (Mv.node m)) := rfl
    rw [e, List.filterMap_eq_map']

/-- **Effect of a set of moves**, for every schedule. -/
theorem moves_spec {L : C.Lawful m k mx} (hw : H.WF) (hf : H.Fits m mx) (hnw : ∀ u ∈ H.nodes, 0 ≤ H.nw u)
    (htot : (H.nodes.map H.nw).sum ≤ maxHNW) {A : List Mv} {as : List Act} {s s' : CSt σ} (hG : Good L H s) (hA : (A.map Mv.node).Nodup)
    (hs : (startsOf as).Perm (A.map (fun m => Act.start m.node m.dst maxHNW))) (he : CSt.exec C H k o s as = some s')
    (hq : s'.quiescent H = true) :
    Good L H s' ∧ s'.part = moveAll s.part A ∧
    ((s'.log.drop s.log.length).map (attrGain o)).sum = H.objective s'.part o - H.objective s.part o := by
  obtain ⟨h1, h2, h3⟩ := starts_mem hs
  obtain ⟨i1, i2⟩ := exec_inv hw hf hG.inv hG.wt he
  obtain ⟨r1, r2⟩ := unlimited_result (o := o) hw hf hnw htot h1 (h3.nodup_iff.2 hA) hG.inv hG.wt hG.quiet he hq
  refine ⟨⟨i1, i2, hq⟩, ?_, attr_exec hw hf hG.inv hG.quiet he hq⟩
  funext v
  by_cases hv : v ∈ A.map Mv.node
  · obtain ⟨mv, hm, rfl⟩ := List.mem_map.1 hv
    rw [moveAll_mem A hA mv hm]
    exact r1 _ _ _ (h2 mv hm)
  · rw [moveAll_other A hv]
    exact r2 v (fun hh => hv (h3.mem_iff.1 hh))

/-! ### A schedule exists -/

/-- the call for node `u` makes steps -/
def Ticks (C : ConInfo σ) (H : HG) (k : Nat) (o : Metrics.Obj) (u : Nat) (s s' : CSt σ) : Prop :=
  ∃ n, CSt.exec C H k o s (List.replicate n (Act.tick u)) = some s' ∧ ∀ v, v ≠ u → s'.proc v = s.proc v

theorem Ticks.refl (u : Nat) (s : CSt σ) : Ticks C H k o u s s := ⟨0, rfl, fun _ _ => rfl⟩

theorem Ticks.head {u : Nat} {s s1 s2 : CSt σ} (h : CSt.step C H k o s (.tick u) = some s1) (hp : ∀ v, v ≠ u → s1.proc v = s.proc v)
    (ht : Ticks C H k o u s1 s2) : Ticks C H k o u s s2 := by
  obtain ⟨n, h1, h2⟩ := ht
  refine ⟨n + 1, ?_, fun v hv => (h2 v hv).trans (hp v hv)⟩
  rw [List.replicate_succ, CSt.exec, h]
  exact h1

theorem Ticks.trans {u : Nat} {s s1 s2 : CSt σ} (h : Ticks C H k o u s s1) (h' : Ticks C H k o u s1 s2) : Ticks C H k o u s s2 := by
  obtain ⟨n, h1, h2⟩ := h
  obtain ⟨n', h3, h4⟩ := h'
  refine ⟨n + n', ?_, fun v hv => (h4 v hv).trans (h2 v hv)⟩
  rw [← List.replicate_append_replicate, exec_append, h1]
  exact h3

theorem setProc_ne (s : CSt σ) (u : Nat) (p : Proc) : ∀ v, v ≠ u → s.setProc u p v = s.proc v := by
  intro v hv; unfold setProc; rw [if_neg hv]

theorem ticks_cache {u src dst : Nat} (t : List Micro) : ∀ (ops : List CacheOp) (s : CSt σ),
    s.proc u = .run src dst (ops.map Micro.cache ++ t) → ∃ s', Ticks C H k o u s s' ∧ s'.proc u = .run src dst t := by
  intro ops
  induction ops with
  | nil => intro s h; exact ⟨s, Ticks.refl u s, h⟩
  | cons op ops ih =>
    have hadd : ∀ (s : CSt σ) (i : Nat) (a : Int), s.proc u = .run src dst (.cache (.add i a) :: (ops.map Micro.cache ++ t)) →
        ∃ s', Ticks C H k o u s s' ∧ s'.proc u = .run src dst t := by
      intro s i a h
      obtain ⟨s', h1, h2⟩ := ih { s with cache := fun j => if j = i then s.cache j + a else s.cache j, proc := s.setProc u (.run src dst (ops.map Micro.cache ++ t)) }
        (by simp [setProc])
      exact ⟨s', Ticks.head (by simp only [CSt.step, h]) (setProc_ne s u _) h1, h2⟩
    intro s h
    cases op with
    | add i a => exact hadd s i a h
    | addIf v b i a =>
      have hst : CSt.step C H k o s (.tick u) = some { s with proc := s.setProc u (.run src dst
          (if s.part v = some b then .cache (.add i a) :: (ops.map Micro.cache ++ t) else ops.map Micro.cache ++ t)) } := by
        simp only [CSt.step, h, List.map_cons, List.cons_append]
      by_cases hp : s.part v = some b
      · rw [if_pos hp] at hst
        obtain ⟨s', h1, h2⟩ := hadd _ i a (by simp [setProc] : ({ s with proc := s.setProc u (.run src dst
          (.cache (.add i a) :: (ops.map Micro.cache ++ t))) } : CSt σ).proc u = _)
        exact ⟨s', Ticks.head hst (setProc_ne s u _) h1, h2⟩
      · rw [if_neg hp] at hst
        obtain ⟨s', h1, h2⟩ := ih { s with proc := s.setProc u (.run src dst (ops.map Micro.cache ++ t)) } (by simp [setProc])
        exact ⟨s', Ticks.head hst (setProc_ne s u _) h1, h2⟩

theorem ticks_edges {u src dst : Nat} : ∀ (es : List Nat) (s : CSt σ),
    s.proc u = .run src dst (es.map Micro.edge) → ∃ s', Ticks C H k o u s s' ∧ s'.proc u = .idle := by
  intro es
  induction es with
  | nil =>
    intro s h
    exact ⟨_, Ticks.head (s1 := { s with proc := s.setProc u .idle }) (by simp only [CSt.step, h, List.map_nil]) (setProc_ne s u _) (Ticks.refl u _),
      by simp [setProc]⟩
  | cons e es ih =>
    intro s h
    have hst : CSt.step C H k o s (.tick u) = some { s with con := (PHG.updateEdge C H s.con e src dst).2, log := s.log ++ [(PHG.updateEdge C H s.con e src dst).1], proc := s.setProc u (.run src dst ((gainDelta o k (H.pins e) (PHG.updateEdge C H s.con e src dst).1).map .cache ++ es.map Micro.edge)) } := by
      simp only [CSt.step, h, List.map_cons]
    obtain ⟨s1, h1, h2⟩ := ticks_cache (C := C) (H := H) (k := k) (o := o) (u := u) (src := src) (dst := dst) (es.map Micro.edge) (gainDelta o k (H.pins e) (PHG.updateEdge C H s.con e src dst).1) _
      (by simp [setProc] : ({ s with con := (PHG.updateEdge C H s.con e src dst).2, log := s.log ++ [(PHG.updateEdge C H s.con e src dst).1], proc := s.setProc u (.run src dst ((gainDelta o k (H.pins e) (PHG.updateEdge C H s.con e src dst).1).map .cache ++ es.map Micro.edge)) } : CSt σ).proc u = _)
    obtain ⟨s2, h3, h4⟩ := ih s1 h2
    exact ⟨s2, (Ticks.head hst (setProc_ne s u _) h1).trans h3, h4⟩

theorem startsOf_ticks (n u : Nat) : startsOf (List.replicate n (Act.tick u)) = [] := by
  unfold startsOf
  rw [List.filter_eq_nil_iff]
  intro a ha
  rw [List.eq_of_mem_replicate ha]; simp

/-- one move can be executed -/
theorem move_exists {L : C.Lawful m k mx} (hw : H.WF) (hnw : ∀ u ∈ H.nodes, 0 ≤ H.nw u) (htot : (H.nodes.map H.nw).sum ≤ maxHNW)
    {s : CSt σ} (hG : Good L H s) {u src dst : Nat} (hu : u ∈ H.nodes) (hp : s.part u = some src) (hne : src ≠ dst) (hd : dst < k) :
    ∃ as s', startsOf as = [Act.start u dst maxHNW] ∧ CSt.exec C H k o s as = some s' ∧ s'.quiescent H = true := by
  have hidle : s.proc u = .idle := (quiescent_iff s).1 hG.quiet u hu
  have hN : NoReject s := by
    intro v d hh
    by_cases hv : v ∈ H.nodes
    · rw [(quiescent_iff s).1 hG.quiet v hv] at hh; cases hh
    · rw [hG.inv.outside v hv] at hh; cases hh
  have hle := counter_le hw hnw hG.inv hG.wt hN hu hd hidle hp hne
  have hst : CSt.step C H k o s (.start u dst maxHNW) = some { s with wt := addWt s.wt dst (H.nw u), proc := s.setProc u (.accepted src dst), moved := fun v => if v = u then true else s.moved v } := by
    have h2 : addWt s.wt dst (H.nw u) dst ≤ maxHNW := by simp only [addWt, if_true]; omega
    simp only [CSt.step, hu, hd, (isIdle_iff s u).2 hidle, and_self, if_true, hp]
    rw [if_pos hne, if_pos h2]
  generalize hs1 : ({ s with wt := addWt s.wt dst (H.nw u), proc := s.setProc u (.accepted src dst), moved := fun v => if v = u then true else s.moved v } : CSt σ) = s1 at hst
  have p1 : s1.proc u = .accepted src dst := by rw [← hs1]; simp [setProc]
  have o1 : ∀ v, v ≠ u → s1.proc v = s.proc v := by rw [← hs1]; exact setProc_ne s u _
  have hst2 : CSt.step C H k o s1 (.tick u) = some { s1 with part := s1.part.put u dst, proc := s1.setProc u (.placed src dst) } := by
    simp only [CSt.step, p1]
  have hst3 : CSt.step C H k o { s1 with part := s1.part.put u dst, proc := s1.setProc u (.placed src dst) } (.tick u) =
      some { s1 with part := s1.part.put u dst, wt := addWt s1.wt src (-H.nw u), proc := s1.setProc u (.run src dst ((H.inc u).map .edge)) } := by
    have hpr : s1.setProc u (.placed src dst) u = .placed src dst := by simp [setProc]
    simp only [CSt.step, hpr]
    congr 2
    funext v
    show (if v = u then _ else (if v = u then _ else s1.proc v)) = (if v = u then _ else s1.proc v)
    split_ifs <;> rfl
  obtain ⟨s4, h4, h5⟩ := ticks_edges (C := C) (H := H) (k := k) (o := o) (u := u) (src := src) (dst := dst) (H.inc u)
    { s1 with part := s1.part.put u dst, wt := addWt s1.wt src (-H.nw u), proc := s1.setProc u (.run src dst ((H.inc u).map .edge)) } (by simp [setProc])
  have ht : Ticks C H k o u s1 s4 := Ticks.head hst2 (setProc_ne s1 u _) (Ticks.head hst3 (by
    intro v hv; show s1.setProc u _ v = s1.setProc u _ v; rw [setProc_ne s1 u _ v hv, setProc_ne s1 u _ v hv]) h4)
  obtain ⟨n, h6, h7⟩ := ht
  refine ⟨Act.start u dst maxHNW :: List.replicate n (Act.tick u), s4, ?_, ?_, ?_⟩
  · show Act.start u dst maxHNW :: startsOf (List.replicate n (Act.tick u)) = _
    rw [startsOf_ticks]
  · rw [CSt.exec, hst]; exact h6
  · rw [quiescent_iff]
    intro v hv
    by_cases hvu : v = u
    · subst hvu; exact h5
    · rw [h7 v hvu, o1 v hvu]; exact (quiescent_iff s).1 hG.quiet v hv

/-- a set of moves can be executed -/
theorem moves_exist {L : C.Lawful m k mx} (hw : H.WF) (hf : H.Fits m mx) (hnw : ∀ u ∈ H.nodes, 0 ≤ H.nw u)
    (htot : (H.nodes.map H.nw).sum ≤ maxHNW) (A : List Mv) : ∀ {s : CSt σ}, Good L H s → Fit H k s.part A →
    ∃ as s', startsOf as = A.map (fun m => Act.start m.node m.dst maxHNW) ∧ CSt.exec C H k o s as = some s' ∧ s'.quiescent H = true := by
  induction A with
  | nil => intro s hG _; exact ⟨[], s, rfl, rfl, hG.quiet⟩
  | cons a A ih =>
    intro s hG hF
    obtain ⟨as, s1, h1, h2, h3⟩ := move_exists (o := o) hw hnw htot hG (hF.mem a (by simp)) (hF.src a (by simp)) (hF.dst a (by simp)).2 (hF.dst a (by simp)).1
    obtain ⟨g1, g2, _⟩ := moves_spec (o := o) (A := [a]) hw hf hnw htot hG (by simp) (by rw [h1]; exact List.Perm.refl _) h2 h3
    have hn := hF.nodup
    rw [List.map_cons, List.nodup_cons] at hn
    have hF1 : Fit H k s1.part A := by
      refine ⟨hn.2, fun m hm => hF.mem m (by simp [hm]), ?_, fun m hm => hF.dst m (by simp [hm])⟩
      intro m hm
      have : m.node ≠ a.node := fun hh => hn.1 (hh ▸ List.mem_map.2 ⟨m, hm, rfl⟩)
      rw [g2, moveAll_other [a] (by simpa using this)]
      exact hF.src m (by simp [hm])
    obtain ⟨as2, s2, h4, h5, h6⟩ := ih g1 hF1
    refine ⟨as ++ as2, s2, ?_, ?_, h6⟩
    · unfold startsOf at *
      rw [List.filter_append, h1, h4]; rfl
    · rw [exec_append, h2]; exact h5

end
end DetLP
end Verif
