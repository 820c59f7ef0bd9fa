import Verif.Lemmas.GainInit
/-!
# C05, C06, C11-C14  Concurrent moves, attributed gains and gain caches

All theorems quantify over the history `os` that produced the partition, the distribution and order
`tasks` of the gain cache initialisation, and the schedule `as`: an arbitrary list of atomic steps of
any number of concurrent `changeNodePart` calls (`CSt.step`).
-/
namespace Verif
open PHG CSt

/-- State in which a parallel refinement starts: partition `P`, gain cache `cache`, no call active. -/
def CSt.begin {σ : Type} (P : PHG σ) (cache : Nat → Int) : CSt σ :=
  { part := P.part, wt := P.wt, con := P.con, cache := cache, log := [],
    proc := fun _ => .idle, moved := fun _ => false }

/-- Limits of all moves started in the schedule respect `Lim`. -/
def Act.RespectLimit (Lim : Nat → Int) (as : List Act) : Prop :=
  ∀ a ∈ as, ∀ u dst lim, a = .start u dst lim → lim ≤ Lim dst

/-- node `v` is not moved in the schedule -/
def Act.NeverStarts (v : Nat) (as : List Act) : Prop := ∀ dst lim, Act.start v dst lim ∉ as

section
variable {σ : Type} {C : ConInfo σ} {H : HG} {m k mx : Nat} {o : Metrics.Obj}

theorem exec_ind {Q : CSt σ → Prop} (hstep : ∀ s a s', Q s → Step C H k o s a s' → Q s')
    (as : List Act) : ∀ {s s' : CSt σ}, Q s → CSt.exec C H k o s as = some s' → Q s' := by
  induction as with
  | nil => intro s s' h he; simp only [CSt.exec] at he; cases he; exact h
  | cons a as ih =>
    intro s s' h he
    simp only [CSt.exec] at he
    cases hst : step C H k o s a with
    | none => rw [hst] at he; cases he
    | some s1 => rw [hst] at he; exact ih (hstep s a s1 h (step_Step hst)) he

theorem exec_append (as bs : List Act) : ∀ (s : CSt σ), CSt.exec C H k o s (as ++ bs) =
    (CSt.exec C H k o s as).bind (fun s' => CSt.exec C H k o s' bs) := by
  induction as with
  | nil => intro s; rfl
  | cons a as ih =>
    intro s
    simp only [List.cons_append, CSt.exec]
    cases step C H k o s a with
    | none => rfl
    | some s1 => exact ih s1

theorem begin_inv {L : C.Lawful m k mx} {P : PHG σ} {Φ : Assign} (hS : Sim L H P Φ)
    (hall : ∀ v ∈ H.nodes, Φ v ≠ none) (cache : Nat → Int) :
    Inv L H (CSt.begin P cache) ∧ WtInv H k (CSt.begin P cache) := by
  have hpt : (CSt.begin P cache).part = Φ := hS.part
  refine ⟨⟨fun _ _ => rfl, ?_, ?_, fun _ _ => trivial, ?_⟩, ?_⟩
  · intro v hv
    rw [hpt]
    cases h : Φ v with
    | none => exact absurd h (hall v hv)
    | some b => exact ⟨b, hS.range v b h, rfl⟩
  · rw [hpt]; exact hS.range
  · obtain ⟨T, hR, hT⟩ := hS.con
    refine ⟨T, hR, fun e he b hb => ?_⟩
    rw [hT e he b hb]
    exact HG.pinsIn_congr (fun v _ => by rw [← hpt]; rfl) b
  · intro b hb
    rw [extraSum_quiescent (fun _ _ => rfl), add_zero, hpt]
    exact hS.wt b hb

/-- state relation at quiescence: everything a client can query is exact -/
theorem quiescent_sim {L : C.Lawful m k mx} (hw : H.WF) {s : CSt σ} (hI : Inv L H s)
    (hW : WtInv H k s) (hq : s.quiescent H = true) :
    Sim L H { part := s.part, wt := s.wt, con := s.con } s.part := by
  have hq' := (quiescent_iff s).1 hq
  refine ⟨rfl, hI.range, ?_, ?_⟩
  · intro b hb
    have := hW b hb
    rw [extraSum_quiescent hq', add_zero] at this
    exact this
  · obtain ⟨T, hR, hT⟩ := hI.con
    exact ⟨T, hR, fun e he b hb => by
      rw [hT e he b hb]; exact HG.pinsIn_congr (view_quiescent hq' hw e he) b⟩

theorem conc_inv {L : C.Lawful m k mx} (hw : H.WF) (hf : H.Fits m mx) {P : PHG σ} {Φ : Assign}
    (hS : Sim L H P Φ) (hall : ∀ v ∈ H.nodes, Φ v ≠ none) {cache : Nat → Int} {as : List Act}
    {s : CSt σ} (he : CSt.exec C H k o (CSt.begin P cache) as = some s) : Inv L H s ∧ WtInv H k s := by
  refine exec_ind (Q := fun s => Inv L H s ∧ WtInv H k s) ?_ as (begin_inv hS hall cache) he
  intro s a s' h hst
  exact ⟨(h.1.step hw hf hst).1, h.2.step hw h.1 hst⟩

theorem C05_generic {L : C.Lawful m k mx} (hw : H.WF) (hf : H.Fits m mx)
    (hnw : ∀ u ∈ H.nodes, 0 ≤ H.nw u) {P : PHG σ} {Φ : Assign}
    (hS : Sim L H P Φ) (hall : ∀ v ∈ H.nodes, Φ v ≠ none) {cache : Nat → Int} {as : List Act}
    {s : CSt σ} (Lim : Nat → Int) (hlim : Act.RespectLimit Lim as)
    (he : CSt.exec C H k o (CSt.begin P cache) as = some s) :
    (∀ b, b < k → H.blockWeight s.part b ≤ max (Lim b) (H.blockWeight P.part b)) ∧
    (s.quiescent H = true → ∀ b, b < k → s.wt b = H.blockWeight s.part b) := by
  obtain ⟨hI, hW⟩ := conc_inv hw hf hS hall he
  refine ⟨?_, fun hq b hb => (quiescent_sim hw hI hW hq).wt b hb⟩
  have hB0 : BoundInv H k (fun b => max (Lim b) (H.blockWeight P.part b)) (CSt.begin P cache) := by
    intro b hb
    have : accSum H (CSt.begin P cache) b = 0 := by
      unfold accSum
      show (H.nodes.map (fun _ => (0 : Int))).sum = 0
      simp
    rw [this, add_zero]; exact le_max_right _ _
  have key : ∀ (as : List Act) (s0 : CSt σ), Act.RespectLimit Lim as → Inv L H s0 → WtInv H k s0 →
      BoundInv H k (fun b => max (Lim b) (H.blockWeight P.part b)) s0 →
      CSt.exec C H k o s0 as = some s → BoundInv H k (fun b => max (Lim b) (H.blockWeight P.part b)) s := by
    intro as
    induction as with
    | nil => intro s0 _ _ _ h4 h5; simp only [CSt.exec] at h5; cases h5; exact h4
    | cons a as ih =>
      intro s0 h1 h2 h3 h4 h5
      simp only [CSt.exec] at h5
      cases hst : CSt.step C H k o s0 a with
      | none => rw [hst] at h5; cases h5
      | some s1 =>
        rw [hst] at h5
        have hst' := step_Step hst
        refine ih s1 (fun a ha => h1 a (by simp [ha])) (h2.step hw hf hst').1 (h3.step hw h2 hst') ?_ h5
        refine h4.step hw hnw (Lim := Lim) (fun b => le_max_left _ _) ?_ h2 h3 hst'
        cases a with
        | start u dst lim => exact h1 _ (by simp) u dst lim rfl
        | tick u => trivial
        | recompute u => trivial
  obtain ⟨i1, i2⟩ := begin_inv hS hall cache
  have := key as _ hlim i1 i2 hB0 he
  intro b hb
  have h1 := this b hb
  have h2 := accSum_nonneg hnw s b
  simp only at h1
  omega

theorem C06_generic {L : C.Lawful m k mx} (hw : H.WF) (hf : H.Fits m mx) {P : PHG σ} {Φ : Assign}
    (hS : Sim L H P Φ) (hall : ∀ v ∈ H.nodes, Φ v ≠ none) {cache : Nat → Int} {as : List Act}
    {s : CSt σ} (he : CSt.exec C H k o (CSt.begin P cache) as = some s) (hq : s.quiescent H = true)
    (og : Metrics.Obj) :
    (s.log.map (attrGain og)).sum = H.objective s.part og - H.objective P.part og := by
  have hobj : ∀ Ψ : Assign, H.objective Ψ og = (H.edges.map (fun e => H.term Ψ e og)).sum := by
    intro Ψ; cases og <;> rfl
  have hL0 : LogInv H og (H.objective P.part og) (CSt.begin P cache) := by
    unfold LogInv
    rw [hobj]
    show _ + ([] : List Int).sum = _
    simp only [List.sum_nil, add_zero]
    rfl
  obtain ⟨i1, _⟩ := begin_inv hS hall cache
  have := exec_ind (C := C) (o := o) (Q := fun s => Inv L H s ∧ LogInv H og (H.objective P.part og) s)
    (fun s a s' h hst => ⟨(h.1.step hw hf hst).1, h.2.step hw h.1 (h.1.step hw hf hst).2⟩) as
    ⟨i1, hL0⟩ he
  have hl := this.2
  unfold LogInv at hl
  have hv := view_quiescent ((quiescent_iff s).1 hq) hw
  rw [List.map_congr_left (g := fun e => H.term s.part e og)
    (fun e he => HG.term_congr (hv e he) og), ← hobj] at hl
  omega

/-- the schedule never starts a move of `v`: `v` keeps its block and counts as unmoved -/
theorem neverStarts_spec {v : Nat} {as : List Act} : ∀ {s s' : CSt σ}, Act.NeverStarts v as →
    s.moved v = false → CSt.exec C H k o s as = some s' → s'.moved v = false := by
  induction as with
  | nil => intro s s' _ h he; simp only [CSt.exec] at he; cases he; exact h
  | cons a as ih =>
    intro s s' hn h he
    simp only [CSt.exec] at he
    cases hst : CSt.step C H k o s a with
    | none => rw [hst] at he; cases he
    | some s1 =>
      rw [hst] at he
      refine ih (fun d l hh => hn d l (List.mem_cons_of_mem _ hh)) ?_ he
      have := step_Step hst
      cases this with
      | @accept u src dst lim hu hd hi hp hne hle =>
        have : v ≠ u := by rintro rfl; exact hn dst lim (by simp)
        simp [this, h]
      | @recomp u hu hq => simp only; split <;> simp [h]
      | _ => exact h

theorem cacheInv_begin {L : C.Lawful m k mx} {P : PHG σ} {Φ : Assign}
    (hS : Sim L H P Φ) {cache : Nat → Int}
    (hex : ∀ u ∈ H.nodes, EntryExact H k o cache Φ u) : CacheInv H k o (CSt.begin P cache) := by
  have hpt : (CSt.begin P cache).part = Φ := hS.part
  have hpend : ∀ i, pendSum H (CSt.begin P cache) i = 0 := fun i => pendSum_quiescent (fun _ _ => rfl) i
  have hview : (CSt.begin P cache).view = fun _ => Φ := by
    funext e v; rw [← hpt]; rfl
  refine ⟨fun v hv b hb => ?_, fun v hv _ p hp => ?_⟩
  · rw [hpend, add_zero, hview]; exact (hex v hv).1 b hb
  · rw [hpend, add_zero, hview]; exact (hex v hv).2 p (hpt ▸ hp)

theorem conc_cacheInv {L : C.Lawful m k mx} (hw : H.WF) (hf : H.Fits m mx) {P : PHG σ} {Φ : Assign}
    (hS : Sim L H P Φ) (hall : ∀ v ∈ H.nodes, Φ v ≠ none) {cache : Nat → Int}
    (hex : ∀ u ∈ H.nodes, EntryExact H k o cache Φ u) {as : List Act}
    {s : CSt σ} (he : CSt.exec C H k o (CSt.begin P cache) as = some s) :
    Inv L H s ∧ CacheInv H k o s := by
  obtain ⟨i1, _⟩ := begin_inv hS hall cache
  exact exec_ind (C := C) (o := o) (Q := fun s => Inv L H s ∧ CacheInv H k o s)
    (fun s a s' h hst => ⟨(h.1.step hw hf hst).1, h.2.step hw hf h.1 hst⟩) as
    ⟨i1, cacheInv_begin hS hex⟩ he

theorem cacheGain_exact {L : C.Lawful m k mx} (hw : H.WF) {s : CSt σ} (hI : Inv L H s)
    (hC : CacheInv H k o s) (hq : s.quiescent H = true) {v src dst : Nat} (hv : v ∈ H.nodes)
    (hm : s.moved v = false) (hp : s.part v = some src) (hne : src ≠ dst) (hd : dst < k) :
    cacheGain k s.cache v dst = H.objective s.part o - H.objective (s.part.put v dst) o := by
  have hq' := (quiescent_iff s).1 hq
  have hb := hC.ben v hv dst hd
  have hpn := hC.pen v hv hm src hp
  rw [pendSum_quiescent hq', add_zero, multSum_congr hw hv (view_quiescent hq' hw)] at hb hpn
  unfold cacheGain
  rw [hb, hpn]
  exact mult_gain_eq hw hv hp hne (fun x hx => by
    obtain ⟨b, _, hb⟩ := hI.assigned x hx; rw [hb]; simp) o

/-- recomputing the penalty terms of a list of nodes at quiescence -/
theorem recompute_all (l : List Nat) : ∀ {s s' : CSt σ}, s.quiescent H = true →
    CSt.exec C H k o s (l.map Act.recompute) = some s' → s'.quiescent H = true ∧
    (∀ v, v ∈ l → s'.moved v = false) ∧ (∀ v, s.moved v = false → s'.moved v = false) ∧
    s'.part = s.part := by
  induction l with
  | nil => intro s s' hq he; simp only [List.map_nil, CSt.exec] at he; cases he; exact ⟨hq, by simp, fun _ h => h, rfl⟩
  | cons a l ih =>
    intro s s' hq he
    simp only [List.map_cons, CSt.exec] at he
    cases hst : CSt.step C H k o s (.recompute a) with
    | none => rw [hst] at he; cases he
    | some s1 =>
      rw [hst] at he
      have := step_Step hst
      cases this with
      | @recomp u hu hq2 =>
        have hq1 : CSt.quiescent H { s with
          cache := fun j => if j = penIdx k a then
            recomputePenalty o H (C.pinCount s.con) s.part a else s.cache j
          moved := fun v => if v = a then false else s.moved v } = true := (quiescent_iff _).2 hq2
        obtain ⟨r1, r2, r3, r4⟩ := ih hq1 he
        refine ⟨r1, fun v hv => ?_, fun v hv => ?_, r4⟩
        · rcases List.mem_cons.1 hv with rfl | h
          · exact r3 v (by simp)
          · exact r2 v h
        · exact r3 v (by simp [hv])

end

/-! ## Property theorems -/

/-- the gain cache of a partition, initialised by `initializeGainCache` (its memory contained
arbitrary values before) -/
abbrev denseCache (H : HG) (m k mx : Nat) (os : List PHOp) (o : Metrics.Obj) (threads : List Nat)
    (tasks : List InitTask) (mem : Nat → Int) : Nat → Int :=
  (initCache denseCon H k o (denseRun H m k mx os) threads tasks mem).1

abbrev sparseCache (H : HG) (k : Nat) (os : List PHOp) (o : Metrics.Obj) (threads : List Nat)
    (tasks : List InitTask) (mem : Nat → Int) : Nat → Int :=
  (initCache sparseCon H k o (sparseRun H k os) threads tasks mem).1

theorem dense_sim (H : HG) (m k mx : Nat) (hw : H.WF) (hf : H.Fits m mx)
    (hk : 0 < k) (h0 : 0 < mx) (h1 : mx + 1 < 2 ^ 32) (os : List PHOp)
    (hl : PHOp.AllLegal H k (fun _ => none) os) :
    Sim (denseLawful m k mx) H (denseRun H m k mx os) (denseRun H m k mx os).part := by
  obtain ⟨_, hS⟩ := PHG.sim_execAll hw hf os
    (PHG.sim_init (H := H) (denseInit_R (m := m) hk h0 h1)) hl
  have hp := hS.part
  rw [← hp] at hS
  exact hS

theorem sparse_sim (H : HG) (m k mx : Nat) (hw : H.WF) (hf : H.Fits m mx) (os : List PHOp)
    (hl : PHOp.AllLegal H k (fun _ => none) os) :
    Sim (sparseLawful m k mx) H (sparseRun H k os) (sparseRun H k os).part := by
  obtain ⟨_, hS⟩ := PHG.sim_execAll hw hf os (PHG.sim_init (H := H) (sparseInit_R m k mx)) hl
  have hp := hS.part
  rw [← hp] at hS
  exact hS

theorem cacheExact_of {σ : Type} {C : ConInfo σ} {H : HG} {m k mx : Nat} {L : C.Lawful m k mx}
    (hw : H.WF) (hf : H.Fits m mx) {P : PHG σ} (hS : Sim L H P P.part)
    (hall : ∀ v ∈ H.nodes, P.part v ≠ none) (o : Metrics.Obj) {threads : List Nat}
    (hn : threads.Nodup) {tasks : List InitTask} (ht : ∀ t ∈ tasks, t.Legal H threads)
    (hc : ∀ u ∈ H.nodes, ∃ t ∈ tasks, t.node = u) (mem : Nat → Int) :
    ∀ u ∈ H.nodes, EntryExact H k o (initCache C H k o P threads tasks mem).1 P.part u := by
  intro u hu
  obtain ⟨t, h1, rfl⟩ := hc u hu
  refine initCache_exact hw hf hS o (fun v hv => ?_) hn tasks ht mem t h1
  cases h : P.part v with
  | none => exact absurd h (hall v hv)
  | some b => exact ⟨b, hS.range v b h, rfl⟩

/-- **C05.** For every schedule of concurrent moves with limits `Lim`, at every moment the weight of
the nodes assigned to a block is at most the limit (or its initial weight); when no call is active the
reported block weights are exact. Default partition type. -/
theorem C05_never_overloaded (H : HG) (m k mx : Nat) (hw : H.WF) (hf : H.Fits m mx)
    (hk : 0 < k) (h0 : 0 < mx) (h1 : mx + 1 < 2 ^ 32) (hnw : ∀ u ∈ H.nodes, 0 ≤ H.nw u)
    (os : List PHOp) (hl : PHOp.AllLegal H k (fun _ => none) os)
    (hall : ∀ v ∈ H.nodes, (denseRun H m k mx os).part v ≠ none)
    (o : Metrics.Obj) (cache : Nat → Int) (Lim : Nat → Int) (as : List Act)
    (hlim : Act.RespectLimit Lim as) (s : CSt (Packed × ConnSets))
    (he : CSt.exec denseCon H k o (CSt.begin (denseRun H m k mx os) cache) as = some s) :
    (∀ b, b < k → H.blockWeight s.part b ≤
      max (Lim b) (H.blockWeight (denseRun H m k mx os).part b)) ∧
    (s.quiescent H = true → ∀ b, b < k → s.wt b = H.blockWeight s.part b) :=
  C05_generic hw hf hnw (dense_sim H m k mx hw hf hk h0 h1 os hl) hall Lim hlim he

/-- **C05**, LARGE_K partition type. -/
theorem C05_never_overloaded_sparse (H : HG) (m k mx : Nat) (hw : H.WF) (hf : H.Fits m mx)
    (hnw : ∀ u ∈ H.nodes, 0 ≤ H.nw u)
    (os : List PHOp) (hl : PHOp.AllLegal H k (fun _ => none) os)
    (hall : ∀ v ∈ H.nodes, (sparseRun H k os).part v ≠ none)
    (o : Metrics.Obj) (cache : Nat → Int) (Lim : Nat → Int) (as : List Act)
    (hlim : Act.RespectLimit Lim as) (s : CSt SparsePC)
    (he : CSt.exec sparseCon H k o (CSt.begin (sparseRun H k os) cache) as = some s) :
    (∀ b, b < k → H.blockWeight s.part b ≤ max (Lim b) (H.blockWeight (sparseRun H k os).part b)) ∧
    (s.quiescent H = true → ∀ b, b < k → s.wt b = H.blockWeight s.part b) :=
  C05_generic hw hf hnw (sparse_sim H m k mx hw hf os hl) hall Lim hlim he

/-- **C05 / C01 / C02 under concurrency.** After every schedule, once no call is active, pin counts and
connectivity are exact. -/
theorem C05_pin_counts_after_concurrent_moves (H : HG) (m k mx : Nat) (hw : H.WF) (hf : H.Fits m mx)
    (hk : 0 < k) (h0 : 0 < mx) (h1 : mx + 1 < 2 ^ 32)
    (os : List PHOp) (hl : PHOp.AllLegal H k (fun _ => none) os)
    (hall : ∀ v ∈ H.nodes, (denseRun H m k mx os).part v ≠ none)
    (o : Metrics.Obj) (cache : Nat → Int) (as : List Act) (s : CSt (Packed × ConnSets))
    (he : CSt.exec denseCon H k o (CSt.begin (denseRun H m k mx os) cache) as = some s)
    (hq : s.quiescent H = true) :
    (∀ e ∈ H.edges, ∀ b, b < k → denseCon.pinCount s.con e b = H.pinsIn s.part e b) ∧
    (∀ e ∈ H.edges, denseCon.connectivity s.con e = H.lam s.part e) := by
  obtain ⟨hI, hW⟩ := conc_inv hw hf (dense_sim H m k mx hw hf hk h0 h1 os hl) hall he
  have hS := quiescent_sim hw hI hW hq
  refine ⟨fun e he b hb => ?_, fun e he => (hS.connSet_lam hf he).1⟩
  obtain ⟨T, hR, hT⟩ := hS.con
  rw [← hT e he b hb]; exact (denseLawful m k mx).pinCount_eq hR (hf e he).1 hb

/-- **C06.** The attributed gains of all updates reported during an arbitrary schedule of concurrent
moves sum up to the change of the objective (every objective `og`). -/
theorem C06_attributed_gains_sum (H : HG) (m k mx : Nat) (hw : H.WF) (hf : H.Fits m mx)
    (hk : 0 < k) (h0 : 0 < mx) (h1 : mx + 1 < 2 ^ 32)
    (os : List PHOp) (hl : PHOp.AllLegal H k (fun _ => none) os)
    (hall : ∀ v ∈ H.nodes, (denseRun H m k mx os).part v ≠ none)
    (o : Metrics.Obj) (cache : Nat → Int) (as : List Act) (s : CSt (Packed × ConnSets))
    (he : CSt.exec denseCon H k o (CSt.begin (denseRun H m k mx os) cache) as = some s)
    (hq : s.quiescent H = true) (og : Metrics.Obj) :
    (s.log.map (attrGain og)).sum =
      H.objective s.part og - H.objective (denseRun H m k mx os).part og :=
  C06_generic hw hf (dense_sim H m k mx hw hf hk h0 h1 os hl) hall he hq og

/-- **C06**, LARGE_K partition type. -/
theorem C06_attributed_gains_sum_sparse (H : HG) (m k mx : Nat) (hw : H.WF) (hf : H.Fits m mx)
    (os : List PHOp) (hl : PHOp.AllLegal H k (fun _ => none) os)
    (hall : ∀ v ∈ H.nodes, (sparseRun H k os).part v ≠ none)
    (o : Metrics.Obj) (cache : Nat → Int) (as : List Act) (s : CSt SparsePC)
    (he : CSt.exec sparseCon H k o (CSt.begin (sparseRun H k os) cache) as = some s)
    (hq : s.quiescent H = true) (og : Metrics.Obj) :
    (s.log.map (attrGain og)).sum =
      H.objective s.part og - H.objective (sparseRun H k os).part og :=
  C06_generic hw hf (sparse_sim H m k mx hw hf os hl) hall he hq og

/-- Common form of C11-C13: initialise the gain cache of objective `o` (any distribution of the work),
run any schedule of concurrent moves until no call is active, recompute the penalty terms of the nodes
in `R`. Then for every node that is in `R` or was never moved, the cached gain of moving it to a block
is exactly the decrease of the objective. -/
theorem gain_cache_exact {σ : Type} {C : ConInfo σ} {H : HG} {m k mx : Nat} {L : C.Lawful m k mx}
    (hw : H.WF) (hf : H.Fits m mx) {P : PHG σ} (hS : Sim L H P P.part)
    (hall : ∀ v ∈ H.nodes, P.part v ≠ none) (o : Metrics.Obj) {threads : List Nat}
    (hn : threads.Nodup) {tasks : List InitTask} (ht : ∀ t ∈ tasks, t.Legal H threads)
    (hc : ∀ u ∈ H.nodes, ∃ t ∈ tasks, t.node = u) (mem : Nat → Int) (as : List Act) (R : List Nat)
    {s1 s : CSt σ}
    (he1 : CSt.exec C H k o (CSt.begin P (initCache C H k o P threads tasks mem).1) as = some s1)
    (hq : s1.quiescent H = true) (he : CSt.exec C H k o s1 (R.map Act.recompute) = some s)
    {v src dst : Nat} (hv : v ∈ H.nodes) (hR : v ∈ R ∨ Act.NeverStarts v as)
    (hp : s.part v = some src) (hne : src ≠ dst) (hd : dst < k) :
    cacheGain k s.cache v dst = H.objective s.part o - H.objective (s.part.put v dst) o := by
  have hex := cacheExact_of hw hf hS hall o hn ht hc mem
  obtain ⟨r1, r2, r3, r4⟩ := recompute_all R hq he
  have heA : CSt.exec C H k o (CSt.begin P (initCache C H k o P threads tasks mem).1)
      (as ++ R.map Act.recompute) = some s := by
    rw [exec_append, he1]; exact he
  obtain ⟨hI, hC⟩ := conc_cacheInv hw hf hS hall hex heA
  refine cacheGain_exact hw hI hC r1 hv ?_ hp hne hd
  rcases hR with h | h
  · exact r2 v h
  · exact r3 v (neverStarts_spec h rfl he1)

section
variable (H : HG) (m k mx : Nat) (hw : H.WF) (hf : H.Fits m mx)
  (hk : 0 < k) (h0 : 0 < mx) (h1 : mx + 1 < 2 ^ 32)
  (os : List PHOp) (hl : PHOp.AllLegal H k (fun _ => none) os)
  (threads : List Nat) (hn : threads.Nodup) (tasks : List InitTask)
  (ht : ∀ t ∈ tasks, t.Legal H threads) (hc : ∀ u ∈ H.nodes, ∃ t ∈ tasks, t.node = u)
  (mem : Nat → Int) (as : List Act) (R : List Nat)
include hw hf hk h0 h1 hl hn ht hc

/-- **C11** km1 gain cache, default partition type. -/
theorem C11_km1_gain_exact
    (hall : ∀ v ∈ H.nodes, (denseRun H m k mx os).part v ≠ none) (s1 s : CSt (Packed × ConnSets))
    (he1 : CSt.exec denseCon H k .km1 (CSt.begin (denseRun H m k mx os)
      (denseCache H m k mx os .km1 threads tasks mem)) as = some s1)
    (hq : s1.quiescent H = true)
    (he : CSt.exec denseCon H k .km1 s1 (R.map Act.recompute) = some s)
    (v src dst : Nat) (hv : v ∈ H.nodes) (hR : v ∈ R ∨ Act.NeverStarts v as)
    (hp : s.part v = some src) (hne : src ≠ dst) (hd : dst < k) :
    cacheGain k s.cache v dst = H.km1 s.part - H.km1 (s.part.put v dst) :=
  gain_cache_exact hw hf (dense_sim H m k mx hw hf hk h0 h1 os hl) hall .km1 hn ht hc mem as R
    he1 hq he hv hR hp hne hd

/-- **C12** cut gain cache, default partition type. -/
theorem C12_cut_gain_exact
    (hall : ∀ v ∈ H.nodes, (denseRun H m k mx os).part v ≠ none) (s1 s : CSt (Packed × ConnSets))
    (he1 : CSt.exec denseCon H k .cut (CSt.begin (denseRun H m k mx os)
      (denseCache H m k mx os .cut threads tasks mem)) as = some s1)
    (hq : s1.quiescent H = true)
    (he : CSt.exec denseCon H k .cut s1 (R.map Act.recompute) = some s)
    (v src dst : Nat) (hv : v ∈ H.nodes) (hR : v ∈ R ∨ Act.NeverStarts v as)
    (hp : s.part v = some src) (hne : src ≠ dst) (hd : dst < k) :
    cacheGain k s.cache v dst = H.cut s.part - H.cut (s.part.put v dst) :=
  gain_cache_exact hw hf (dense_sim H m k mx hw hf hk h0 h1 os hl) hall .cut hn ht hc mem as R
    he1 hq he hv hR hp hne hd

/-- **C13** soed gain cache, default partition type. -/
theorem C13_soed_gain_exact
    (hall : ∀ v ∈ H.nodes, (denseRun H m k mx os).part v ≠ none) (s1 s : CSt (Packed × ConnSets))
    (he1 : CSt.exec denseCon H k .soed (CSt.begin (denseRun H m k mx os)
      (denseCache H m k mx os .soed threads tasks mem)) as = some s1)
    (hq : s1.quiescent H = true)
    (he : CSt.exec denseCon H k .soed s1 (R.map Act.recompute) = some s)
    (v src dst : Nat) (hv : v ∈ H.nodes) (hR : v ∈ R ∨ Act.NeverStarts v as)
    (hp : s.part v = some src) (hne : src ≠ dst) (hd : dst < k) :
    cacheGain k s.cache v dst = H.soed s.part - H.soed (s.part.put v dst) :=
  gain_cache_exact hw hf (dense_sim H m k mx hw hf hk h0 h1 os hl) hall .soed hn ht hc mem as R
    he1 hq he hv hR hp hne hd

/-- **C14.** After an arbitrary schedule of concurrent moves (no call active any more, nothing
recomputed) every km1 benefit term equals its definition, and so does every penalty term of a node
that was not moved. -/
theorem C14_cache_survives_concurrency
    (hall : ∀ v ∈ H.nodes, (denseRun H m k mx os).part v ≠ none) (s : CSt (Packed × ConnSets))
    (he : CSt.exec denseCon H k .km1 (CSt.begin (denseRun H m k mx os)
      (denseCache H m k mx os .km1 threads tasks mem)) as = some s)
    (hq : s.quiescent H = true) :
    (∀ v ∈ H.nodes, ∀ b, b < k → s.cache (benIdx k v b) =
      ((H.inc v).map (fun e => if H.pinsIn s.part e b ≥ 1 then H.ew e else 0)).sum) ∧
    (∀ v ∈ H.nodes, Act.NeverStarts v as → ∀ p, s.part v = some p → s.cache (penIdx k v) =
      ((H.inc v).map (fun e => if H.pinsIn s.part e p > 1 then H.ew e else 0)).sum) := by
  have hS := dense_sim H m k mx hw hf hk h0 h1 os hl
  have hex := cacheExact_of hw hf hS hall .km1 hn ht hc mem
  obtain ⟨hI, hC⟩ := conc_cacheInv hw hf hS hall hex he
  have hq' := (quiescent_iff s).1 hq
  refine ⟨fun v hv b hb => ?_, fun v hv hnv p hp => ?_⟩
  · have := hC.ben v hv b hb
    rw [pendSum_quiescent hq', add_zero, multSum_congr hw hv (view_quiescent hq' hw)] at this
    rw [this]
    refine congrArg List.sum (List.map_congr_left (fun e _ => ?_))
    simp only [benMult]; split <;> simp
  · have := hC.pen v hv (neverStarts_spec hnv rfl he) p hp
    rw [pendSum_quiescent hq', add_zero, multSum_congr hw hv (view_quiescent hq' hw)] at this
    rw [this]
    refine congrArg List.sum (List.map_congr_left (fun e _ => ?_))
    simp only [penMult]; split <;> simp

end

/-- **C11-C13**, LARGE_K partition type. -/
theorem C11_C13_gain_exact_sparse (H : HG) (m k mx : Nat) (hw : H.WF) (hf : H.Fits m mx)
    (os : List PHOp) (hl : PHOp.AllLegal H k (fun _ => none) os) (o : Metrics.Obj)
    (threads : List Nat) (hn : threads.Nodup) (tasks : List InitTask)
    (ht : ∀ t ∈ tasks, t.Legal H threads) (hc : ∀ u ∈ H.nodes, ∃ t ∈ tasks, t.node = u)
    (mem : Nat → Int) (as : List Act) (R : List Nat)
    (hall : ∀ v ∈ H.nodes, (sparseRun H k os).part v ≠ none) (s1 s : CSt SparsePC)
    (he1 : CSt.exec sparseCon H k o (CSt.begin (sparseRun H k os)
      (sparseCache H k os o threads tasks mem)) as = some s1)
    (hq : s1.quiescent H = true)
    (he : CSt.exec sparseCon H k o s1 (R.map Act.recompute) = some s)
    (v src dst : Nat) (hv : v ∈ H.nodes) (hR : v ∈ R ∨ Act.NeverStarts v as)
    (hp : s.part v = some src) (hne : src ≠ dst) (hd : dst < k) :
    cacheGain k s.cache v dst = H.objective s.part o - H.objective (s.part.put v dst) o :=
  gain_cache_exact hw hf (sparse_sim H m k mx hw hf os hl) hall o hn ht hc mem as R
    he1 hq he hv hR hp hne hd

/-! ### Non-vacuity: a concrete interleaving of two concurrent moves -/

/-- block ids 0,0,1,1 -/
def exOs : List PHOp :=
  [.build (fun v => if v < 2 then 0 else 1) [3, 1, 0, 2] (fun _ => [[2, 3], [0, 1]]) [1, 0]]

def exTasks : List InitTask := [.low 0 1, .high 2 [(1, [1]), (0, [0])], .low 1 0, .low 0 3]

/-- move node 2 to block 0 and node 1 to block 1 concurrently; node 3 is rejected meanwhile -/
def exSched : List Act :=
  [.start 2 0 100, .start 1 1 100, .start 3 0 4, .tick 1, .tick 2, .tick 3, .tick 2, .tick 1,
   .tick 2, .tick 1] ++ List.replicate 10 (.tick 2) ++ List.replicate 4 (.tick 1)

example : PHOp.AllLegal exHG 2 (fun _ => none) exOs :=
  ⟨⟨by decide, by decide, fun b _ => (by decide : [2, 3, 0, 1].Perm [0, 1, 2, 3]), by decide⟩, trivial⟩

example : ∀ t ∈ exTasks, t.Legal exHG [0, 1] := by
  intro t ht
  simp only [exTasks, List.mem_cons, List.not_mem_nil, or_false] at ht
  rcases ht with rfl | rfl | rfl | rfl
  · exact (by decide : 1 ∈ exHG.nodes)
  · exact ⟨by decide, by decide, by decide⟩
  · exact (by decide : 0 ∈ exHG.nodes)
  · exact (by decide : 3 ∈ exHG.nodes)

/-- The schedule runs to quiescence; nodes 1 and 2 have swapped blocks, node 3 stayed; km1 changed
from 2 to 5 and the attributed gains are -2, 2 and 3. -/
example : ((CSt.exec denseCon exHG 2 .km1 (CSt.begin (denseRun exHG 2 2 3 exOs)
    (denseCache exHG 2 2 3 exOs .km1 [0, 1] exTasks (fun _ => 77))) exSched).map
    (fun s => (s.quiescent exHG, exHG.nodes.map s.part, s.log.map (attrGain .km1)))) =
    some (true, [some 0, some 1, some 0, some 1], [-2, 2, 3]) := by decide +kernel

end Verif
