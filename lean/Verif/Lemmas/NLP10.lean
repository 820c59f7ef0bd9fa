import Verif.Lemmas.NLP9
/-!
# Refinement during the n-level uncoarsening
-/
namespace Verif
namespace Dyn
open SMap (wr)

/-- the current hypergraph, for the partition -/
structure DH.Good (h : DH) (m mx : Nat) : Prop where
  mEq : h.m = m
  nodup : ∀ e, e < m → h.een e = true → (h.edgePins e).Nodup
  pinHas : ∀ e, e < m → h.een e = true → ∀ x ∈ h.edgePins e, h.has x
  len : ∀ e, e < m → h.een e = true → (h.edgePins e).length ≤ mx
  nets : ∀ u, h.has u → ∃ l, h.ina.incidentEdges u = some l ∧ l.Nodup ∧ ∀ e, e ∈ l ↔ e < m ∧ h.een e = true ∧ u ∈ h.edgePins e

section
variable {s0 : DH} {par ver bi : Nat → Nat} {G : Gh} {V c : Nat} {U : UG} {h : DH} {m mx : Nat}

theorem BInv.good (hc : Clean s0) (hS : Stat s0 par ver bi G) (hI : BInv s0 par ver bi G V c h U) (hF : NFix s0 par m mx h) : h.Good m mx := by
  have hC := hI.contracted hc hS
  have hm := hF.mEq
  refine ⟨hI.core.mEq.trans hm, fun e he => hC.pinsNodup e (by omega), fun e he hen x hx => hI.pinHas hc hS (by omega) hen hx, fun e he hen => ?_, fun u hu => ?_⟩
  · have := hF.slots e ⟨by omega, ((hI.core.een e).1 hen).1⟩
    unfold DH.edgePins
    rw [List.length_take]; omega
  · obtain ⟨l, h1, h2, h3, _⟩ := hC.nets u (by rw [← hI.core.nEq]; exact hu.1) hu.2
    exact ⟨l, h1, h2, fun e => by rw [h3 e, hm]⟩

/-- the hypergraph, all nets listed -/
def DH.hgp (h : DH) (m : Nat) : HG := { h.hg with edges := List.range m }

theorem hg_mem {x : Nat} : x ∈ h.hg.nodes ↔ h.has x := by
  unfold DH.hg DH.has
  simp only [List.mem_filter, List.mem_range]

theorem hgp_pins (hG : h.Good m mx) {e : Nat} : (h.hgp m).pins e = if e < m ∧ h.een e = true then h.edgePins e else [] := by
  unfold DH.hgp DH.hg
  simp only [hG.mEq]
  by_cases h1 : e < m <;> by_cases h2 : h.een e = true <;> simp [h1, h2]

theorem hgp_inc (hG : h.Good m mx) {v : Nat} (hv : h.has v) :
    ((h.hgp m).inc v).Nodup ∧ ∀ e, e ∈ (h.hgp m).inc v ↔ e < m ∧ h.een e = true ∧ v ∈ h.edgePins e := by
  obtain ⟨l, h1, h2, h3⟩ := hG.nets v hv
  unfold DH.hgp DH.hg
  simp only [h1, Option.getD_some]
  exact ⟨h2, h3⟩

theorem hgp_wf (hG : h.Good m mx) : (h.hgp m).WF := by
  refine ⟨List.nodup_range.filter _, List.nodup_range, fun e he v hv => ?_, fun e he => ?_, fun v hv => (hgp_inc hG (hg_mem.1 hv)).1, fun v hv e => ?_⟩
  · rw [hgp_pins hG] at hv
    split at hv
    · rename_i hh
      exact hg_mem.2 (hG.pinHas e hh.1 hh.2 v hv)
    · cases hv
  · rw [hgp_pins hG]
    split
    · rename_i hh; exact hG.nodup e hh.1 hh.2
    · exact List.nodup_nil
  · rw [(hgp_inc hG (hg_mem.1 hv)).2 e, hgp_pins hG]
    show _ ↔ e ∈ List.range m ∧ _
    rw [List.mem_range]
    by_cases h1 : e < m ∧ h.een e = true
    · rw [if_pos h1]; tauto
    · rw [if_neg h1]
      simp only [List.not_mem_nil, and_false, iff_false]
      tauto

theorem hgp_fits (hG : h.Good m mx) : (h.hgp m).Fits m mx := by
  intro e he
  have he' : e < m := List.mem_range.1 he
  refine ⟨he', ?_⟩
  rw [hgp_pins hG]
  split
  · rename_i hh; exact hG.len e hh.1 hh.2
  · simp

theorem hg_wf (hG : h.Good m mx) : h.hg.WF := by
  have hw := hgp_wf hG
  have hE : ∀ e, e ∈ h.hg.edges ↔ e < m ∧ h.een e = true := fun e => by
    show e ∈ (List.range h.m).filter h.een ↔ _
    rw [List.mem_filter, List.mem_range, hG.mEq]
  have hsub : ∀ e, e ∈ h.hg.edges → e ∈ (h.hgp m).edges := fun e he => List.mem_range.2 ((hE e).1 he).1
  refine ⟨hw.nodes_nodup, List.nodup_range.filter _, fun e he => hw.pins_mem e (hsub e he), fun e he => hw.pins_nodup e (hsub e he), hw.inc_nodup, fun v hv e => ?_⟩
  have := (hgp_inc hG (hg_mem.1 hv)).2 e
  rw [hE]
  show e ∈ (h.hgp m).inc v ↔ _ ∧ v ∈ (h.hgp m).pins e
  rw [this, hgp_pins hG]
  by_cases h1 : e < m ∧ h.een e = true
  · rw [if_pos h1]; tauto
  · rw [if_neg h1]; tauto

theorem hg_fits (hG : h.Good m mx) : h.hg.Fits m mx := by
  intro e he
  have : e ∈ (List.range h.m).filter h.een := he
  rw [List.mem_filter, List.mem_range, hG.mEq] at this
  exact hgp_fits hG e (List.mem_range.2 this.1)

theorem hgp_pinsIn (hG : h.Good m mx) (Φ : Assign) {e : Nat} (he : e < m) (b : Nat) :
    (h.hgp m).pinsIn Φ e b = if h.een e = true then bcnt Φ (h.edgePins e) b else 0 := by
  unfold HG.pinsIn
  rw [hgp_pins hG]
  by_cases h2 : h.een e = true
  · rw [if_pos ⟨he, h2⟩, if_pos h2]; rfl
  · rw [if_neg (fun hh => h2 hh.2), if_neg h2]; rfl

theorem sum_filter_range (n : Nat) (p : Nat → Bool) (f : Nat → Int) : (((List.range n).filter p).map f).sum = ∑ v ∈ Finset.range n, if p v = true then f v else 0 := by
  induction n with
  | zero => rfl
  | succ n ih =>
    rw [List.range_succ, List.filter_append, List.map_append, List.sum_append, ih, Finset.sum_range_succ]
    congr 1
    by_cases hp : p n = true
    · simp [hp]
    · simp [hp]

theorem hgp_blockWeight (Φ : Assign) (b : Nat) : (h.hgp m).blockWeight Φ b = wtSum h Φ b := by
  unfold HG.blockWeight DH.hgp DH.hg
  simp only
  rw [List.filter_filter, sum_filter_range]
  unfold wtSum
  refine Finset.sum_congr rfl (fun v _ => ?_)
  by_cases h1 : h.en v = true <;> by_cases h2 : Φ v = some b <;> simp [h1, h2]

theorem sum_of_mem {l : List Nat} (hn : l.Nodup) (f : Nat → Int) (m : Nat) (hl : ∀ e ∈ l, e < m) :
    (l.map f).sum = ∑ e ∈ Finset.range m, if e ∈ l then f e else 0 := by
  rw [← Finset.sum_filter, show (Finset.range m).filter (fun e => e ∈ l) = l.toFinset from by
    ext e; simp only [Finset.mem_filter, Finset.mem_range, List.mem_toFinset]; exact ⟨fun h => h.2, fun h => ⟨hl e h, h⟩⟩]
  exact (List.sum_toFinset f hn).symm

theorem hgp_ben (hG : h.Good m mx) (o : Metrics.Obj) (Φ : Assign) {x : Nat} (hx : h.has x) (b : Nat) :
    CSt.multSum (h.hgp m) (benMult o) (fun _ => Φ) x b = benSum o m h Φ x b := by
  obtain ⟨h1, h2⟩ := hgp_inc hG hx
  unfold CSt.multSum
  rw [sum_of_mem h1 _ m (fun e he => ((h2 e).1 he).1)]
  unfold benSum
  refine Finset.sum_congr rfl (fun e he => ?_)
  have he' := Finset.mem_range.1 he
  rw [hgp_pinsIn hG Φ he', hgp_pins hG]
  by_cases h3 : h.een e = true
  · have h5 : e < m ∧ h.een e = true := ⟨he', h3⟩
    simp only [if_pos h3, if_pos h5]
    unfold netBen
    by_cases h4 : x ∈ h.edgePins e
    · rw [if_pos ((h2 e).2 ⟨he', h3, h4⟩), if_pos h4]; rfl
    · rw [if_neg (fun hh => h4 ((h2 e).1 hh).2.2), if_neg h4]
  · rw [if_neg (fun hh => h3 ((h2 e).1 hh).2.1), if_neg (c := h.een e = true) h3]

theorem hgp_pen (hG : h.Good m mx) (o : Metrics.Obj) (Φ : Assign) {x p : Nat} (hx : h.has x) (hp : Φ x = some p) :
    CSt.multSum (h.hgp m) (penMult o) (fun _ => Φ) x p = penSum o m h Φ x := by
  obtain ⟨h1, h2⟩ := hgp_inc hG hx
  unfold CSt.multSum
  rw [sum_of_mem h1 _ m (fun e he => ((h2 e).1 he).1)]
  unfold penSum
  refine Finset.sum_congr rfl (fun e he => ?_)
  have he' := Finset.mem_range.1 he
  rw [hgp_pinsIn hG Φ he', hgp_pins hG]
  by_cases h3 : h.een e = true
  · have h5 : e < m ∧ h.een e = true := ⟨he', h3⟩
    simp only [if_pos h3, if_pos h5]
    unfold netPen
    by_cases h4 : x ∈ h.edgePins e
    · rw [if_pos ((h2 e).2 ⟨he', h3, h4⟩), if_pos h4, hp]; rfl
    · rw [if_neg (fun hh => h4 ((h2 e).1 hh).2.2), if_neg h4]
  · rw [if_neg (fun hh => h3 ((h2 e).1 hh).2.1), if_neg (c := h.een e = true) h3]

end

section
variable {σ : Type} {C : ConInfo σ} {m k mx : Nat} {L : C.Lawful m k mx} {o : Metrics.Obj} {s : PHN σ}
open PHG CSt

theorem NInv.sim (hG : s.h.Good m mx) (hN : NInv L o s) : Sim L (s.h.hgp m) s.P s.P.part := by
  refine ⟨rfl, hN.rng, fun b hb => ?_, ?_⟩
  · rw [hgp_blockWeight]; exact hN.wt b hb
  · obtain ⟨T, h1, h2⟩ := hN.con
    exact ⟨T, h1, fun e he b hb => by rw [hgp_pinsIn hG _ (List.mem_range.1 he)]; exact h2 e (List.mem_range.1 he) b hb⟩

theorem NInv.simReal (hG : s.h.Good m mx) (hN : NInv L o s) : Sim L s.h.hg s.P s.P.part := by
  have hS := NInv.sim hG hN
  refine ⟨rfl, hN.rng, hS.wt, ?_⟩
  obtain ⟨T, h1, h2⟩ := hS.con
  refine ⟨T, h1, fun e he b hb => h2 e (List.mem_range.2 (hg_fits hG e he).1) b hb⟩

theorem NInv.entry (hG : s.h.Good m mx) (hN : NInv L o s) (hi : s.ini = true) {u : Nat} (hu : s.h.has u) : EntryExact (s.h.hgp m) k o s.cache s.P.part u :=
  ⟨fun b hb => (hN.ben hi u b hb).trans (hgp_ben hG o _ hu b).symm, fun p hp => (hN.pen hi u).trans (hgp_pen hG o _ hu hp).symm⟩

/-- everything absent -/
theorem DH.Good.absent {h : DH} (hG : h.Good m mx) (o : Metrics.Obj) (part : Assign) {x : Nat} (hx : ¬ h.has x) :
    (∀ b, benSum o m h part x b = 0) ∧ penSum o m h part x = 0 := by
  have : ∀ e, e < m → h.een e = true → x ∉ h.edgePins e := fun e he hen hxe => hx (hG.pinHas e he hen x hxe)
  constructor
  · intro b
    unfold benSum
    refine Finset.sum_eq_zero (fun e he => ?_)
    by_cases hen : h.een e = true
    · rw [if_pos hen]; unfold netBen; rw [if_neg (this e (Finset.mem_range.1 he) hen)]
    · rw [if_neg hen]
  · unfold penSum
    refine Finset.sum_eq_zero (fun e he => ?_)
    by_cases hen : h.een e = true
    · rw [if_pos hen]; unfold netPen; rw [if_neg (this e (Finset.mem_range.1 he) hen)]
    · rw [if_neg hen]

/-- entries of absent nodes are zero at all times -/
theorem NInv.zeros (hG : s.h.Good m mx) (hN : NInv L o s) {x : Nat} (hx : ¬ s.h.has x) : s.cache (penIdx k x) = 0 ∧ ∀ b, b < k → s.cache (benIdx k x b) = 0 := by
  cases hi : s.ini with
  | false => exact hN.zero hi x hx
  | true =>
    obtain ⟨h1, h2⟩ := hG.absent o s.P.part hx
    exact ⟨(hN.pen hi x).trans h2, fun b hb => (hN.ben hi x b hb).trans (h1 b)⟩

theorem NInv.reset (hG : s.h.Good m mx) (hN : NInv L o s) : NInv L o { s with ini := false } :=
  ⟨hN.con, hN.rng, hN.full, hN.wt, (by intro h; cases h), (by intro h; cases h), fun _ _ hx => NInv.zeros hG hN hx⟩

theorem NInv.init (hG : s.h.Good m mx) (hN : NInv L o s) {threads : List Nat} {tasks : List InitTask} (hn : threads.Nodup)
    (ht : ∀ t ∈ tasks, t.Legal s.h.hg threads) (hc : ∀ u ∈ s.h.hg.nodes, ∃ t ∈ tasks, t.node = u) :
    NInv L o { s with cache := (initCache C s.h.hg k o s.P threads tasks s.cache).1, ini := true } := by
  have hall : ∀ v ∈ (s.h.hgp m).nodes, s.P.part v ≠ none := fun v hv hh => by
    obtain ⟨b, hb⟩ := hN.full v (hg_mem.1 hv)
    rw [hh] at hb; cases hb
  have hex := cacheExact_of (hgp_wf hG) (hgp_fits hG) (NInv.sim hG hN) hall o hn (tasks := tasks) (fun t h => by
    have := ht t h
    cases t <;> exact this) hc s.cache
  have heq : initCache C (s.h.hgp m) k o s.P threads tasks s.cache = initCache C s.h.hg k o s.P threads tasks s.cache := initCache_edges _ _ _ _ _
  rw [heq] at hex
  have hkeep : ∀ x, ¬ s.h.has x → ∀ i, inEntry k x i → (initCache C s.h.hg k o s.P threads tasks s.cache).1 i = s.cache i := by
    intro x hx i hi
    refine initCache_keep (fun t h hi' => ?_) _
    have h1 := inEntry_uniq hi hi'
    have h2 : t.node ∈ s.h.hg.nodes := by
      have := ht t h
      cases t with
      | low a u => exact this
      | high u ch => exact this.1
    exact hx (h1 ▸ hg_mem.1 h2)
  refine ⟨hN.con, hN.rng, hN.full, hN.wt, fun _ x b hb => ?_, fun _ x => ?_, (by intro h; cases h)⟩
  · by_cases hx : s.h.has x
    · exact ((hex x (hg_mem.2 hx)).1 b hb).trans (hgp_ben hG o _ hx b)
    · exact (hkeep x hx _ (inEntry_ben hb)).trans (((NInv.zeros hG hN hx).2 b hb).trans ((hG.absent o s.P.part hx).1 b).symm)
  · by_cases hx : s.h.has x
    · obtain ⟨p, hp⟩ := hN.full x hx
      exact ((hex x (hg_mem.2 hx)).2 p hp).trans (hgp_pen hG o _ hx hp)
    · exact (hkeep x hx _ (inEntry_pen k x)).trans ((NInv.zeros hG hN hx).1.trans ((hG.absent o s.P.part hx).2).symm)

theorem NInv.moves (hG : s.h.Good m mx) (hN : NInv L o s) {as : List Act} {R : List Nat} {c1 c2 : CSt σ}
    (h1 : CSt.exec C s.h.hg k o (CSt.begin s.P s.cache) as = some c1) (hq : c1.quiescent s.h.hg = true)
    (h2 : CSt.exec C s.h.hg k o c1 (R.map Act.recompute) = some c2) (hR : ∀ v ∈ s.h.hg.nodes, c1.moved v = true → v ∈ R) :
    NInv L o ⟨s.h, ⟨c2.part, c2.wt, c2.con⟩, if s.ini then c2.cache else s.cache, s.ini⟩ := by
  have hw := hgp_wf hG
  have hf := hgp_fits hG
  have hS := NInv.sim hG hN
  have hall : ∀ v ∈ (s.h.hgp m).nodes, s.P.part v ≠ none := fun v hv hh => by
    obtain ⟨b, hb⟩ := hN.full v (hg_mem.1 hv)
    rw [hh] at hb; cases hb
  have hq1 : c1.quiescent (s.h.hgp m) = true := hq
  have h2' : CSt.exec C (s.h.hgp m) k o c1 (R.map Act.recompute) = some c2 := by
    unfold DH.hgp; rw [exec_edges]; exact h2
  obtain ⟨hq2, r1, r2, r3⟩ := recompute_all R hq1 h2'
  have hex : CSt.exec C (s.h.hgp m) k o (CSt.begin s.P s.cache) (as ++ R.map Act.recompute) = some c2 := by
    rw [exec_append]
    have : CSt.exec C (s.h.hgp m) k o (CSt.begin s.P s.cache) as = some c1 := by unfold DH.hgp; rw [exec_edges]; exact h1
    rw [this]; exact h2'
  obtain ⟨i1, i2⟩ := conc_inv hw hf hS hall hex
  have hS2 := quiescent_sim hw i1 i2 hq2
  have hmv : ∀ v ∈ (s.h.hgp m).nodes, c2.moved v = false := fun v hv => by
    cases hm : c1.moved v with
    | false => exact r2 v hm
    | true => exact r1 v (hR v hv hm)
  have hasg : ∀ v, s.h.has v → ∃ b, c2.part v = some b := fun v hv => by
    obtain ⟨b, _, hb⟩ := i1.assigned v (hg_mem.2 hv)
    exact ⟨b, hb⟩
  have hkeep : ∀ x, ¬ s.h.has x → ∀ i, inEntry k x i → c2.cache i = s.cache i := by
    intro x hx i hi
    refine exec_keep hw hf hS hall hex (fun v hv hi' => ?_)
    exact hx (inEntry_uniq hi hi' ▸ hg_mem.1 hv)
  have hent : s.ini = true → ∀ u, s.h.has u → EntryExact (s.h.hgp m) k o c2.cache c2.part u := by
    intro hi u hu
    obtain ⟨_, hC⟩ := conc_cacheInv hw hf hS hall (fun u hu => NInv.entry hG hN hi (hg_mem.1 hu)) hex
    have hq' := (quiescent_iff c2).1 hq2
    have hun := hg_mem.2 hu
    constructor
    · intro b hb
      have := hC.ben u hun b hb
      rw [pendSum_quiescent hq', add_zero, multSum_congr hw hun (view_quiescent hq' hw)] at this
      exact this
    · intro p hp
      have := hC.pen u hun (hmv u hun) p hp
      rw [pendSum_quiescent hq', add_zero, multSum_congr hw hun (view_quiescent hq' hw)] at this
      exact this
  refine ⟨?_, hS2.range, hasg, fun b hb => ?_, fun hi x b hb => ?_, fun hi x => ?_, fun hi x hx => ?_⟩
  · obtain ⟨T, t1, t2⟩ := hS2.con
    exact ⟨T, t1, fun e he b hb => by rw [t2 e (List.mem_range.2 he) b hb, hgp_pinsIn hG _ he]⟩
  · rw [← hgp_blockWeight (m := m)]; exact hS2.wt b hb
  · have hi' : s.ini = true := hi
    simp only [hi', if_true]
    by_cases hx : s.h.has x
    · exact ((hent hi' x hx).1 b hb).trans (hgp_ben hG o _ hx b)
    · exact (hkeep x hx _ (inEntry_ben hb)).trans (((NInv.zeros hG hN hx).2 b hb).trans ((hG.absent o c2.part hx).1 b).symm)
  · have hi' : s.ini = true := hi
    simp only [hi', if_true]
    by_cases hx : s.h.has x
    · obtain ⟨p, hp⟩ := hasg x hx
      exact ((hent hi' x hx).2 p hp).trans (hgp_pen hG o _ hx hp)
    · exact (hkeep x hx _ (inEntry_pen k x)).trans ((NInv.zeros hG hN hx).1.trans ((hG.absent o c2.part hx).2).symm)
  · have hi' : s.ini = false := hi
    simp only [hi', Bool.false_eq_true, if_false]
    exact hN.zero hi' x hx

/-- the gain the cache returns is the change of the objective function -/
theorem NInv.gain (hG : s.h.Good m mx) (hN : NInv L o s) (hi : s.ini = true) {v src dst : Nat} (hv : s.h.has v) (hp : s.P.part v = some src) (hne : src ≠ dst) (hd : dst < k) :
    cacheGain k s.cache v dst = s.h.hg.objective s.P.part o - s.h.hg.objective (s.P.part.put v dst) o := by
  have hS := NInv.simReal hG hN
  have hall : ∀ v ∈ s.h.hg.nodes, s.P.part v ≠ none := fun v hv hh => by
    obtain ⟨b, hb⟩ := hN.full v (hg_mem.1 hv)
    rw [hh] at hb; cases hb
  have hC : CSt.CacheInv s.h.hg k o (CSt.begin s.P s.cache) := cacheInv_begin hS (fun u hu => by
    have := NInv.entry hG hN hi (hg_mem.1 hu)
    exact this)
  have := cacheGain_exact (hg_wf hG) (begin_inv hS hall s.cache).1 hC (by
    rw [quiescent_iff]; intro u _; rfl) (hg_mem.2 hv) rfl hp hne hd
  exact this

end
end Dyn
end Verif
