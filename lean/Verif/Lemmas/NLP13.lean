import Verif.Lemmas.NLP12
/-!
# Steps of the n-level uncoarsening with a partition
-/
namespace Verif
namespace Dyn
open SMap (wr)
open PHG CSt

section
variable {s0 : DH} {mxw : Int} {ref : Nat → Nat → Bool} {s1 : St} {mxb : Nat} {L Lr : List (List (List (Nat × Nat)))} {h0 h : DH}
variable {σ : Type} {C : ConInfo σ} {k mx : Nat} {W : C.Lawful s0.m k mx} {o : Metrics.Obj}

/-- everything that holds between two steps -/
structure NLInv (W : C.Lawful s0.m k mx) (o : Metrics.Obj) (par : Nat → Nat) (L : List (List (List (Nat × Nat)))) (h0 : DH)
    (x : List (List (List (Nat × Nat))) × PHN σ) : Prop where
  unc : UncSteps (L, h0) (x.1, x.2.h)
  inv : NInv W o x.2
  fix : NFix s0 par s0.m mx x.2.h

theorem Ready.past (hR : Ready s0 mxw ref s1 mxb L h0) (h' : UncSteps (L, h0) (Lr, h)) :
    PastOK s0 s1.h.par s1.h.ver (Lr.length - 1) h.removed h.een ∧ PastTwo s0 s1.h.par s1.h.ver (Lr.length - 1) h.removed := by
  have hE := hR.prepared.same
  have hp := past_reach hR.clean hR.reach
  have h2 := two_reach hR.clean hR.reach
  constructor
  · exact past_unc h' (par := s1.h.par) (ver := s1.h.ver) (s0 := s0) (by
      show PastOK s0 s1.h.par s1.h.ver (L.length - 1) h0.removed h0.een
      rw [hE, hR.versions]; exact hp)
  · exact two_unc h' (par := s1.h.par) (ver := s1.h.ver) (s0 := s0) (by
      show PastTwo s0 s1.h.par s1.h.ver (L.length - 1) h0.removed
      rw [hE, hR.versions]; exact h2)

/-- restoring nets: everything needed for the partition -/
theorem Ready.nets (hR : Ready s0 mxw ref s1 mxb L h0) (hz : ∀ e, s0.used e → 0 < s0.size e) {L1 : List (List (List (Nat × Nat)))} {B : List (List (Nat × Nat))}
    (h' : UncSteps (L, h0) (L1 ++ [B] ++ [[]], h)) {h1 : DH} {R : RemovedNets} {rest : List RemovedNets} {ord : List Nat} (hr : h.removed = R :: rest)
    (ho : ord.Perm ((List.range h.n).filter h.en)) (hs : { h with removed := rest }.restoreNetsStep R ord = some h1) :
    NetsOK s0.m h h1 R ∧ (∀ e, e < s0.m → h1.een e = true → ∀ x ∈ h1.edgePins e, h.has x) ∧ (∀ e, e < s0.m → h1.een e = true → s0.used e) := by
  have h'' : UncSteps (L, h0) (L1 ++ [B], h1) := .tail _ _ _ h' (.nets L1 B h h1 R rest ord hr ho hs)
  have hp := hR.past h'
  obtain ⟨G, hS, hT, L2, B2, U, he, hI⟩ := hR.unc h'
  obtain ⟨rfl, rfl⟩ := snoc_inj he
  obtain ⟨L3, B3, U', he', hI'⟩ := UncInv.step hR.clean hS hT (x := (L1 ++ [B] ++ [[]], h)) ⟨_, _, U, rfl, hI⟩ (.nets L1 B h h1 R rest ord hr ho hs)
  obtain ⟨rfl, rfl⟩ := snoc_inj he'
  have hlen : (L1 ++ [B] ++ [[]]).length - 1 = L1.length + 1 := by simp
  rw [hlen] at hp
  have hN := UncInv.netsOK hR.clean hS hT hr hs hI' (fun v hv hk => UncInv.netsFull hT hI hI' hv hk) hp.1 hp.2 hz
  refine ⟨hN, fun e he hen x hx => ?_, fun e he hen => hR.netUsed h'' he hen⟩
  have := hI'.inv.pinHas hR.clean hS he hen hx
  unfold DH.has at this ⊢
  rw [← hN.nodes.1, ← hN.nodes.2.1]; exact this

theorem NLInv.step (hR : Ready s0 mxw ref s1 mxb L h0) (hz : ∀ e, s0.used e → 0 < s0.size e) {x y : List (List (List (Nat × Nat))) × PHN σ}
    (hI : NLInv W o s1.h.par L h0 x) (h : PUncStep C k o x y) : NLInv W o s1.h.par L h0 y := by
  have hG := hR.good hI.unc hI.fix
  cases h with
  | batch Lx B b s s' hu =>
    obtain ⟨G, hS, hT, L2, B2, U, he, hU⟩ := hR.unc hI.unc
    obtain ⟨rfl, rfl⟩ := snoc_inj he
    obtain ⟨hb, hver, hB⟩ := hU.batchInfo hT
    obtain ⟨a1, a2, a3, _⟩ := NInv.batch hR.clean hS hb hver hB hI.inv hI.fix hu
    exact ⟨.tail _ _ _ hI.unc (.batch _ _ _ _ _ a1), a2, a3⟩
  | nets L1 B s h1 R rest ord rord con cache hr ho hs hro hc =>
    obtain ⟨hN, hp, hu⟩ := hR.nets hz hI.unc hr ho hs
    obtain ⟨a1, a2⟩ := (NInv.nets hI.inv hI.fix hN hro hp hu).2 hc
    exact ⟨.tail _ _ _ hI.unc (.nets _ _ _ _ R rest ord hr ho hs), a1, a2⟩
  | moves Lx s as R c1 c2 h1 hq h2 hRR => exact ⟨hI.unc, NInv.moves hG hI.inv h1 hq h2 hRR, hI.fix⟩
  | init Lx s threads tasks hn ht hc =>
    refine ⟨hI.unc, NInv.init hG hI.inv hn (fun t h => ?_) hc, hI.fix⟩
    have := ht t h
    cases t <;> exact this
  | reset Lx s => exact ⟨hI.unc, NInv.reset hG hI.inv, hI.fix⟩

theorem NLInv.steps (hR : Ready s0 mxw ref s1 mxb L h0) (hz : ∀ e, s0.used e → 0 < s0.size e) {x y : List (List (List (Nat × Nat))) × PHN σ}
    (hI : NLInv W o s1.h.par L h0 x) (h : PUncSteps C k o x y) : NLInv W o s1.h.par L h0 y := by
  induction h with
  | refl => exact hI
  | tail y z _ h' ih => exact ih.step hR hz h'

/-- the partition in which the uncoarsening starts -/
theorem Ready.startN (hR : Ready s0 mxw ref s1 mxb L h0) (hz : ∀ e, s0.used e → s0.size e ≤ mx) {con : σ} {T0 : Table} (hcon : W.R con T0)
    {Φ : Nat → Nat} (hΦ : ∀ v ∈ h0.hg.nodes, Φ v < k) {norder : List Nat} (hno : norder.Perm h0.hg.nodes) {order : Nat → List (List Nat)}
    (ho : ∀ b, b < k → (order b).flatten.Perm h0.hg.nodes) {eorder : List Nat} (heo : eorder.Perm h0.hg.edges) :
    NLInv W o s1.h.par L h0 (L, PHN.start C k con h0 Φ norder order eorder) ∧ (PHN.start C k con h0 Φ norder order eorder).P.part = assignAll h0.hg.nodes Φ := by
  have hF : NFix s0 s1.h.par s0.m mx h0 := by
    refine ⟨rfl, by rw [hR.prepared.same], fun e he => ?_⟩
    rw [hR.prepared.slots, hR.reach.slots]
    have h1 := hR.clean.size e he
    have h2 := hz e he
    show (s0.pins e).length ≤ mx
    omega
  have hU : UncSteps (L, h0) (L, h0) := .refl _
  have hG := hR.good hU hF
  have hS := build_spec (L := W) (hg_wf hG) (hg_fits hG) (P := PHG.init con) hcon hΦ hno ho heo
  have hpart := hS.part
  have hext : ∃ T, W.R (PHG.build C h0.hg k (PHG.init con) Φ norder order eorder).con T ∧ (∀ e, e ∈ h0.hg.edges → ∀ b, b < k → T e b = h0.hg.pinsIn (assignAll h0.hg.nodes Φ) e b) ∧
      ∀ e, e ∉ h0.hg.edges → ∀ b, T e b = 0 := by
    have hR0 : W.R (C.reset con) (fun _ _ => 0) := W.reset hcon
    obtain ⟨T', hR', q1, q2⟩ := initPinCounts_spec (H := h0.hg) (Φ := assignAll h0.hg.nodes Φ) W eorder
      (C.reset con) (fun _ _ => 0) (heo.nodup_iff.2 (hg_wf hG).edges_nodup)
      (fun e he => hg_fits hG e (heo.mem_iff.1 he)) hR0 (fun _ _ _ _ => rfl)
    refine ⟨T', ?_, fun e he b hb => q1 e (heo.mem_iff.2 he) b hb, fun e he b => q2 e (fun hh => he (heo.mem_iff.1 hh)) b⟩
    have : (PHG.build C h0.hg k (PHG.init con) Φ norder order eorder).con = eorder.foldl (initEdge C h0.hg k (PHG.build C h0.hg k (PHG.init con) Φ norder order eorder).part) (C.reset con) := by
      have hcn : ∀ (l : List Nat) (Q : PHG σ), (l.foldl (fun P u => setOnlyNodePart P u (Φ u)) Q).con = Q.con := by
        intro l
        induction l with
        | nil => intro Q; rfl
        | cons a l ih => intro Q; rw [List.foldl_cons, ih]; rfl
      unfold PHG.build initializePartition initPinCounts
      simp only [hcn]
      rfl
    rw [this, hpart]
    exact hR'
  refine ⟨⟨hU, ⟨?_, ?_, ?_, ?_, ?_, ?_, ?_⟩, hF⟩, hpart⟩
  · obtain ⟨T, t1, t2, t3⟩ := hext
    refine ⟨T, t1, fun e he b hb => ?_⟩
    show _ = if h0.een e = true then bcnt (PHG.build C h0.hg k (PHG.init con) Φ norder order eorder).part (h0.edgePins e) b else 0
    rw [hpart]
    have hmem : e ∈ h0.hg.edges ↔ h0.een e = true := by
      show e ∈ (List.range h0.m).filter h0.een ↔ _
      rw [List.mem_filter, List.mem_range, hG.mEq]
      exact ⟨fun h => h.2, fun h => ⟨he, h⟩⟩
    by_cases hen : h0.een e = true
    · rw [t2 e (hmem.2 hen) b hb, if_pos hen]
      have := hgp_pinsIn hG (assignAll h0.hg.nodes Φ) he b
      rw [if_pos hen] at this
      exact this
    · rw [t3 e (fun hh => hen (hmem.1 hh)) b, if_neg hen]
  · show ∀ v b, (PHG.build C h0.hg k (PHG.init con) Φ norder order eorder).part v = some b → b < k
    rw [hpart]; exact hS.range
  · intro v hv
    show ∃ b, (PHG.build C h0.hg k (PHG.init con) Φ norder order eorder).part v = some b
    rw [hpart]
    have : v ∈ h0.hg.nodes := hg_mem.2 hv
    exact ⟨Φ v, by unfold assignAll; rw [if_pos this]⟩
  · intro b hb
    show (PHG.build C h0.hg k (PHG.init con) Φ norder order eorder).wt b = wtSum h0 (PHG.build C h0.hg k (PHG.init con) Φ norder order eorder).part b
    rw [hS.wt b hb, hpart]
    exact hgp_blockWeight (m := 0) _ b
  · intro hi; cases hi
  · intro hi; cases hi
  · intro _ x _; exact ⟨rfl, fun _ _ => rfl⟩

theorem iter_sub {p p' : Nat → Nat} (h : ∀ w, p' w ≠ w → p w = p' w) : ∀ (i v : Nat), ∃ j, p^[j] v = p'^[i] v
  | 0, v => ⟨0, rfl⟩
  | i + 1, v => by
    rw [Function.iterate_succ_apply]
    by_cases hv : p' v = v
    · rw [hv]; exact iter_sub h i v
    · obtain ⟨j, hj⟩ := iter_sub h i (p' v)
      refine ⟨j + 1, ?_⟩
      rw [Function.iterate_succ_apply, h v hv]; exact hj

theorem UncInv.rootBatch (hc : Clean s0) {par ver bi : Nat → Nat} {G : Gh} (hS : Stat s0 par ver bi G) (hT : SchedOK par ver bi L) {L1 : List (List (List (Nat × Nat)))}
    {B : List (List (Nat × Nat))} {b : List (Nat × Nat)} {h h' : DH} {U U' : UG} (hI : UncInv s0 par ver bi G L L1 (B ++ [b]) h U) (hI' : UncInv s0 par ver bi G L L1 B h' U')
    (v : Nat) : (rootOf (mementoPar (L1 ++ [B ++ [b]])) v, rootOf (mementoPar (L1 ++ [B])) v) ∈ b ∨
      (rootOf (mementoPar (L1 ++ [B])) v = rootOf (mementoPar (L1 ++ [B ++ [b]])) v ∧ rootOf (mementoPar (L1 ++ [B])) v ∉ b.map Prod.snd) := by
  obtain ⟨hb, hver, hB⟩ := hI.batchInfo hT
  have hB' := hI'.inv
  rw [hI.memento hT, hI'.memento hT]
  obtain ⟨i, hi⟩ := hB'.rest_acyclic hS v
  have hr := rootOf_eq (v := v) (i := i) hi rfl
  rw [hr]
  have hsub : ∀ w, restPar par U'.mg w ≠ w → restPar par U.mg w = restPar par U'.mg w := by
    intro w hw
    have h1 := (hB'.mg_rest w).2 hw
    have h2 := (hB'.mg_iff w).1 h1
    have h3 : U.mg w = true := (hB.mg_iff w).2 ⟨h2.1, by omega⟩
    rw [restPar_mg h1, restPar_mg h3]
  obtain ⟨j, hj⟩ := iter_sub hsub i v
  generalize hw : (restPar par U'.mg)^[i] v = w at *
  have hmg' : U'.mg w = false := by
    cases hm : U'.mg w with
    | false => rfl
    | true => exact absurd hi ((hB'.mg_rest w).1 hm)
  cases hm : U.mg w with
  | false =>
    right
    have hroot : restPar par U.mg w = w := restPar_root hm
    refine ⟨(rootOf_eq hroot hj).symm, fun hmem => ?_⟩
    obtain ⟨⟨u, w'⟩, hq, hq'⟩ := List.mem_map.1 hmem
    have hq2 : w' = w := hq'
    subst hq2
    obtain ⟨q1, q2, q3⟩ := (hb.mem _ _).1 hq
    have := (hB.mg_iff w').2 ⟨q1, by omega⟩
    rw [hm] at this; cases this
  | true =>
    left
    obtain ⟨g1, g2⟩ := (hB.mg_iff w).1 hm
    have g3 : ¬ bi w < off L L1.length + B.length := fun hlt => by
      have := (hB'.mg_iff w).2 ⟨g1, hlt⟩
      rw [hmg'] at this; cases this
    have hmem : (par w, w) ∈ b := (hb.mem _ _).2 ⟨g1, rfl, by omega⟩
    have hpu := hB.batchNodes hS hb hmem
    have hpn : par w < s0.n := by rw [← hB.core.nEq]; exact hpu.1.1
    have hroot := ((hB.en hS (par w) hpn).1 hpu.1.2).2
    have : rootOf (restPar par U.mg) v = par w := rootOf_eq (i := j + 1) hroot (by
      rw [Function.iterate_succ_apply', hj, restPar_mg hm])
    rw [this]; exact hmem

/-- blocks after a batch: those of the representatives -/
theorem NLInv.batchBlocks (hR : Ready s0 mxw ref s1 mxb L h0) {L1 : List (List (List (Nat × Nat)))} {B : List (List (Nat × Nat))} {b : List (Nat × Nat)} {s s' : PHN σ}
    (hI : NLInv W o s1.h.par L h0 (L1 ++ [B ++ [b]], s)) (hu : PUncontract C k o b s s') :
    (∀ u v, (u, v) ∈ b → s'.P.part v = s.P.part u) ∧ (∀ x, x ∉ b.map Prod.snd → s'.P.part x = s.P.part x) ∧
    (∀ v, s0.live v → s'.P.part (rootOf (mementoPar (L1 ++ [B])) v) = s.P.part (rootOf (mementoPar (L1 ++ [B ++ [b]])) v)) := by
  obtain ⟨G, hS, hT, L2, B2, U, he, hU⟩ := hR.unc hI.unc
  obtain ⟨rfl, rfl⟩ := snoc_inj he
  obtain ⟨hb, hver, hB⟩ := hU.batchInfo hT
  obtain ⟨a1, a2, a3, _, a5, a6, _⟩ := NInv.batch hR.clean hS hb hver hB hI.inv hI.fix hu
  obtain ⟨U', hU'⟩ := hU.batch hR.clean hS hT a1
  refine ⟨a5, a6, fun v hv => ?_⟩
  rcases UncInv.rootBatch hR.clean hS hT hU hU' v with h1 | ⟨h1, h2⟩
  · exact a5 _ _ h1
  · rw [a6 _ h2, h1]

theorem memento_nets (L1 : List (List (List (Nat × Nat)))) (B : List (List (Nat × Nat))) : mementoPar (L1 ++ [B] ++ [[]]) = mementoPar (L1 ++ [B]) := by
  funext v
  unfold mementoPar
  simp

/-- a batch can always be uncontracted -/
theorem NLInv.batchRuns (hR : Ready s0 mxw ref s1 mxb L h0) {L1 : List (List (List (Nat × Nat)))} {B : List (List (Nat × Nat))} {b : List (Nat × Nat)} {s : PHN σ}
    (hI : NLInv W o s1.h.par L h0 (L1 ++ [B ++ [b]], s)) {ord : List (Nat × Nat)} (ho : ord.Perm b) :
    ∃ part, assignBatch ord s.P.part = some part ∧ ∀ t, PUSteps C k o s.ini b (s.begin part) t →
      (∃ t', PUSteps C k o s.ini b t t' ∧ (∀ j < b.length, t'.x.tk j = .done) ∧ ∀ j, t'.todo j = []) ∧
      ∀ f : Nat → PUSt σ, f 0 = t → ¬ ∀ i, PUStep C k o s.ini b (f i) (f (i + 1)) := by
  obtain ⟨G, hS, hT, L2, B2, U, he, hU⟩ := hR.unc hI.unc
  obtain ⟨rfl, rfl⟩ := snoc_inj he
  obtain ⟨hb, hver, hB⟩ := hU.batchInfo hT
  obtain ⟨part, ha, hp1, hp2⟩ := assignBatch_ok hS hb hB hI.inv.full ho
  refine ⟨part, ha, fun t ht => ?_⟩
  obtain ⟨hF0, hP0⟩ := hI.inv.beginBatch hR.clean hS hb hB hI.fix hp1 hp2
  obtain ⟨h1, ⟨U', h2⟩, h3, h4⟩ := pu_steps hR.clean hS hb hver (UInv.start hb hB) hF0 hP0 ht
  have hadd : TodoAdd t := TodoAdd.steps (s := s.begin part) (fun _ => AddOnly.nil) ht
  exact ⟨batch_complete hR.clean hS hb hver h2 h3 h4 hadd, fun f hf0 hf => batch_ends hR.clean hS hb hver h2 h3 h4 f hf0 hf⟩

/-- nets can always be restored -/
theorem NLInv.netsRun (hR : Ready s0 mxw ref s1 mxb L h0) (hz : ∀ e, s0.used e → 0 < s0.size e) {L1 : List (List (List (Nat × Nat)))} {B : List (List (Nat × Nat))} {s : PHN σ}
    (hI : NLInv W o s1.h.par L h0 (L1 ++ [B] ++ [[]], s)) {ord : List Nat} (ho : ord.Perm ((List.range s.h.n).filter s.h.en)) :
    ∃ R rest h1, s.h.removed = R :: rest ∧ { s.h with removed := rest }.restoreNetsStep R ord = some h1 ∧
      ∀ rord, rord.Perm R → ∃ con cache, restoreNetsAll C k o s.ini h1 s.P.part rord (s.P.con, s.cache) = some (con, cache) := by
  obtain ⟨R, rest, h1, g1, g2⟩ := C27_restore_nets hR hI.unc ho
  refine ⟨R, rest, h1, g1, g2, fun rord hro => ?_⟩
  obtain ⟨hN, hp, hu⟩ := hR.nets hz hI.unc g1 ho g2
  exact (NInv.nets (con := s.P.con) (cache := s.cache) hI.inv hI.fix hN hro hp hu).1

end
end Dyn
end Verif
