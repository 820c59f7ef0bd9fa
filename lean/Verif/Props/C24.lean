import Verif.Lemmas.Rollback7
import Verif.Spec.Rollback
/-!
# C24: rollback of the FM algorithm

A round starts with partition `Φ`.  Localized searches perform concurrent moves (schedule `as`, see
C05/C06) that end in state `s1`; the tracker `T` contains the sequence of the moves that were not
reverted locally.  The rollback quantifies over: which thread recomputes which hyperedge and in which
order (`sched`), all executions of `tbb::parallel_scan` that respect its contract (`steps`), the
interleaving `as2` of the concurrent reverts and the order `R` of the final recomputation.
-/
namespace Verif
open CSt Metrics Rollback

section generic
variable {σ : Type} {C : ConInfo σ} {H : HG} {m k mx : Nat} {o : Obj}

/-- the state after the rollback: queries are exact, and so is the gain cache for all nodes of the
sequence and all nodes not moved before -/
structure ExactState (C : ConInfo σ) (H : HG) (k : Nat) (o : Obj) (moves : List FMMove) (s1 s : CSt σ) : Prop where
  quiet : s.quiescent H = true
  weight : ∀ b < k, s.wt b = H.blockWeight s.part b
  pins : ∀ e ∈ H.edges, ∀ b < k, C.pinCount s.con e b = H.pinsIn s.part e b
  gain : ∀ v ∈ H.nodes, (s1.moved v = false ∨ v ∈ moves.map FMMove.node) → ∀ src dst, s.part v = some src →
    src ≠ dst → dst < k → cacheGain k s.cache v dst = H.objective s.part o - H.objective (s.part.put v dst) o

theorem exactState_of {L : C.Lawful m k mx} (hw : H.WF) (hf : H.Fits m mx) {Φ : Assign} {ms : List FMMove}
    (_ : ValidMoves H k Φ ms) {s1 s2 s3 : CSt σ} (hI : Inv L H s2) (hW : WtInv H k s2) (hC : CacheInv H k o s2)
    (hq : s2.quiescent H = true) (hmv : ∀ v, s1.moved v = false → (∀ mv ∈ ms, mv.node ≠ v) → s2.moved v = false)
    {R : List Nat} (hR : R.Perm (ms.map FMMove.node)) (he : CSt.exec C H k o s2 (R.map Act.recompute) = some s3) :
    s3.part = s2.part ∧ ExactState C H k o ms s1 s3 := by
  obtain ⟨hI3, hW3⟩ := exec_inv hw hf hI hW he
  have hC3 := exec_cacheInv hw hf hI hC he
  obtain ⟨r1, r2, r3, r4⟩ := recompute_all R hq he
  have hS := quiescent_sim hw hI3 hW3 r1
  refine ⟨r4, r1, hS.wt, ?_, ?_⟩
  · intro e he b hb
    obtain ⟨T, hR, hT⟩ := hS.con
    rw [← hT e he b hb]; exact L.pinCount_eq hR (hf e he).1 hb
  · intro v hv hm src dst hp hne hd
    refine cacheGain_exact hw hI3 hC3 r1 hv ?_ hp hne hd
    by_cases hin : v ∈ ms.map FMMove.node
    · exact r2 v (hR.mem_iff.2 hin)
    · rcases hm with hm | hm
      · exact r3 v (hmv v hm (fun mv h1 h2 => hin (List.mem_map.2 ⟨mv, h1, h2⟩)))
      · exact absurd hm hin

theorem rollback_parallel_generic {L : C.Lawful m k mx} (hw : H.WF) (hf : H.Fits m mx) (hk : 0 < k)
    (hnw : ∀ u ∈ H.nodes, 0 ≤ H.nw u) (hew : ∀ e ∈ H.edges, 0 ≤ H.ew e) (htot : (H.nodes.map H.nw).sum < maxHNW)
    {s1 : CSt σ} (hI : Inv L H s1) (hW : WtInv H k s1) (hC : CacheInv H k o s1) (hq : s1.quiescent H = true)
    {Φ : Assign} (hall : ∀ v ∈ H.nodes, ∃ b, b < k ∧ Φ v = some b)
    {T : Tracker} (hT : T.OK) (hv : ValidMoves H k Φ T.order) (hp : s1.part = applyMoves Φ T.order)
    {W Wmax : Nat → Int} (hWΦ : ∀ b < k, W b = H.blockWeight Φ b)
    {round : Nat} {last : Nat → Nat} (hl : ∀ e, last e < round)
    {sched : List (Nat × Nat)} (hs : RecalcSched H T round last sched)
    {g : BGhost} {steps : List BStep} (hst : BGhost.Steps T.order.length BGhost.init steps g)
    (hc : g.Complete T.order.length) {threads : List Nat} (ht : ∀ c l r t, BStep.fin c l r t ∈ steps → t ∈ threads)
    {as2 : List Act} {s2 s3 : CSt σ} {R : List Nat} :
    let r := bestPrefix H k o (C.pinCount s1.con) s1.part T W Wmax sched steps threads
    (startsOf as2).Perm (reverts T.order r.best) → CSt.exec C H k o s1 as2 = some s2 → s2.quiescent H = true →
    R.Perm (T.order.map FMMove.node) → CSt.exec C H k o s2 (R.map Act.recompute) = some s3 →
    BestPrefixOf H k o Φ T.order Wmax r.best r.gain s3.part ∧
    (∀ i ≤ T.order.length, H.Balanced k Wmax (applyMoves Φ (T.order.take i)) →
      H.objective s3.part o = H.objective (applyMoves Φ (T.order.take i)) o →
      maxWeight k (H.blockWeight s3.part) ≤ maxWeight k (H.blockWeight (applyMoves Φ (T.order.take i)))) ∧
    ExactState C H k o T.order s1 s3 := by
  intro r hst2 he2 hq2 hR he3
  have hS := quiescent_sim hw hI hW hq
  have hpc : ∀ e ∈ H.edges, ∀ b, b < k → C.pinCount s1.con e b = H.pinsIn s1.part e b := by
    intro e he b hb
    obtain ⟨T, hR, hT⟩ := hS.con
    rw [← hT e he b hb]; exact L.pinCount_eq hR (hf e he).1 hb
  obtain ⟨b1, b2, b3, b4⟩ := bestPrefix_spec (o := o) (Wmax := Wmax) hw hk hnw hew htot hT hv hall hp hpc hWΦ hl hs hst hc ht
  have hpart := revert_result (o := o) hw hf hnw (by omega) hv hp hst2 hI hW hq he2 hq2
  obtain ⟨i1, i2⟩ := exec_inv hw hf hI hW he2
  have i3 := exec_cacheInv hw hf hI hC he2
  obtain ⟨e1, e2⟩ := exactState_of (s1 := s1) hw hf hv i1 i2 i3 hq2 (by
    intro v h1 h2
    refine moved_exec ?_ h1 he2
    intro hh
    obtain ⟨a, ha, h3⟩ := List.mem_filterMap.1 hh
    cases a with
    | start u d l =>
      simp only [Option.some.injEq] at h3
      subst h3
      obtain ⟨mv, h4, h5, _⟩ := ((reverts_starts hst2).2 u d l).1 ha
      exact h2 mv (List.mem_of_mem_drop h4) h5
    | tick u => simp at h3
    | recompute u => simp at h3) hR he3
  have hfin : s3.part = applyMoves Φ (T.order.take r.best) := e1.trans hpart
  refine ⟨⟨hfin, ?_, b2, ?_, ?_, ?_⟩, ?_, e2⟩
  · rw [hfin]; exact b1
  · rw [hfin]; exact b3
  · rw [hfin]; have := (b4 0 (by omega) (Or.inl rfl)).1; simpa [applyMoves] using this
  · intro i hi hb; rw [hfin]; exact (b4 i hi (Or.inr hb)).1
  · intro i hi hb; rw [hfin]; exact (b4 i hi (Or.inr hb)).2

theorem rollback_sequential_generic {L : C.Lawful m k mx} (hw : H.WF) (hf : H.Fits m mx)
    (hnw : ∀ u ∈ H.nodes, 0 ≤ H.nw u) (htot : (H.nodes.map H.nw).sum ≤ maxHNW)
    {s1 : CSt σ} (hI : Inv L H s1) (hW : WtInv H k s1) (hC : CacheInv H k o s1) (hq : s1.quiescent H = true)
    {Φ : Assign} {ms : List FMMove} (hv : ValidMoves H k Φ ms) (hp : s1.part = applyMoves Φ ms) {Wmax : Nat → Int}
    {as0 : List Act} {s0 : CSt σ} (hst0 : (startsOf as0).Perm (reverts ms 0)) (he0 : CSt.exec C H k o s1 as0 = some s0)
    (hq0 : s0.quiescent H = true)
    {segs : Nat → List Act} (hseg : ∀ i mv, ms[i]? = some mv → mv.src ≠ none →
      startsOf (segs i) = [Act.start mv.node mv.dst maxHNW])
    {x : SeqSt σ} (hx : seqForward C H k o Wmax ms segs s0 ms.length = some x)
    {as2 : List Act} {s2 s3 : CSt σ} {R : List Nat} (hst2 : (startsOf as2).Perm (reverts ms x.best))
    (he2 : CSt.exec C H k o x.st as2 = some s2) (hq2 : s2.quiescent H = true)
    (hR : R.Perm (ms.map FMMove.node)) (he3 : CSt.exec C H k o s2 (R.map Act.recompute) = some s3) :
    BestPrefixOf H k o Φ ms Wmax x.best x.bestGain s3.part ∧ ExactState C H k o ms s1 s3 := by
  have hnot : ∀ {as : List Act} {b : Nat}, (startsOf as).Perm (reverts ms b) → ∀ v, (∀ mv ∈ ms, mv.node ≠ v) →
      v ∉ startNodes as := by
    intro as b h v hv' hh
    obtain ⟨a, ha, h3⟩ := List.mem_filterMap.1 hh
    cases a with
    | start u d l =>
      simp only [Option.some.injEq] at h3
      subst h3
      obtain ⟨mv, h4, h5, _⟩ := ((reverts_starts h).2 u d l).1 ha
      exact hv' mv (List.mem_of_mem_drop h4) h5
    | tick u => simp at h3
    | recompute u => simp at h3
  have hp0 := revert_result (o := o) hw hf hnw htot hv hp hst0 hI hW hq he0 hq0
  rw [List.take_zero] at hp0
  obtain ⟨i1, i2⟩ := exec_inv hw hf hI hW he0
  have i3 := exec_cacheInv hw hf hI hC he0
  have hX := seqForward_inv hw hf hnw htot hv i1 i2 i3 hq0 hp0 hseg ms.length (Nat.le_refl _) hx
  have hpx : x.st.part = applyMoves Φ ms := by
    rw [hX.part]; unfold prefixOf; rw [List.take_length]
  have hp2 := revert_result (o := o) hw hf hnw htot hv hpx hst2 hX.inv hX.wt hX.quiet he2 hq2
  obtain ⟨j1, j2⟩ := exec_inv hw hf hX.inv hX.wt he2
  have j3 := exec_cacheInv hw hf hX.inv hX.cache he2
  obtain ⟨e1, e2⟩ := exactState_of (s1 := s1) hw hf hv j1 j2 j3 hq2 (by
    intro v h1 h2
    refine moved_exec (hnot hst2 v h2) ?_ he2
    refine seqForward_moved hseg h2 ?_ _ hx
    exact moved_exec (hnot hst0 v h2) h1 he0) hR he3
  have hfin : s3.part = applyMoves Φ (ms.take x.best) := e1.trans hp2
  refine ⟨⟨hfin, ?_, hX.nonneg, ?_, ?_, ?_⟩, e2⟩
  · rw [hfin]; exact hX.bestGain
  · rw [hfin]; exact hX.balanced
  · rw [hfin]; have := hX.best 0 (by omega) (Or.inl rfl); simpa [prefixOf, applyMoves] using this
  · intro i hi hb; rw [hfin]; exact hX.best i hi (Or.inr hb)

end generic

/-! ## Move sequences -/

/-- **C24, contract.** If the entries of the sequence describe the net effect of the searches (every
node with a valid entry was in its source block at the start of the round and is in its target block
now, every other node is where it was, and no node has two valid entries), the sequence is legal and
leads from the start partition to the current one.  The order of the entries is irrelevant. -/
theorem C24_net_effect (H : HG) (k : Nat) (Φ Ψ : Assign) (ms : List FMMove)
    (hnd : ((ms.filter (fun mv => mv.src.isSome)).map FMMove.node).Nodup)
    (hmv : ∀ mv ∈ ms, ∀ b, mv.src = some b → mv.node ∈ H.nodes ∧ b < k ∧ mv.dst < k ∧ b ≠ mv.dst ∧
      Φ mv.node = some b ∧ Ψ mv.node = some mv.dst)
    (hrest : ∀ v, (∀ mv ∈ ms, mv.src ≠ none → mv.node ≠ v) → Ψ v = Φ v) :
    ValidMoves H k Φ ms ∧ Ψ = applyMoves Φ ms := by
  have hpw : ms.Pairwise (fun m m' => m.src.isSome = true → m'.src.isSome = true → m.node ≠ m'.node) := by
    unfold List.Nodup at hnd
    rw [List.pairwise_map, List.pairwise_filter] at hnd
    exact hnd
  have hvm : ValidMoves H k Φ ms := by
    refine ⟨?_, fun mv h b hb => ?_⟩
    · intro i j a a' hi hj hs hs' he
      rw [List.pairwise_iff_getElem] at hpw
      obtain ⟨hi1, hi2⟩ := List.getElem?_eq_some_iff.1 hi
      obtain ⟨hj1, hj2⟩ := List.getElem?_eq_some_iff.1 hj
      have hsome : ∀ x : FMMove, x.src ≠ none → x.src.isSome = true := fun x h => Option.isSome_iff_ne_none.2 h
      rcases Nat.lt_trichotomy i j with h | h | h
      · exact absurd he (by have := hpw i j hi1 hj1 h; rw [hi2, hj2] at this; exact this (hsome a hs) (hsome a' hs'))
      · exact h
      · exact absurd he.symm (by have := hpw j i hj1 hi1 h; rw [hi2, hj2] at this; exact this (hsome a' hs') (hsome a hs))
    · obtain ⟨h1, h2, h3, h4, h5, _⟩ := hmv mv h b hb
      exact ⟨h1, h5, h2, h3, h4⟩
  refine ⟨hvm, ?_⟩
  funext v
  by_cases hex : ∃ mv ∈ ms, mv.src ≠ none ∧ mv.node = v
  · obtain ⟨mv, h1, h2, rfl⟩ := hex
    obtain ⟨i, hi⟩ := List.mem_iff_getElem?.1 h1
    rw [applyMoves_moved hvm hi h2]
    cases hs : mv.src with
    | none => exact absurd hs h2
    | some b => exact (hmv mv h1 b hs).2.2.2.2.2
  · rw [hrest v (fun mv h1 h2 h3 => hex ⟨mv, h1, h2, h3⟩)]
    symm
    exact applyMoves_other ms (fun mv h1 h2 h3 => hex ⟨mv, h1, h2, h3⟩)

/-- **C24, recording.** For every schedule of concurrent moves that accepts each node at most once,
the recorded moves, in any order, are a legal sequence that leads to the current partition. -/
theorem C24_recorded_moves (H : HG) (m k mx : Nat) (hw : H.WF) (hf : H.Fits m mx)
    (hk : 0 < k) (h0 : 0 < mx) (h1 : mx + 1 < 2 ^ 32) (os : List PHOp) (hl : PHOp.AllLegal H k (fun _ => none) os)
    (hall : ∀ v ∈ H.nodes, (denseRun H m k mx os).part v ≠ none) (o : Obj) (cache : Nat → Int) (as : List Act)
    (s : CSt (Packed × ConnSets))
    (he : CSt.exec denseCon H k o (CSt.begin (denseRun H m k mx os) cache) as = some s) (hq : s.quiescent H = true)
    (ms : List FMMove) (hms : ms.Perm (recorded denseCon H k o (CSt.begin (denseRun H m k mx os) cache) as))
    (hnd : (ms.map FMMove.node).Nodup) :
    ValidMoves H k (denseRun H m k mx os).part ms ∧ s.part = applyMoves (denseRun H m k mx os).part ms := by
  have hS := dense_sim H m k mx hw hf hk h0 h1 os hl
  obtain ⟨i1, i2⟩ := begin_inv hS hall cache
  obtain ⟨j1, j2⟩ := conc_inv hw hf hS hall he
  have heff := eff_exec as he
  rw [eff_quiescent j1 hq, eff_quiescent i1 (by unfold CSt.quiescent; rw [List.all_eq_true]; intro u _; rfl)] at heff
  have hpt : (CSt.begin (denseRun H m k mx os) cache).part = (denseRun H m k mx os).part := rfl
  rw [hpt] at heff
  -- every recorded move is legal
  have hrec : ∀ (as : List Act) (s0 : CSt (Packed × ConnSets)) (s' : CSt (Packed × ConnSets)),
      Inv (denseLawful m k mx) H s0 → CSt.exec denseCon H k o s0 as = some s' →
      ((recorded denseCon H k o s0 as).map FMMove.node).Nodup →
      ∀ mv ∈ recorded denseCon H k o s0 as, mv.node ∈ H.nodes ∧ mv.dst < k ∧ ∃ b, b < k ∧ mv.src = some b ∧ b ≠ mv.dst ∧
        s0.eff mv.node = some b := by
    intro as
    induction as with
    | nil => intro s0 s' _ _ _ mv hmv; simp [recorded] at hmv
    | cons a as ih =>
      intro s0 s' hI0 he0 hn0 mv hmv
      simp only [CSt.exec] at he0
      cases hst : CSt.step denseCon H k o s0 a with
      | none => rw [hst] at he0; cases he0
      | some s1 =>
        rw [hst] at he0
        rw [recorded_cons as hst] at hmv hn0
        rw [List.map_append, List.nodup_append] at hn0
        rcases List.mem_append.1 hmv with h2 | h2
        · cases a with
          | start u dst lim =>
            obtain ⟨hu, hd, hidle, src, hp, hne, _⟩ := start_cases hst
            simp only [recOf] at h2
            split_ifs at h2 with h3
            · simp only [List.mem_singleton] at h2
              subst h2
              refine ⟨hu, hd, src, hI0.range u src hp, hp, hne, ?_⟩
              unfold CSt.eff; rw [hidle]; exact hp
            · simp at h2
          | tick u => simp [recOf] at h2
          | recompute u => simp [recOf] at h2
        · obtain ⟨a1, a2, b, a3, a4, a5, a6⟩ := ih s1 s' (hI0.step hw hf (step_Step hst)).1 he0 hn0.2.1 mv h2
          refine ⟨a1, a2, b, a3, a4, a5, ?_⟩
          rw [eff_step hst, applyMoves_none] at a6
          · exact a6
          · intro m' hm' hh
            exact hn0.2.2 m'.node (List.mem_map.2 ⟨m', hm', rfl⟩) mv.node (List.mem_map.2 ⟨mv, h2, rfl⟩) hh
  have hndr := (hms.map FMMove.node).nodup_iff.1 hnd
  have hr := hrec as _ s i1 he hndr
  refine C24_net_effect H k _ _ ms ?_ ?_ ?_
  · exact hnd.sublist ((List.filter_sublist).map _)
  · intro mv hmv b hb
    obtain ⟨a1, a2, b', a3, a4, a5, a6⟩ := hr mv (hms.mem_iff.1 hmv)
    rw [a4] at hb
    cases hb
    refine ⟨a1, a3, a2, a5, a6, ?_⟩
    rw [heff]
    exact applyMoves_distinct _ hndr mv (hms.mem_iff.1 hmv) (by rw [a4]; simp)
  · intro v hv
    rw [heff]
    apply applyMoves_none
    intro mv hmv
    obtain ⟨_, _, b', _, a4, _⟩ := hr mv hmv
    exact hv mv (hms.mem_iff.2 hmv) (by rw [a4]; simp)

/-- all ids handed out so far are below the running id -/
def Tracker.Good (T : Tracker) : Prop := T.OK ∧ ∀ v, T.moveOf v < T.running

/-- **C24, tracker.** A tracker that was created and then used for any number of rounds is consistent:
creation, insertion of a node that has no entry in this round yet (as long as ids remain) and `reset`
preserve consistency; `reset` forgets all moves and leaves enough ids for a round with `n` moves. -/
theorem C24_tracker :
    Tracker.init.Good ∧
    (∀ (T : Tracker) (mv : FMMove), T.Good → T.running + 1 ≤ maxID → (∀ mv' ∈ T.order, mv'.node ≠ mv.node) → (T.insertMove mv).Good) ∧
    (∀ (T : Tracker) (n : Nat), T.Good → n + 21 ≤ maxID → (T.reset n).Good ∧ (T.reset n).running + n ≤ maxID ∧
      (T.reset n).order = [] ∧ (∀ v, (T.reset n).moveOfNode v = none)) := by
  refine ⟨⟨⟨by decide, by decide, ?_, ?_⟩, ?_⟩, ?_, ?_⟩
  · intro i mv h; simp [Tracker.init] at h
  · intro v h1 h2; simp [Tracker.init] at h1
  · intro v; simp [Tracker.init, Tracker.running]
  · rintro T mv ⟨hT, hlt⟩ hr hnew
    have hlen : (T.insertMove mv).running = T.running + 1 := by
      simp [Tracker.insertMove, Tracker.running]; omega
    refine ⟨⟨hT.first_pos, by omega, ?_, ?_⟩, ?_⟩
    · intro i mv' h hs
      simp only [Tracker.insertMove] at h ⊢
      rw [List.getElem?_append] at h
      split_ifs at h with hi
      · have := hnew mv' (List.mem_of_getElem? h)
        rw [if_neg this]
        exact hT.slot i mv' h hs
      · have hi' : i = T.order.length := by
          by_contra hne
          have : 1 ≤ i - T.order.length := by omega
          rw [List.getElem?_eq_none (by simpa using this)] at h
          cases h
        subst hi'
        simp at h
        subst h
        simp [Tracker.running]
    · intro v hf _
      simp only [Tracker.insertMove] at hf ⊢
      by_cases hvn : v = mv.node
      · subst hvn
        refine ⟨mv, ?_, rfl⟩
        simp [Tracker.running]
      · rw [if_neg hvn] at hf ⊢
        obtain ⟨mv', h1, h2⟩ := hT.node v hf (hlt v)
        refine ⟨mv', ?_, h2⟩
        rw [List.getElem?_append_left (List.getElem?_eq_some_iff.1 h1).1]
        exact h1
    · intro v
      rw [hlen]
      simp only [Tracker.insertMove]
      have := hlt v
      split_ifs <;> omega
  · rintro T n ⟨hT, hlt⟩ hn
    have hpos := hT.first_pos
    have hrun : 1 ≤ T.running := by unfold Tracker.running; omega
    have hmax : maxID = 4294967295 := by decide
    unfold Tracker.reset
    split_ifs with hc
    · refine ⟨⟨⟨Nat.le_refl _, by decide, ?_, ?_⟩, ?_⟩, ?_, rfl, ?_⟩
      · intro i mv h; simp at h
      · intro v h1 _; simp at h1
      · intro v; simp [Tracker.running]
      · simp [Tracker.running]; omega
      · intro v; simp [Tracker.moveOfNode]
    · refine ⟨⟨⟨?_, ?_, ?_, ?_⟩, ?_⟩, ?_, rfl, ?_⟩
      · simp only; omega
      · simp [Tracker.running] at hc ⊢; omega
      · intro i mv h; simp at h
      · intro v h1 _; have := hlt v; simp only at h1; omega
      · intro v; have := hlt v; simp [Tracker.running] at this ⊢; omega
      · simp [Tracker.running] at hc ⊢; omega
      · intro v; have := hlt v; simp [Tracker.moveOfNode, Tracker.running] at this ⊢

/-- **Finding.** The round counter of the "process every hyperedge once" test is a 32 bit integer that
is never set back: after round `2^32 - 1` it becomes 0, and then no hyperedge is claimed any more,
whatever the schedule (the code only clears `last_recalc_round`). -/
theorem C24_round_counter_wraps :
    nextRound (2 ^ 32 - 1) = 0 ∧
    ∀ (last : Nat → Nat) (tasks : List (Nat × Nat × ClaimPC)) (is : List Nat), (∀ t ∈ tasks, t.2.2 = .load) →
      (ClaimSt.run 0 { last := last, tasks := tasks } is).claimed = [] := by
  refine ⟨by decide, ?_⟩
  intro last tasks is ht
  have key : ∀ (is : List Nat) (s : ClaimSt), (∀ t ∈ s.tasks, t.2.2 = .load ∨ t.2.2 = .done false) →
      ∀ t ∈ (ClaimSt.run 0 s is).tasks, t.2.2 = .load ∨ t.2.2 = .done false := by
    intro is
    induction is with
    | nil => intro s h; exact h
    | cons i is ih =>
      intro s h
      apply ih
      unfold ClaimSt.step
      cases hi : s.tasks[i]? with
      | none => exact h
      | some t =>
        obtain ⟨e, x, pc⟩ := t
        rcases h _ (List.mem_of_getElem? hi) with hp | hp
        · simp only at hp
          subst hp
          simp only [Nat.not_lt_zero, if_false]
          intro t ht
          rcases ClaimSt.mem_set ht with rfl | ht
          · exact Or.inr rfl
          · exact h t ht
        · simp only at hp
          subst hp
          exact h
  have hk := key is { last := last, tasks := tasks } (fun t h => Or.inl (ht t h))
  unfold ClaimSt.claimed
  rw [List.filterMap_eq_nil_iff]
  intro t h
  obtain ⟨e, x, pc⟩ := t
  rcases hk _ h with hp | hp <;> (simp only at hp; subst hp; rfl)

/-! ## Main theorems -/

section
variable (H : HG) (m k mx : Nat) (hw : H.WF) (hf : H.Fits m mx)
  (hk : 0 < k) (h0 : 0 < mx) (h1 : mx + 1 < 2 ^ 32) (hnw : ∀ u ∈ H.nodes, 0 ≤ H.nw u)
  (hew : ∀ e ∈ H.edges, 0 ≤ H.ew e) (htot : (H.nodes.map H.nw).sum < 2 ^ 31 - 1)
  (os : List PHOp) (hl : PHOp.AllLegal H k (fun _ => none) os) (o : Obj)
  (threads : List Nat) (hn : threads.Nodup) (tasks : List InitTask)
  (ht : ∀ t ∈ tasks, t.Legal H threads) (hc : ∀ u ∈ H.nodes, ∃ t ∈ tasks, t.node = u) (mem : Nat → Int)
include hw hf hk h0 h1 hnw hl hn ht hc

include hew htot in
/-- **C24, parallel rollback**, default partition type.  `Φ` is the partition at the start of the round
(reached by the legal history `os`), `as` the concurrent moves of the searches, `T` the tracker.  Then
for all executions of the rollback the resulting partition is the best balanced prefix of the sequence
(best objective, then lightest heaviest block), the returned gain is the improvement of the objective,
and all queries and the gain cache are exact. -/
theorem C24_parallel_rollback
    (hall : ∀ v ∈ H.nodes, (denseRun H m k mx os).part v ≠ none) (as : List Act) (s1 : CSt (Packed × ConnSets))
    (he1 : CSt.exec denseCon H k o (CSt.begin (denseRun H m k mx os) (denseCache H m k mx os o threads tasks mem)) as = some s1)
    (hq1 : s1.quiescent H = true)
    (T : Tracker) (hT : T.OK) (hv : ValidMoves H k (denseRun H m k mx os).part T.order)
    (hp : s1.part = applyMoves (denseRun H m k mx os).part T.order)
    (W Wmax : Nat → Int) (hW : ∀ b < k, W b = H.blockWeight (denseRun H m k mx os).part b)
    (round : Nat) (last : Nat → Nat) (hlast : ∀ e, last e < round)
    (sched : List (Nat × Nat)) (hs : RecalcSched H T round last sched)
    (g : BGhost) (steps : List BStep) (hst : BGhost.Steps T.order.length BGhost.init steps g)
    (hcomp : g.Complete T.order.length) (bests : List Nat) (hb : ∀ c l r t, BStep.fin c l r t ∈ steps → t ∈ bests)
    (as2 : List Act) (s2 s3 : CSt (Packed × ConnSets)) (R : List Nat) :
    let Φ := (denseRun H m k mx os).part
    let r := bestPrefix H k o (denseCon.pinCount s1.con) s1.part T W Wmax sched steps bests
    (startsOf as2).Perm (reverts T.order r.best) → CSt.exec denseCon H k o s1 as2 = some s2 → s2.quiescent H = true →
    R.Perm (T.order.map FMMove.node) → CSt.exec denseCon H k o s2 (R.map Act.recompute) = some s3 →
    BestPrefixOf H k o Φ T.order Wmax r.best r.gain s3.part ∧
    (∀ i ≤ T.order.length, H.Balanced k Wmax (applyMoves Φ (T.order.take i)) →
      H.objective s3.part o = H.objective (applyMoves Φ (T.order.take i)) o →
      maxWeight k (H.blockWeight s3.part) ≤ maxWeight k (H.blockWeight (applyMoves Φ (T.order.take i)))) ∧
    ExactState denseCon H k o T.order s1 s3 := by
  have hS := dense_sim H m k mx hw hf hk h0 h1 os hl
  have hex := cacheExact_of hw hf hS hall o hn ht hc mem
  obtain ⟨hI, hC⟩ := conc_cacheInv hw hf hS hall hex he1
  obtain ⟨_, hWt⟩ := conc_inv hw hf hS hall he1
  refine rollback_parallel_generic hw hf hk hnw hew htot hI hWt hC hq1 ?_ hT hv hp hW hlast hs hst hcomp hb
  intro v hv'
  cases h : (denseRun H m k mx os).part v with
  | none => exact absurd h (hall v hv')
  | some b => exact ⟨b, hS.range v b h, rfl⟩

include htot in
/-- **C24, sequential rollback**, default partition type: all moves are reverted (`as0`), then performed
again one after the other (`segs i` are the atomic steps of the `i`-th call), then the moves behind the
best prefix are reverted (`as2`). -/
theorem C24_sequential_rollback
    (hall : ∀ v ∈ H.nodes, (denseRun H m k mx os).part v ≠ none) (as : List Act) (s1 : CSt (Packed × ConnSets))
    (he1 : CSt.exec denseCon H k o (CSt.begin (denseRun H m k mx os) (denseCache H m k mx os o threads tasks mem)) as = some s1)
    (hq1 : s1.quiescent H = true)
    (ms : List FMMove) (hv : ValidMoves H k (denseRun H m k mx os).part ms)
    (hp : s1.part = applyMoves (denseRun H m k mx os).part ms) (Wmax : Nat → Int)
    (as0 : List Act) (s0 : CSt (Packed × ConnSets)) (hst0 : (startsOf as0).Perm (reverts ms 0))
    (he0 : CSt.exec denseCon H k o s1 as0 = some s0) (hq0 : s0.quiescent H = true)
    (segs : Nat → List Act) (hseg : ∀ i mv, ms[i]? = some mv → mv.src ≠ none →
      startsOf (segs i) = [Act.start mv.node mv.dst maxHNW])
    (x : SeqSt (Packed × ConnSets)) (hx : seqForward denseCon H k o Wmax ms segs s0 ms.length = some x)
    (as2 : List Act) (s2 s3 : CSt (Packed × ConnSets)) (R : List Nat) (hst2 : (startsOf as2).Perm (reverts ms x.best))
    (he2 : CSt.exec denseCon H k o x.st as2 = some s2) (hq2 : s2.quiescent H = true)
    (hR : R.Perm (ms.map FMMove.node)) (he3 : CSt.exec denseCon H k o s2 (R.map Act.recompute) = some s3) :
    BestPrefixOf H k o (denseRun H m k mx os).part ms Wmax x.best x.bestGain s3.part ∧
    ExactState denseCon H k o ms s1 s3 := by
  have hS := dense_sim H m k mx hw hf hk h0 h1 os hl
  have hex := cacheExact_of hw hf hS hall o hn ht hc mem
  obtain ⟨hI, hC⟩ := conc_cacheInv hw hf hS hall hex he1
  obtain ⟨_, hWt⟩ := conc_inv hw hf hS hall he1
  exact rollback_sequential_generic hw hf hnw (by unfold maxHNW; omega) hI hWt hC hq1 hv hp hst0 he0 hq0 hseg hx hst2 he2 hq2 hR he3

end

/-- **C24, parallel rollback**, LARGE_K partition type. -/
theorem C24_parallel_rollback_sparse (H : HG) (m k mx : Nat) (hw : H.WF) (hf : H.Fits m mx) (hk : 0 < k)
    (hnw : ∀ u ∈ H.nodes, 0 ≤ H.nw u)
    (hew : ∀ e ∈ H.edges, 0 ≤ H.ew e) (htot : (H.nodes.map H.nw).sum < 2 ^ 31 - 1)
    (os : List PHOp) (hl : PHOp.AllLegal H k (fun _ => none) os) (o : Obj)
    (threads : List Nat) (hn : threads.Nodup) (tasks : List InitTask)
    (ht : ∀ t ∈ tasks, t.Legal H threads) (hc : ∀ u ∈ H.nodes, ∃ t ∈ tasks, t.node = u) (mem : Nat → Int)
    (hall : ∀ v ∈ H.nodes, (sparseRun H k os).part v ≠ none) (as : List Act) (s1 : CSt SparsePC)
    (he1 : CSt.exec sparseCon H k o (CSt.begin (sparseRun H k os) (sparseCache H k os o threads tasks mem)) as = some s1)
    (hq1 : s1.quiescent H = true)
    (T : Tracker) (hT : T.OK) (hv : ValidMoves H k (sparseRun H k os).part T.order)
    (hp : s1.part = applyMoves (sparseRun H k os).part T.order)
    (W Wmax : Nat → Int) (hW : ∀ b < k, W b = H.blockWeight (sparseRun H k os).part b)
    (round : Nat) (last : Nat → Nat) (hlast : ∀ e, last e < round)
    (sched : List (Nat × Nat)) (hs : RecalcSched H T round last sched)
    (g : BGhost) (steps : List BStep) (hst : BGhost.Steps T.order.length BGhost.init steps g)
    (hcomp : g.Complete T.order.length) (bests : List Nat) (hb : ∀ c l r t, BStep.fin c l r t ∈ steps → t ∈ bests)
    (as2 : List Act) (s2 s3 : CSt SparsePC) (R : List Nat) :
    let Φ := (sparseRun H k os).part
    let r := bestPrefix H k o (sparseCon.pinCount s1.con) s1.part T W Wmax sched steps bests
    (startsOf as2).Perm (reverts T.order r.best) → CSt.exec sparseCon H k o s1 as2 = some s2 → s2.quiescent H = true →
    R.Perm (T.order.map FMMove.node) → CSt.exec sparseCon H k o s2 (R.map Act.recompute) = some s3 →
    BestPrefixOf H k o Φ T.order Wmax r.best r.gain s3.part ∧
    (∀ i ≤ T.order.length, H.Balanced k Wmax (applyMoves Φ (T.order.take i)) →
      H.objective s3.part o = H.objective (applyMoves Φ (T.order.take i)) o →
      maxWeight k (H.blockWeight s3.part) ≤ maxWeight k (H.blockWeight (applyMoves Φ (T.order.take i)))) ∧
    ExactState sparseCon H k o T.order s1 s3 := by
  have hS := sparse_sim H m k mx hw hf os hl
  have hex := cacheExact_of hw hf hS hall o hn ht hc mem
  obtain ⟨hI, hC⟩ := conc_cacheInv hw hf hS hall hex he1
  obtain ⟨_, hWt⟩ := conc_inv hw hf hS hall he1
  refine rollback_parallel_generic hw hf hk hnw hew htot hI hWt hC hq1 ?_ hT hv hp hW hlast hs hst hcomp hb
  intro v hv'
  cases h : (sparseRun H k os).part v with
  | none => exact absurd h (hall v hv')
  | some b => exact ⟨b, hS.range v b h, rfl⟩

/-- **C24, recomputed gains.** However the hyperedges are distributed to threads, the recomputed gain of
the `i`-th move is the decrease of the objective when the sequence is executed up to that move (0 for
deleted entries); hence they sum up to the total change. -/
theorem C24_recalculated_gains (H : HG) (k : Nat) (hw : H.WF) (o : Obj) (hew : ∀ e ∈ H.edges, 0 ≤ H.ew e)
    (Φ : Assign) (hall : ∀ v ∈ H.nodes, ∃ b, b < k ∧ Φ v = some b)
    (T : Tracker) (hT : T.OK) (hv : ValidMoves H k Φ T.order)
    (pc : Nat → Nat → Nat) (hpc : ∀ e ∈ H.edges, ∀ b, b < k → pc e b = H.pinsIn (applyMoves Φ T.order) e b)
    (round : Nat) (last : Nat → Nat) (hlast : ∀ e, last e < round)
    (sched : List (Nat × Nat)) (hs : RecalcSched H T round last sched) :
    let gain := (recalculateGains H k o pc (applyMoves Φ T.order) T sched (fun _ _ => RData.fresh)).2
    (∀ i < T.order.length, gain i =
      H.objective (applyMoves Φ (T.order.take i)) o - H.objective (applyMoves Φ (T.order.take (i + 1))) o) ∧
    ((List.range T.order.length).map gain).sum = H.objective Φ o - H.objective (applyMoves Φ T.order) o := by
  obtain ⟨s1, s2, s3⟩ := recalcSched_spec hw hT hv hlast hs
  intro gain
  have hg : ∀ i < T.order.length, gain i =
      H.objective (applyMoves Φ (T.order.take i)) o - H.objective (applyMoves Φ (T.order.take (i + 1))) o :=
    fun i hi => recalculateGains_eq hw hT hv hall rfl hew hpc s1 s2 s3 (List.getElem?_eq_getElem hi)
  refine ⟨hg, ?_⟩
  have key : ∀ n ≤ T.order.length, ((List.range n).map gain).sum = H.objective Φ o - H.objective (applyMoves Φ (T.order.take n)) o := by
    intro n
    induction n with
    | zero => intro _; simp [applyMoves]
    | succ n ih =>
      intro hn
      rw [List.range_succ, List.map_append, List.sum_append, ih (by omega)]
      simp only [List.map_cons, List.map_nil, List.sum_cons, List.sum_nil]
      rw [hg n (by omega)]; omega
  have := key _ (Nat.le_refl _)
  rw [List.take_length] at this
  exact this

/-! ## A concrete round

Path 0-1-2-3 with unit weights; block 0 is {0, 2}, block 1 is {1, 3} (cut 3), at most two nodes per
block.  Three concurrent moves 1→0, 2→1, 0→1 (cut 2, not balanced).  The best balanced prefix consists
of two moves (cut 1). -/

def rbHG : HG where
  nodes := [0, 1, 2, 3]
  edges := [0, 1, 2]
  pins := fun e => if e = 0 then [0, 1] else if e = 1 then [1, 2] else if e = 2 then [2, 3] else []
  inc := fun v => if v = 0 then [0] else if v = 1 then [0, 1] else if v = 2 then [1, 2]
    else if v = 3 then [2] else []
  nw := fun _ => 1
  ew := fun _ => 1

theorem rbHG_wf : rbHG.WF where
  nodes_nodup := by decide
  edges_nodup := by decide
  pins_mem := by decide
  pins_nodup := by decide
  inc_nodup := by decide
  inc_iff := by
    intro v hv e
    simp only [rbHG, List.mem_cons, List.not_mem_nil, or_false] at hv
    rcases hv with rfl | rfl | rfl | rfl <;> by_cases h0 : e = 0 <;> by_cases h1 : e = 1 <;>
      by_cases h2 : e = 2 <;> simp [rbHG, h0, h1, h2]

def rbOs : List PHOp :=
  [.build (fun v => v % 2) [3, 1, 0, 2] (fun _ => [[2, 3], [0, 1]]) [1, 0, 2]]

theorem rbOs_legal : PHOp.AllLegal rbHG 2 (fun _ => none) rbOs :=
  ⟨⟨by decide, by decide, fun b _ => (by decide : [2, 3, 0, 1].Perm [0, 1, 2, 3]), by decide⟩, trivial⟩

def rbTasks : List InitTask := [.low 0 1, .low 1 2, .low 1 0, .low 0 3]

def rbStart : CSt (Packed × ConnSets) :=
  CSt.begin (denseRun rbHG 3 2 2 rbOs) (denseCache rbHG 3 2 2 rbOs .km1 [0, 1] rbTasks (fun _ => 77))

/-- the concurrent moves -/
def rbActs : List Act :=
  [.start 1 0 100, .tick 1, .start 2 1 100, .start 0 1 100, .tick 2, .tick 0, .tick 2, .tick 0, .tick 0] ++
  List.replicate 6 (.tick 0) ++ List.replicate 14 (.tick 2) ++ List.replicate 14 (.tick 1)

/-- the tracker: a new round of a new tracker, three insertions -/
def rbT : Tracker :=
  (((Tracker.init.reset 4).insertMove ⟨1, some 1, 0⟩).insertMove ⟨2, some 0, 1⟩).insertMove ⟨0, some 0, 1⟩

theorem rbT_ok : rbT.OK := by
  have t0 := (C24_tracker.2.2 Tracker.init 4 C24_tracker.1 (by decide)).1
  have t1 := C24_tracker.2.1 _ ⟨1, some 1, 0⟩ t0 (by decide) (by decide)
  have t2 := C24_tracker.2.1 _ ⟨2, some 0, 1⟩ t1 (by decide) (by decide)
  exact (C24_tracker.2.1 _ ⟨0, some 0, 1⟩ t2 (by decide) (by decide)).1

/-- interleaving of the five (moved node, incident edge) pairs; edges 0 and 1 are contested -/
def rbClaims : List Nat := [0, 4, 4, 0, 1, 2, 3, 2, 1, 3]

/-- two threads recompute the gains -/
def rbRecalc : List (Nat × Nat) := [(0, 2), (1, 0), (0, 1)]

/-- `parallel_scan` with a stolen right part: body 1 pre-scans index 1, then takes over from body 0
and final-scans index 2; body 0 final-scans 0 and 1 -/
def rbScan : List BStep :=
  [.split 1, .fin 0 0 1 0, .pre 1 1 2, .join 1 0, .fin 0 1 2 0, .fin 1 2 3 1]

/-- revert of the third move -/
def rbActs2 : List Act := .start 0 0 maxHNW :: List.replicate 10 (.tick 0)

def rbW : Nat → Int := fun _ => 2

def rbS1 : Option (CSt (Packed × ConnSets)) := CSt.exec denseCon rbHG 2 .km1 rbStart rbActs
def rbS2 : Option (CSt (Packed × ConnSets)) := rbS1.bind (fun s => CSt.exec denseCon rbHG 2 .km1 s rbActs2)
def rbS3 : Option (CSt (Packed × ConnSets)) :=
  rbS2.bind (fun s => CSt.exec denseCon rbHG 2 .km1 s ([2, 0, 1].map Act.recompute))

def rbBest (s : CSt (Packed × ConnSets)) : Prefix :=
  bestPrefix rbHG 2 .km1 (denseCon.pinCount s.con) s.part rbT (fun _ => 2) rbW rbRecalc rbScan [1, 0]

/-- the model on this input -/
theorem rb_run : rbS1.map (fun s => (s.quiescent rbHG, rbHG.nodes.map s.part)) =
      some (true, [some 1, some 0, some 1, some 1]) ∧
    rbS1.map rbBest = some ⟨2, 2, 2⟩ ∧
    rbS2.map (fun s => (s.quiescent rbHG, rbHG.nodes.map s.part)) = some (true, [some 0, some 0, some 1, some 1]) ∧
    rbS3.isSome = true := by decide +kernel

/-- ghost state after each step, first `c` bodies and `d` final-scanned indices -/
def rbG (a b : Option (Nat × Nat)) (d : Nat) : BGhost :=
  ⟨fun x => if x = 1 then b else if x = 0 then a else none, fun i => decide (i < d)⟩

theorem rbScan_steps : BGhost.Steps rbT.order.length BGhost.init rbScan (rbG (some (0, 3)) (some (0, 4)) 3) := by
  have hnot : ∀ l r d : Nat, ∀ a b, d ≤ l → ∀ i, l ≤ i → i < r → (rbG a b d).done i = false := by
    intro l r d a b h i h1 h2
    simp [rbG]; omega
  have conv : ∀ {g g' : BGhost} {st : BStep}, BGhost.Step 3 g st g' → ∀ g'' : BGhost, (∀ x, g'.cov x = g''.cov x) →
      (∀ i, g'.done i = g''.done i) → BGhost.Step 3 g st g'' := by
    intro g g' st h g'' h1 h2
    have : g' = g'' := by
      cases g'; cases g''
      simp only [BGhost.mk.injEq]
      exact ⟨funext h1, funext h2⟩
    exact this ▸ h
  have e1 := BGhost.Step.split (n := 3) (g := BGhost.init) 1 1
  replace e1 := conv e1 (rbG (some (0, 1)) (some (2, 2)) 0) (fun x => by simp [rbG, BGhost.init]) (fun i => by simp [rbG, BGhost.init])
  have e2 := BGhost.Step.fin (n := 3) (g := rbG (some (0, 1)) (some (2, 2)) 0) (c := 0) (l := 0) (r := 1) (t := 0)
    (by rfl) (by decide) (by decide) (hnot _ _ _ _ _ (by decide))
  replace e2 := conv e2 (rbG (some (0, 2)) (some (2, 2)) 1) (fun x => by simp [rbG]; split_ifs <;> simp_all) (fun i => by simp [rbG])
  have e3 := BGhost.Step.pre (n := 3) (g := rbG (some (0, 2)) (some (2, 2)) 1) (c := 1) (l := 1) (r := 2) (a := 2)
    (by rfl) (by decide) (by decide)
  replace e3 := conv e3 (rbG (some (0, 2)) (some (2, 3)) 1) (fun x => by simp [rbG]; split_ifs <;> simp_all) (fun i => by simp [rbG])
  have e4 := BGhost.Step.join (n := 3) (g := rbG (some (0, 2)) (some (2, 3)) 1) (right := 1) (left := 0) (a := 0) (b := 2) (c := 3)
    (by decide) (by rfl) (by rfl)
  replace e4 := conv e4 (rbG (some (0, 2)) (some (0, 3)) 1) (fun x => by simp [rbG]; split_ifs <;> simp_all) (fun i => by simp [rbG])
  have e5 := BGhost.Step.fin (n := 3) (g := rbG (some (0, 2)) (some (0, 3)) 1) (c := 0) (l := 1) (r := 2) (t := 0)
    (by rfl) (by decide) (by decide) (hnot _ _ _ _ _ (by decide))
  replace e5 := conv e5 (rbG (some (0, 3)) (some (0, 3)) 2) (fun x => by simp [rbG]; split_ifs <;> simp_all)
    (fun i => by by_cases h : 1 ≤ i ∧ i < 2 <;> simp [rbG, h] <;> omega)
  have e6 := BGhost.Step.fin (n := 3) (g := rbG (some (0, 3)) (some (0, 3)) 2) (c := 1) (l := 2) (r := 3) (t := 1)
    (by rfl) (by decide) (by decide) (hnot _ _ _ _ _ (by decide))
  replace e6 := conv e6 (rbG (some (0, 3)) (some (0, 4)) 3) (fun x => by simp [rbG]; split_ifs <;> simp_all)
    (fun i => by by_cases h : 2 ≤ i ∧ i < 3 <;> simp [rbG, h] <;> omega)
  exact .cons e1 (.cons e2 (.cons e3 (.cons e4 (.cons e5 (.cons e6 (.nil _))))))

theorem rbScan_complete : (rbG (some (0, 3)) (some (0, 4)) 3).Complete rbT.order.length := by
  intro i hi
  have : i < 3 := hi
  simp [rbG, this]

/-- all hypotheses of `C24_parallel_rollback` are met, and the conclusion for this round -/
example : ∃ s1 s3, rbS1 = some s1 ∧ rbS3 = some s3 ∧
    BestPrefixOf rbHG 2 .km1 (denseRun rbHG 3 2 2 rbOs).part rbT.order rbW 2 2 s3.part ∧
    ExactState denseCon rbHG 2 .km1 rbT.order s1 s3 := by
  obtain ⟨r1, r2, r3, r4⟩ := rb_run
  cases hs1 : rbS1 with
  | none => rw [hs1] at r1; cases r1
  | some s1 =>
  cases hs2 : rbS2 with
  | none => rw [hs2] at r3; cases r3
  | some s2 =>
  cases hs3 : rbS3 with
  | none => rw [hs3] at r4; cases r4
  | some s3 =>
  rw [hs1] at r1 r2
  rw [hs2] at r3
  simp only [Option.map_some, Option.some.injEq, Prod.mk.injEq] at r1 r2 r3
  have he2 : CSt.exec denseCon rbHG 2 .km1 s1 rbActs2 = some s2 := by
    have := hs2; unfold rbS2 at this; rw [hs1] at this; exact this
  have he3 : CSt.exec denseCon rbHG 2 .km1 s2 ([2, 0, 1].map Act.recompute) = some s3 := by
    have := hs3; unfold rbS3 at this; rw [hs2] at this; exact this
  have hall : ∀ v ∈ rbHG.nodes, (denseRun rbHG 3 2 2 rbOs).part v ≠ none := by decide +kernel
  have hrec := C24_recorded_moves rbHG 3 2 2 rbHG_wf (by unfold HG.Fits; decide) (by decide) (by decide) (by decide) rbOs rbOs_legal
    hall .km1 _ rbActs s1 hs1 r1.1 rbT.order
    (by decide +kernel : rbT.order.Perm (recorded denseCon rbHG 2 .km1 rbStart rbActs)) (by decide)
  have := C24_parallel_rollback rbHG 3 2 2 rbHG_wf (by unfold HG.Fits; decide) (by decide) (by decide) (by decide) (by decide)
    (by decide) (by decide) rbOs rbOs_legal .km1 [0, 1] (by decide) rbTasks
    (by intro t ht
        simp only [rbTasks, List.mem_cons, List.not_mem_nil, or_false] at ht
        rcases ht with rfl | rfl | rfl | rfl
        · exact (by decide : 1 ∈ rbHG.nodes)
        · exact (by decide : 2 ∈ rbHG.nodes)
        · exact (by decide : 0 ∈ rbHG.nodes)
        · exact (by decide : 3 ∈ rbHG.nodes))
    (by decide) (fun _ => 77) hall rbActs s1 hs1 r1.1 rbT rbT_ok hrec.1 hrec.2 (fun _ => 2) rbW (by decide +kernel)
    1 (fun _ => 0) (by intro; decide) rbRecalc
    (.iterMoves rbClaims
      (by
        have hh : ∀ t ∈ (ClaimSt.run 1 { last := fun _ => 0, tasks := claimTasks rbHG rbT id } rbClaims).tasks,
          t.2.2 = .done true ∨ t.2.2 = .done false := by decide
        intro t ht
        rcases hh t ht with h | h <;> exact ⟨_, h⟩) (by decide))
    _ rbScan rbScan_steps rbScan_complete [1, 0] (by
      intro c l r t h
      simp only [rbScan, List.mem_cons, List.not_mem_nil, or_false, BStep.fin.injEq, reduceCtorEq, false_or] at h
      rcases h with h | h | h <;> simp [h.2.2.2]) rbActs2 s2 s3 [2, 0, 1]
  simp only [show bestPrefix rbHG 2 .km1 (denseCon.pinCount s1.con) s1.part rbT (fun _ => 2) rbW rbRecalc rbScan [1, 0]
    = ⟨2, 2, 2⟩ from r2] at this
  obtain ⟨t1, t2, t3⟩ := this (List.Perm.refl _ : (startsOf rbActs2).Perm (reverts rbT.order 2)) he2 r3.1 (by decide) he3
  exact ⟨s1, s3, rfl, rfl, t1, t3⟩

/-! the sequential rollback on the same round -/

/-- revert everything, concurrently -/
def rbBack : List Act :=
  [.start 1 1 maxHNW, .start 2 0 maxHNW, .start 0 0 maxHNW, .tick 0, .tick 1, .tick 2] ++
  List.replicate 8 (.tick 0) ++ List.replicate 14 (.tick 1) ++ List.replicate 14 (.tick 2)

/-- perform the moves again, one after the other -/
def rbSegs : Nat → List Act := fun i =>
  if i = 0 then .start 1 0 maxHNW :: List.replicate 17 (.tick 1)
  else if i = 1 then .start 2 1 maxHNW :: List.replicate 16 (.tick 2)
  else .start 0 1 maxHNW :: List.replicate 9 (.tick 0)

def rbS0 : Option (CSt (Packed × ConnSets)) := rbS1.bind (fun s => CSt.exec denseCon rbHG 2 .km1 s rbBack)

def rbX : Option (SeqSt (Packed × ConnSets)) :=
  rbS0.bind (fun s => seqForward denseCon rbHG 2 .km1 rbW rbT.order rbSegs s 3)

/-- revert of the third move (prefix 1 has the same objective as prefix 2, but is not balanced) -/
def rbX2 : Option (CSt (Packed × ConnSets)) := rbX.bind (fun x => CSt.exec denseCon rbHG 2 .km1 x.st rbActs2)

theorem rb_run_seq : rbS0.map (fun s => (s.quiescent rbHG, rbHG.nodes.map s.part)) =
      some (true, [some 0, some 1, some 0, some 1]) ∧
    rbX.map (fun x => (x.best, x.bestGain, x.sum)) = some (2, 2, 1) ∧
    rbX2.map (fun s => (s.quiescent rbHG, rbHG.nodes.map s.part)) = some (true, [some 0, some 0, some 1, some 1]) := by
  decide +kernel

end Verif
