import Verif.Lemmas.Rollback4
import Verif.Props.C05_C06_C11_C14
/-!
# Effect of schedules of moves on the partition
-/
namespace Verif
open CSt

/-- block of a node once its active call (if any) has stored it -/
def CSt.eff {σ : Type} (s : CSt σ) : Assign := fun v =>
  match s.proc v with
  | .accepted _ dst => some dst
  | _ => s.part v

namespace Rollback
section
variable {σ : Type} {C : ConInfo σ} {H : HG} {m k mx : Nat} {o : Metrics.Obj}

theorem eff_quiescent {L : C.Lawful m k mx} {s : CSt σ} (hI : Inv L H s) (hq : s.quiescent H = true) :
    s.eff = s.part := by
  funext v
  unfold CSt.eff
  by_cases hv : v ∈ H.nodes
  · rw [(quiescent_iff s).1 hq v hv]
  · rw [hI.outside v hv]

theorem applyMoves_cons (Φ : Assign) (m : FMMove) (ms : List FMMove) :
    applyMoves Φ (m :: ms) = applyMoves (m.apply Φ) ms := rfl

theorem recorded_cons {s s' : CSt σ} {a : Act} (as : List Act) (h : CSt.step C H k o s a = some s') :
    recorded C H k o s (a :: as) = recOf H s a ++ recorded C H k o s' as := by
  conv_lhs => unfold recorded
  rw [h]

theorem start_cases {s s' : CSt σ} {u dst : Nat} {lim : Int} (h : CSt.step C H k o s (.start u dst lim) = some s') :
    u ∈ H.nodes ∧ dst < k ∧ s.proc u = .idle ∧ ∃ src, s.part u = some src ∧ src ≠ dst ∧
    ((s.wt dst + H.nw u ≤ lim ∧ s'.proc = s.setProc u (.accepted src dst) ∧ s'.part = s.part) ∨
     (¬ s.wt dst + H.nw u ≤ lim ∧ s'.proc = s.setProc u (.rejected dst) ∧ s'.part = s.part)) := by
  simp only [CSt.step] at h
  by_cases h1 : u ∈ H.nodes ∧ dst < k ∧ s.isIdle u = true
  · rw [if_pos h1] at h
    refine ⟨h1.1, h1.2.1, (isIdle_iff s u).1 h1.2.2, ?_⟩
    cases hp : s.part u with
    | none => rw [hp] at h; cases h
    | some src =>
      rw [hp] at h
      simp only at h
      have hw1 : addWt s.wt dst (H.nw u) dst = s.wt dst + H.nw u := by simp [addWt]
      rw [hw1] at h
      split_ifs at h with h2 h3
      · cases h; exact ⟨src, rfl, h2, Or.inl ⟨h3, rfl, rfl⟩⟩
      · cases h; exact ⟨src, rfl, h2, Or.inr ⟨h3, rfl, rfl⟩⟩
  · rw [if_neg h1] at h; cases h

theorem eff_step {s s' : CSt σ} {a : Act} (hst : CSt.step C H k o s a = some s') :
    s'.eff = applyMoves s.eff (recOf H s a) := by
  cases a with
  | start u dst lim =>
    obtain ⟨_, _, hidle, src, hp, hne, hc⟩ := start_cases hst
    simp only [recOf]
    rcases hc with ⟨h3, h4, h5⟩ | ⟨h3, h4, h5⟩
    · rw [if_pos h3]
      funext v
      simp only [applyMoves, List.foldl_cons, List.foldl_nil, FMMove.apply, hp]
      by_cases hv : v = u
      · subst hv; simp [CSt.eff, setProc, Assign.put, h4]
      · simp [CSt.eff, setProc, Assign.put, hv, h4, h5]
    · rw [if_neg h3]
      funext v
      simp only [applyMoves, List.foldl_nil]
      by_cases hv : v = u
      · subst hv; simp [CSt.eff, setProc, hidle, h4, h5]
      · simp [CSt.eff, setProc, hv, h4, h5]
  | tick u =>
    simp only [recOf, applyMoves, List.foldl_nil]
    have hstep := step_Step hst
    funext v
    by_cases hv : v = u
    · subst hv
      cases hstep <;> (rename_i hq; simp [CSt.eff, setProc, hq, Assign.put])
    · cases hstep <;> simp [CSt.eff, setProc, hv, Assign.put]
  | recompute u =>
    simp only [recOf, applyMoves, List.foldl_nil]
    have hstep := step_Step hst
    cases hstep
    rfl

/-- the partition after a schedule results from applying the accepted moves in the order of their
acceptance -/
theorem eff_exec (as : List Act) : ∀ {s s' : CSt σ},
    CSt.exec C H k o s as = some s' →
    s'.eff = applyMoves s.eff (recorded C H k o s as) := by
  induction as with
  | nil => intro s s' he; simp only [CSt.exec] at he; cases he; rfl
  | cons a as ih =>
    intro s s' he
    simp only [CSt.exec] at he
    cases hst : CSt.step C H k o s a with
    | none => rw [hst] at he; cases he
    | some s1 =>
      rw [hst] at he
      rw [ih he, eff_step hst, ← applyMoves_append, recorded_cons as hst]

/-! ### Without limits no move is rejected -/

def NoReject (s : CSt σ) : Prop := ∀ v d, s.proc v ≠ .rejected d

theorem counter_le {L : C.Lawful m k mx} (hw : H.WF) (hnw : ∀ u ∈ H.nodes, 0 ≤ H.nw u) {s : CSt σ}
    (hI : Inv L H s) (hW : WtInv H k s) (hN : NoReject s) {u dst src : Nat} (hu : u ∈ H.nodes) (hd : dst < k)
    (hi : s.proc u = .idle) (hp : s.part u = some src) (hne : src ≠ dst) :
    s.wt dst + H.nw u ≤ (H.nodes.map H.nw).sum := by
  rw [hW dst hd]
  have h1 : (H.nodes.map (fun v => if v = u then H.nw u else 0)).sum = H.nw u := by
    rw [sum_single hw.nodes_nodup (v := u)]
    · simp [hu]
    · intro v _ hv; simp [hv]
  have h2 : H.blockWeight s.part dst = (H.nodes.map (fun v => if s.part v = some dst then H.nw v else 0)).sum := by
    unfold HG.blockWeight
    induction H.nodes with
    | nil => rfl
    | cons a l ih =>
      by_cases hc : s.part a = some dst
      · simp [List.filter_cons, hc, ih]
      · simp [List.filter_cons, hc, ih]
  rw [h2]
  unfold extraSum
  rw [← h1, ← List.sum_map_add, ← List.sum_map_add]
  apply sum_le_of
  intro v hv
  have hn := hnw v hv
  have hok := hI.procOK v hv
  have hnr := hN v
  by_cases hvu : v = u
  · subst hvu
    simp [hi, extra, hp, hne]
  · simp only [hvu, if_false, Int.add_zero]
    cases hq : s.proc v with
    | idle => simp only [extra]; split <;> omega
    | accepted a d =>
      rw [hq] at hok
      obtain ⟨a1, a2, _⟩ := hok
      simp only [extra, a1, Option.some.injEq]
      split <;> split <;> omega
    | placed a d =>
      rw [hq] at hok
      obtain ⟨a1, a2, _⟩ := hok
      simp only [extra, a1, Option.some.injEq]
      split <;> split <;> omega
    | run a d t => simp only [extra]; split <;> omega
    | rejected d => exact absurd hq (hnr d)

/-- all limits are the maximum -/
def Unlimited (as : List Act) : Prop := ∀ u d l, Act.start u d l ∈ as → l = maxHNW

theorem noReject_step {L : C.Lawful m k mx} (hw : H.WF) (hnw : ∀ u ∈ H.nodes, 0 ≤ H.nw u)
    (htot : (H.nodes.map H.nw).sum ≤ maxHNW) {s s' : CSt σ} {a : Act} (ha : Unlimited [a])
    (hI : Inv L H s) (hW : WtInv H k s) (hN : NoReject s) (hst : CSt.step C H k o s a = some s') :
    NoReject s' ∧ (∀ u dst lim, a = .start u dst lim →
      recOf H s a = [{ node := u, src := s.part u, dst := dst }]) := by
  have hset : ∀ {u p}, (∀ d, p ≠ Proc.rejected d) → ∀ v d, s.setProc u p v ≠ .rejected d := by
    intro u p hp v d
    unfold setProc
    split_ifs
    · exact hp d
    · exact hN v d
  cases a with
  | start u dst lim =>
    have hl := ha u dst lim (by simp)
    obtain ⟨hu, hd, hidle, src, hp, hne, hc⟩ := start_cases hst
    rcases hc with ⟨h3, h4, h5⟩ | ⟨h3, h4, h5⟩
    · refine ⟨?_, ?_⟩
      · intro v d; rw [h4]; exact hset (by simp) v d
      · intro u' dst' lim' he; cases he; simp [recOf, h3]
    · exfalso
      rw [hl] at h3
      have := counter_le hw hnw hI hW hN hu hd hidle hp hne
      omega
  | tick u =>
    refine ⟨?_, by simp⟩
    have hstep := step_Step hst
    cases hstep <;> exact hset (by simp)
  | recompute u =>
    refine ⟨?_, by simp⟩
    have hstep := step_Step hst
    cases hstep
    exact hN

/-- moves started by a schedule, with the source block they start from -/
def startMoves (Φ : Assign) (as : List Act) : List FMMove :=
  as.filterMap (fun a => match a with | .start u dst _ => some { node := u, src := Φ u, dst := dst } | _ => none)

/-- nodes started by a schedule -/
def startNodes (as : List Act) : List Nat :=
  as.filterMap (fun a => match a with | .start u _ _ => some u | _ => none)

theorem recorded_unlimited {L : C.Lawful m k mx} (hw : H.WF) (hf : H.Fits m mx) (hnw : ∀ u ∈ H.nodes, 0 ≤ H.nw u)
    (htot : (H.nodes.map H.nw).sum ≤ maxHNW) (as : List Act) : ∀ {s s' : CSt σ}, Unlimited as →
    (startNodes as).Nodup → Inv L H s → WtInv H k s → NoReject s → CSt.exec C H k o s as = some s' →
    ∀ Φ : Assign, (∀ v, v ∈ startNodes as → s.eff v = Φ v) →
    recorded C H k o s as = startMoves Φ as ∧ NoReject s' := by
  induction as with
  | nil => intro s s' _ _ _ _ hN he Φ _; simp only [CSt.exec] at he; cases he; exact ⟨rfl, hN⟩
  | cons a as ih =>
    intro s s' hU hnd hI hW hN he Φ hΦ
    simp only [CSt.exec] at he
    cases hst : CSt.step C H k o s a with
    | none => rw [hst] at he; cases he
    | some s1 =>
      rw [hst] at he
      have hU1 : Unlimited [a] := fun u d l h => hU u d l (by simp at h; simp [h])
      obtain ⟨hN1, hrec⟩ := noReject_step hw hnw htot hU1 hI hW hN hst
      have hI1 := (hI.step hw hf (step_Step hst)).1
      have hW1 := hW.step hw hI (step_Step hst)
      have heff := eff_step hst
      have hU2 : Unlimited as := fun u d l h => hU u d l (by simp [h])
      cases a with
      | start u dst lim =>
        have hnd' : u ∉ startNodes as ∧ (startNodes as).Nodup := by
          have : startNodes (Act.start u dst lim :: as) = u :: startNodes as := rfl
          rw [this, List.nodup_cons] at hnd; exact hnd
        have hΦ' : ∀ v, v ∈ startNodes as → s1.eff v = Φ v := by
          intro v hv
          have hvu : v ≠ u := fun h => hnd'.1 (h ▸ hv)
          rw [heff, hrec u dst lim rfl, ← hΦ v (by show v ∈ u :: startNodes as; simp [hv])]
          exact applyMoves_other _ (fun m hm _ => by simp at hm; rw [hm]; exact fun h => hvu h.symm)
        obtain ⟨r1, r2⟩ := ih hU2 hnd'.2 hI1 hW1 hN1 he Φ hΦ'
        refine ⟨?_, r2⟩
        have hsrc : s.part u = Φ u := by
          rw [← hΦ u (by show u ∈ u :: startNodes as; simp)]
          have : s.proc u = .idle := (start_cases hst).2.2.1
          unfold CSt.eff; rw [this]
        rw [recorded_cons as hst, hrec u dst lim rfl, r1, hsrc]; rfl
      | tick u =>
        have hΦ' : ∀ v, v ∈ startNodes as → s1.eff v = Φ v := by
          intro v hv; rw [heff, ← hΦ v hv]; rfl
        obtain ⟨r1, r2⟩ := ih hU2 hnd hI1 hW1 hN1 he Φ hΦ'
        rw [recorded_cons as hst]
        exact ⟨r1, r2⟩
      | recompute u =>
        have hΦ' : ∀ v, v ∈ startNodes as → s1.eff v = Φ v := by
          intro v hv; rw [heff, ← hΦ v hv]; rfl
        obtain ⟨r1, r2⟩ := ih hU2 hnd hI1 hW1 hN1 he Φ hΦ'
        rw [recorded_cons as hst]
        exact ⟨r1, r2⟩

theorem exec_inv {L : C.Lawful m k mx} (hw : H.WF) (hf : H.Fits m mx) {as : List Act} {s s' : CSt σ}
    (hI : Inv L H s) (hW : WtInv H k s) (he : CSt.exec C H k o s as = some s') : Inv L H s' ∧ WtInv H k s' := by
  refine exec_ind (C := C) (o := o) (Q := fun s => Inv L H s ∧ WtInv H k s) ?_ as ⟨hI, hW⟩ he
  intro s a s' h hst
  exact ⟨(h.1.step hw hf hst).1, h.2.step hw h.1 hst⟩

theorem exec_cacheInv {L : C.Lawful m k mx} (hw : H.WF) (hf : H.Fits m mx) {as : List Act} {s s' : CSt σ}
    (hI : Inv L H s) (hC : CacheInv H k o s) (he : CSt.exec C H k o s as = some s') : CacheInv H k o s' := by
  refine (exec_ind (C := C) (o := o) (Q := fun s => Inv L H s ∧ CacheInv H k o s) ?_ as ⟨hI, hC⟩ he).2
  intro s a s' h hst
  exact ⟨(h.1.step hw hf hst).1, h.2.step hw hf h.1 hst⟩

theorem applyMoves_none {Φ : Assign} (ms : List FMMove) (v : Nat) (h : ∀ m ∈ ms, m.node ≠ v) :
    applyMoves Φ ms v = Φ v := applyMoves_other ms (fun m hm _ => h m hm)

/-- with distinct nodes, the final block of a moved node is its target -/
theorem applyMoves_distinct (ms : List FMMove) : ∀ {Φ : Assign}, (ms.map FMMove.node).Nodup →
    ∀ m ∈ ms, m.src ≠ none → applyMoves Φ ms m.node = some m.dst := by
  induction ms with
  | nil => intro Φ _ m hm; simp at hm
  | cons a l ih =>
    intro Φ hnd m hm hs
    rw [List.map_cons, List.nodup_cons] at hnd
    rw [applyMoves_cons]
    rcases List.mem_cons.1 hm with rfl | hm
    · rw [applyMoves_none l m.node (fun m' h' he => hnd.1 (List.mem_map.2 ⟨m', h', he⟩))]
      unfold FMMove.apply
      cases hsrc : m.src with
      | none => exact absurd hsrc hs
      | some b => simp [Assign.put]
    · exact ih hnd.2 m hm hs

/-- **Partition after an unlimited phase.** Every started node ends in the requested block, all others
stay. -/
theorem unlimited_result {L : C.Lawful m k mx} (hw : H.WF) (hf : H.Fits m mx) (hnw : ∀ u ∈ H.nodes, 0 ≤ H.nw u)
    (htot : (H.nodes.map H.nw).sum ≤ maxHNW) {as : List Act} {s s' : CSt σ} (hU : Unlimited as)
    (hnd : (startNodes as).Nodup) (hI : Inv L H s) (hW : WtInv H k s) (hq : s.quiescent H = true)
    (he : CSt.exec C H k o s as = some s') (hq' : s'.quiescent H = true) :
    (∀ u d l, Act.start u d l ∈ as → s'.part u = some d) ∧
    (∀ v, v ∉ startNodes as → s'.part v = s.part v) := by
  have hN : NoReject s := by
    intro v d hh
    by_cases hv : v ∈ H.nodes
    · rw [(quiescent_iff s).1 hq v hv] at hh; cases hh
    · rw [hI.outside v hv] at hh; cases hh
  obtain ⟨hI', _⟩ := exec_inv hw hf hI hW he
  have h1 := eff_exec as he
  rw [eff_quiescent hI hq, eff_quiescent hI' hq'] at h1
  have hr := (recorded_unlimited hw hf hnw htot as hU hnd hI hW hN he s.part
    (fun v _ => by rw [eff_quiescent hI hq])).1
  rw [hr] at h1
  have hnodes : ∀ as : List Act, (startMoves s.part as).map FMMove.node = startNodes as := by
    intro as
    induction as with
    | nil => rfl
    | cons a as ih =>
      cases a with
      | start u d l =>
        show u :: (startMoves s.part as).map FMMove.node = u :: startNodes as
        rw [ih]
      | tick u => exact ih
      | recompute u => exact ih
  constructor
  · intro u d l hmem
    have hm : ({ node := u, src := s.part u, dst := d } : FMMove) ∈ startMoves s.part as :=
      List.mem_filterMap.2 ⟨_, hmem, rfl⟩
    have hsrc : s.part u ≠ none := by
      have hu : u ∈ H.nodes := by
        by_contra hu
        -- a start of a node that is not enabled is impossible
        obtain ⟨l1, l2, rfl⟩ := List.append_of_mem hmem
        rw [exec_append] at he
        cases h2 : CSt.exec C H k o s l1 with
        | none => rw [h2] at he; cases he
        | some s1 =>
          rw [h2] at he
          simp only [Option.bind_some, CSt.exec, CSt.step, hu, false_and, if_false] at he
          cases he
      obtain ⟨b, _, hb⟩ := hI.assigned u hu
      rw [hb]; simp
    have := applyMoves_distinct (startMoves s.part as) (Φ := s.part) (by rw [hnodes]; exact hnd) _ hm hsrc
    rw [h1]; exact this
  · intro v hv
    rw [h1]
    refine applyMoves_none _ _ (fun m' hm' hh => hv ?_)
    rw [← hnodes as]
    exact List.mem_map.2 ⟨m', hm', hh⟩

end
end Rollback
end Verif
