import Verif.Lemmas.Rollback6
/-!
# Sequential rollback
-/
namespace Verif
open CSt Metrics
namespace Rollback
section
variable {σ : Type} {C : ConInfo σ} {H : HG} {m k mx : Nat} {o : Metrics.Obj}

theorem log_step {s s' : CSt σ} {a : Act} (h : Step C H k o s a s') : ∃ l, s'.log = s.log ++ l := by
  cases h
  case edge => exact ⟨_, rfl⟩
  all_goals exact ⟨[], by simp⟩

theorem log_exec {s s' : CSt σ} {as : List Act} (he : CSt.exec C H k o s as = some s') : ∃ l, s'.log = s.log ++ l := by
  refine exec_ind (C := C) (o := o) (Q := fun s' => ∃ l, s'.log = s.log ++ l) ?_ as ⟨[], by simp⟩ he
  rintro s1 a s2 ⟨l, hl⟩ hst
  obtain ⟨l', hl'⟩ := log_step hst
  exact ⟨l ++ l', by rw [hl', hl, List.append_assoc]⟩

/-- attributed gains of the updates of a phase between two quiescent states -/
theorem attr_exec {L : C.Lawful m k mx} (hw : H.WF) (hf : H.Fits m mx) {s s' : CSt σ} {as : List Act}
    (hI : Inv L H s) (hq : s.quiescent H = true) (he : CSt.exec C H k o s as = some s') (hq' : s'.quiescent H = true) :
    ((s'.log.drop s.log.length).map (attrGain o)).sum = H.objective s'.part o - H.objective s.part o := by
  have hview : ∀ {t : CSt σ}, t.quiescent H = true →
      (H.edges.map (fun e => H.term (t.view e) e o)).sum = H.objective t.part o := by
    intro t ht
    rw [objective_terms]
    have hv := view_quiescent ((quiescent_iff t).1 ht) hw
    exact congrArg List.sum (List.map_congr_left (fun e he => HG.term_congr (hv e he) o))
  have h0 : LogInv H o (H.objective s.part o - (s.log.map (attrGain o)).sum) s := by
    unfold LogInv; rw [hview hq]; omega
  have := exec_ind (C := C) (o := o)
    (Q := fun s' => Inv L H s' ∧ LogInv H o (H.objective s.part o - (s.log.map (attrGain o)).sum) s')
    (fun s a s' h hst => ⟨(h.1.step hw hf hst).1, h.2.step hw h.1 (h.1.step hw hf hst).2⟩) as ⟨hI, h0⟩ he
  have hl := this.2
  unfold LogInv at hl
  rw [hview hq'] at hl
  obtain ⟨l, hl'⟩ := log_exec he
  rw [hl', List.map_append, List.sum_append] at hl
  rw [hl', List.drop_left]
  omega

theorem countOver_congr {Wmax W W' : Nat → Int} (h : ∀ b < k, W b = W' b) :
    countOver k Wmax W = countOver k Wmax W' := by
  unfold countOver
  apply List.countP_congr
  intro b hb
  rw [h b (List.mem_range.1 hb)]

theorem over_step {Wmax X Y : Nat → Int} {src dst : Nat} {w : Int} (hsk : src < k) (hdk : dst < k) (hne : src ≠ dst)
    (hw : 0 ≤ w) (hY : ∀ b < k, Y b = addW (addW X src (-w)) dst w b) :
    (if (!decide (X dst > Wmax dst) && decide (Y dst > Wmax dst)) = true then
        (if (decide (X src > Wmax src) && decide (Y src ≤ Wmax src)) = true then countOver k Wmax X - 1
          else countOver k Wmax X) + 1
      else if (decide (X src > Wmax src) && decide (Y src ≤ Wmax src)) = true then countOver k Wmax X - 1
        else countOver k Wmax X) = countOver k Wmax Y := by
  rw [countOver_congr (Wmax := Wmax) hY]
  have c1 := countOver_addW k Wmax X src hsk (-w)
  have c2 := countOver_addW k Wmax (addW X src (-w)) dst hdk w
  have e1 : Y src = X src + -w := by rw [hY src hsk]; simp [addW, hne]
  have e2 : Y dst = X dst + w := by rw [hY dst hdk]; simp [addW, Ne.symm hne]
  have e3 : addW X src (-w) dst = X dst := by simp [addW, Ne.symm hne]
  rw [e1, e2]
  rw [e3] at c2
  simp only [Bool.and_eq_true, Bool.not_eq_true', decide_eq_false_iff_not, decide_eq_true_eq]
  generalize countOver k Wmax (addW (addW X src (-w)) dst w) = C2 at *
  generalize countOver k Wmax (addW X src (-w)) = C1 at *
  generalize countOver k Wmax X = C0 at *
  clear hY
  split_ifs at * <;> omega

/-- the prefixes of a move sequence -/
abbrev prefixOf (Φ : Assign) (ms : List FMMove) (i : Nat) : Assign := applyMoves Φ (ms.take i)

structure SeqInv (L : C.Lawful m k mx) (o : Obj) (Φ : Assign) (ms : List FMMove) (Wmax : Nat → Int) (n : Nat) (x : SeqSt σ) : Prop where
  inv : Inv L H x.st
  wt : WtInv H k x.st
  cache : CacheInv H k o x.st
  quiet : x.st.quiescent H = true
  part : x.st.part = prefixOf Φ ms n
  over : x.over = countOver k Wmax x.st.wt
  sum : x.sum = H.objective Φ o - H.objective (prefixOf Φ ms n) o
  le : x.best ≤ n
  bestGain : x.bestGain = H.objective Φ o - H.objective (prefixOf Φ ms x.best) o
  nonneg : 0 ≤ x.bestGain
  balanced : x.best = 0 ∨ ∀ b < k, H.blockWeight (prefixOf Φ ms x.best) b ≤ Wmax b
  best : ∀ i ≤ n, (i = 0 ∨ ∀ b < k, H.blockWeight (prefixOf Φ ms i) b ≤ Wmax b) →
    H.objective (prefixOf Φ ms x.best) o ≤ H.objective (prefixOf Φ ms i) o

/-- a segment that performs exactly the call for move `mv` -/
def SegFor (mv : FMMove) (seg : List Act) : Prop := startsOf seg = [Act.start mv.node mv.dst maxHNW]

set_option maxHeartbeats 800000 in
theorem SeqInv.step {L : C.Lawful m k mx} (hw : H.WF) (hf : H.Fits m mx) (hnw : ∀ u ∈ H.nodes, 0 ≤ H.nw u)
    (htot : (H.nodes.map H.nw).sum ≤ maxHNW) {Φ : Assign} {ms : List FMMove} (hv : ValidMoves H k Φ ms)
    {Wmax : Nat → Int} {segs : Nat → List Act} {n : Nat} {x x' : SeqSt σ} (hn : n < ms.length)
    (hseg : ∀ mv, ms[n]? = some mv → mv.src ≠ none → SegFor mv (segs n))
    (hx : SeqInv (H := H) L o Φ ms Wmax n x) (hs : seqIter C H k o Wmax ms segs x n = some x') :
    SeqInv (H := H) L o Φ ms Wmax (n + 1) x' := by
  obtain ⟨mv, hmv⟩ : ∃ mv, ms[n]? = some mv := ⟨_, List.getElem?_eq_getElem hn⟩
  unfold seqIter at hs
  rw [hmv] at hs
  simp only at hs
  cases hsrc : mv.src with
  | none =>
    rw [hsrc] at hs
    cases hs
    have e : prefixOf Φ ms (n + 1) = prefixOf Φ ms n := by
      unfold prefixOf
      rw [applyMoves_take_succ hmv]; unfold FMMove.apply; rw [hsrc]
    refine ⟨hx.inv, hx.wt, hx.cache, hx.quiet, by rw [e]; exact hx.part, hx.over, by rw [e]; exact hx.sum,
      by have := hx.le; omega, hx.bestGain, hx.nonneg, hx.balanced, ?_⟩
    intro i hi hb
    by_cases hin : i = n + 1
    · subst hin
      rw [e] at hb ⊢
      by_cases h0 : n = 0
      · exact hx.best n (Nat.le_refl _) (Or.inl h0)
      · rcases hb with hb | hb
        · omega
        · exact hx.best n (Nat.le_refl _) (Or.inr hb)
    · exact hx.best i (by omega) hb
  | some src =>
    rw [hsrc] at hs
    simp only at hs
    cases hex : CSt.exec C H k o x.st (segs n) with
    | none => rw [hex] at hs; cases hs
    | some s' =>
      rw [hex] at hs
      simp only at hs
      by_cases hq' : s'.quiescent H = true
      swap
      · rw [if_neg hq'] at hs; cases hs
      rw [if_pos hq'] at hs
      obtain ⟨hu, hsrcΦ, hsk, hdk, hne⟩ := hv.legal mv (List.mem_of_getElem? hmv) src hsrc
      have hstart := hseg mv hmv (by rw [hsrc]; simp)
      unfold SegFor at hstart
      have hmem : ∀ u d l, Act.start u d l ∈ segs n ↔ u = mv.node ∧ d = mv.dst ∧ l = maxHNW := by
        intro u d l
        have : Act.start u d l ∈ segs n ↔ Act.start u d l ∈ startsOf (segs n) := by
          unfold startsOf; rw [List.mem_filter]; simp
        rw [this, hstart]; simp
      have hnodes : startNodes (segs n) = [mv.node] := by
        rw [startNodes_startsOf, hstart]; rfl
      obtain ⟨i1, i2⟩ := exec_inv hw hf hx.inv hx.wt hex
      obtain ⟨r1, r2⟩ := unlimited_result hw hf hnw htot (fun u d l h => ((hmem u d l).1 h).2.2)
        (by rw [hnodes]; simp) hx.inv hx.wt hx.quiet hex hq'
      have hpart : s'.part = prefixOf Φ ms (n + 1) := by
        unfold prefixOf
        rw [applyMoves_take_succ hmv]
        unfold FMMove.apply
        rw [hsrc]
        funext v
        by_cases hvv : v = mv.node
        · subst hvv
          rw [r1 mv.node mv.dst maxHNW ((hmem _ _ _).2 ⟨rfl, rfl, rfl⟩)]
          simp [Assign.put]
        · rw [r2 v (by rw [hnodes]; simp [hvv]), hx.part]
          simp [Assign.put, hvv]
      have hsumeq : x.sum - ((s'.log.drop x.st.log.length).map (attrGain o)).sum =
          H.objective Φ o - H.objective (prefixOf Φ ms (n + 1)) o := by
        rw [attr_exec hw hf hx.inv hx.quiet hex hq', hx.sum, hpart, hx.part]; omega
      have hwt0 : ∀ b < k, x.st.wt b = H.blockWeight (prefixOf Φ ms n) b := by
        intro b hb
        rw [hx.wt b hb, extraSum_quiescent ((quiescent_iff _).1 hx.quiet), add_zero, hx.part]
      have hwt1 : ∀ b < k, s'.wt b = addW (addW x.st.wt src (-H.nw mv.node)) mv.dst (H.nw mv.node) b := by
        intro b hb
        rw [i2 b hb, extraSum_quiescent ((quiescent_iff _).1 hq'), add_zero, hpart]
        unfold prefixOf
        rw [applyMoves_take_succ hmv]
        unfold FMMove.apply
        rw [hsrc]
        simp only
        rw [HG.blockWeight_put hw.nodes_nodup hu, take_node hv hmv (by rw [hsrc]; simp), hsrcΦ]
        simp only [addW, Option.some.injEq]
        have := hwt0 b hb
        unfold prefixOf at this
        split_ifs <;> omega
      have hover := over_step (Wmax := Wmax) hsk hdk hne (hnw _ hu) hwt1
      rw [← hx.over] at hover
      have hbalsem : countOver k Wmax s'.wt = 0 ↔ ∀ b < k, H.blockWeight (prefixOf Φ ms (n + 1)) b ≤ Wmax b := by
        rw [countOver_zero]
        constructor
        · intro h b hb
          have := h b hb
          rw [i2 b hb, extraSum_quiescent ((quiescent_iff _).1 hq'), add_zero, hpart] at this
          exact this
        · intro h b hb
          rw [i2 b hb, extraSum_quiescent ((quiescent_iff _).1 hq'), add_zero, hpart]
          exact h b hb
      have hcache := exec_cacheInv hw hf hx.inv hx.cache hex
      rw [hover, hsumeq] at hs
      have hle := hx.le
      have hbg := hx.bestGain
      have hnn := hx.nonneg
      split_ifs at hs with hc
      · simp only [Bool.and_eq_true, beq_iff_eq, decide_eq_true_eq] at hc
        cases hs
        refine ⟨i1, i2, hcache, hq', hpart, rfl, rfl, Nat.le_refl _, rfl, by simp only; omega,
          Or.inr (hbalsem.1 hc.1), ?_⟩
        intro i hi hb
        by_cases hin : i = n + 1
        · subst hin; exact Int.le_refl _
        · have := hx.best i (by omega) hb
          simp only; omega
      · simp only [Bool.and_eq_true, beq_iff_eq, decide_eq_true_eq, not_and] at hc
        cases hs
        refine ⟨i1, i2, hcache, hq', hpart, rfl, rfl, by simp only; omega, hbg, hnn, hx.balanced, ?_⟩
        intro i hi hb
        by_cases hin : i = n + 1
        · subst hin
          have hb' : ∀ b < k, H.blockWeight (prefixOf Φ ms (n + 1)) b ≤ Wmax b := by
            rcases hb with hb | hb
            · omega
            · exact hb
          have := hc (hbalsem.2 hb')
          simp only; omega
        · exact hx.best i (by omega) hb

theorem seqForward_inv {L : C.Lawful m k mx} (hw : H.WF) (hf : H.Fits m mx) (hnw : ∀ u ∈ H.nodes, 0 ≤ H.nw u)
    (htot : (H.nodes.map H.nw).sum ≤ maxHNW) {Φ : Assign} {ms : List FMMove} (hv : ValidMoves H k Φ ms)
    {Wmax : Nat → Int} {segs : Nat → List Act} {s : CSt σ} (hI : Inv L H s) (hW : WtInv H k s)
    (hC : CacheInv H k o s) (hq : s.quiescent H = true) (hp : s.part = Φ)
    (hseg : ∀ i mv, ms[i]? = some mv → mv.src ≠ none → SegFor mv (segs i)) (n : Nat) : n ≤ ms.length → ∀ {x : SeqSt σ},
    seqForward C H k o Wmax ms segs s n = some x → SeqInv (H := H) L o Φ ms Wmax n x := by
  induction n with
  | zero =>
    intro _ x hx
    simp only [seqForward, Option.some.injEq] at hx
    subst hx
    refine ⟨hI, hW, hC, hq, by simp [prefixOf, applyMoves, hp], rfl, by simp [prefixOf, applyMoves], Nat.le_refl _,
      by simp [prefixOf, applyMoves], Int.le_refl _, Or.inl rfl, ?_⟩
    intro i hi _
    have : i = 0 := by omega
    subst this; exact Int.le_refl _
  | succ n ih =>
    intro hn x hx
    simp only [seqForward] at hx
    cases h1 : seqForward C H k o Wmax ms segs s n with
    | none => rw [h1] at hx; cases hx
    | some y =>
      rw [h1] at hx
      exact (ih (by omega) h1).step hw hf hnw htot hv (by omega) (hseg n) hx

/-- nodes that are not in the sequence do not become "moved" during the roll-forward -/
theorem seqForward_moved {Wmax : Nat → Int} {ms : List FMMove} {segs : Nat → List Act} {s : CSt σ}
    (hseg : ∀ i mv, ms[i]? = some mv → mv.src ≠ none → SegFor mv (segs i)) {v : Nat} (hv : ∀ mv ∈ ms, mv.node ≠ v)
    (h0 : s.moved v = false) (n : Nat) : ∀ {x : SeqSt σ}, seqForward C H k o Wmax ms segs s n = some x → x.st.moved v = false := by
  induction n with
  | zero => intro x hx; simp only [seqForward, Option.some.injEq] at hx; subst hx; exact h0
  | succ n ih =>
    intro x hx
    simp only [seqForward] at hx
    cases h1 : seqForward C H k o Wmax ms segs s n with
    | none => rw [h1] at hx; cases hx
    | some y =>
      rw [h1] at hx
      have hy := ih h1
      simp only [Option.bind_some] at hx
      unfold seqIter at hx
      cases hmv : ms[n]? with
      | none => rw [hmv] at hx; cases hx; exact hy
      | some mv =>
        rw [hmv] at hx
        simp only at hx
        cases hsrc : mv.src with
        | none => rw [hsrc] at hx; cases hx; exact hy
        | some src =>
          rw [hsrc] at hx
          simp only at hx
          cases hex : CSt.exec C H k o y.st (segs n) with
          | none => rw [hex] at hx; cases hx
          | some s' =>
            rw [hex] at hx
            simp only at hx
            have hs' : s'.moved v = false := by
              refine moved_exec ?_ hy hex
              have := hseg n mv hmv (by rw [hsrc]; simp)
              unfold SegFor at this
              rw [startNodes_startsOf, this]
              intro hh
              simp [startNodes] at hh
              exact hv mv (List.mem_of_getElem? hmv) hh.symm
            split_ifs at hx <;> (cases hx; exact hs')

end
end Rollback
end Verif
