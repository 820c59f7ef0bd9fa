import Verif.Lemmas.RB5
/-! Recursive bipartitioning: both tasks and the recursion. -/
namespace Verif
namespace RBip
open SMap (wr)
open Extract PHG HG

section
variable {σ : Type} {F : Fam σ} (FL : FamLaw F) {env : RBEnv} {pol : Policy} {H : SHG} {k : Nat} {old : Nat → Bool} {fx : Nat → Option Nat}

theorem cutFlags_spec (hG : Good H) (hk : 2 ≤ k) {β : Nat → Nat} {P : PHG σ} (hP : Sim (FL.law H.m k (max H.maxEdgeSize 1)) H.toHG P (phi0 H k β)) :
    pol.mult ≠ 1 → ∀ e ∈ H.edges, ∃ q, cutFlags F.C pol H P old = some q ∧ q e = oldNext H β old e := by
  intro hm e he
  have he' := List.mem_filter.1 he
  have hmm : H.m ≠ 0 := by have := List.mem_range.1 he'.1; omega
  unfold cutFlags
  rw [if_pos ⟨hm, hmm⟩]
  refine ⟨_, rfl, ?_⟩
  unfold oldNext
  have h1 := (hP.connSet_lam hG.fits he).1
  rw [h1, phi0_lam hG.ok.wf hk he, he'.2, Bool.true_and]

theorem visited_nil (Φ : Assign) (blk : Bool → Nat) (sub : Bool → Nat → Nat) (tk : Nat → Bool) : visited Φ blk sub tk [] = Φ := by
  funext v; unfold visited; simp

theorem single_rb (hk : 2 ≤ k) {t : Bool} (h1 : ktOf k t = 1) (β : Nat → Nat) (o : Nat → Bool) :
    RB pol.split pol.mult (ktOf k t) (H.toHG.restrict (side (tsk β)) t.toNat pol.split) o (fun _ => 0) 0 := by
  rw [h1]; exact .one (fun _ _ => rfl)

theorem single_fix (hG : Good H) (hk : 2 ≤ k) {t : Bool} (h1 : ktOf k t = 1) (path : List Bool) {β : Nat → Nat}
    (hβ : β = env.ml path (adapt H pol.mult old false) (fixBip H k fx)) (hR : env.Respects) (hF : FixOk H k fx) {v : Nat} (hv : v ∈ H.nodes)
    (ht : tsk β v = t) {d : Nat} (hd : fx v = some d) : blkOf k t + 0 = d := by
  have h := fixed_side hG.ok hR hF path hβ hv hd
  have hdk := (hF v hv d hd).1
  rw [ht] at h
  unfold ktOf at h1
  unfold blkOf
  cases t <;> simp at h h1 ⊢ <;> omega

theorem step_spec (hl : env.Legal) (hG : Good H) (hk : 2 ≤ k) (path : List Bool) {β : Nat → Nat}
    (hβ : β = env.ml path (adapt H pol.mult old false) (fixBip H k fx))
    {rec : List Bool → SHG → Nat → (Nat → Bool) → (Nat → Option Nat) → Option (PHG σ × Int)}
    (hrec : ∀ p H' k' old' fx', 2 ≤ k' → k' < k → Good H' → ∃ r, rec p H' k' old' fx' = some r ∧ Res FL env pol H' k' old' fx' r) :
    ∃ r, runTasks F env pol rec path H k fx (cutFlags F.C pol H (applied F env path H k β) old) (applied F env path H k β) = some r ∧
      Res FL env pol H k old fx (r.1, (adapt H pol.mult old false).toHG.cut (fun v => some (β v)) + r.2) := by
  have hw := hG.ok.wf
  have hP := base_sim FL hl hG hk path β (F := F)
  have hβ2 : ∀ v ∈ H.nodes, β v < 2 := by
    intro v hv
    rw [hβ]
    exact hl.ml _ _ _ v (by rw [(adapt_spec H (mult := pol.mult) old).1]; exact hv)
  have hcut := cutFlags_spec FL (pol := pol) (old := old) hG hk hP
  have hphi : ∀ v ∈ H.nodes, phi0 H k β v = some (blkOf k (tsk β v)) := fun v hv => phi0_eq hv
  generalize hcf : cutFlags F.C pol H (applied F env path H k β) old = cut at *
  generalize applied F env path H k β = P at *
  unfold runTasks
  dsimp only
  have hvis := hl.visits path H
  have hvn := visits_nodup hw.nodes_nodup hvis
  have hvm := visits_mem hvis
  generalize env.visits path H = visits at *
  have hvmem : ∀ x ∈ visits, x.2 ∈ H.nodes := fun x hx => (hvm x.1 x.2).1 hx
  -- task that extracts before any visit
  have first : ∀ t, 2 ≤ ktOf k t → _ := fun t hkt => task_spec FL (pol := pol) (old := old) (fx := fx) hl hG hk path hβ hkt
    (fun H' old' fx' hG' => hrec (path ++ [t]) H' (ktOf k t) old' fx' hkt (by unfold ktOf; cases t <;> simp <;> omega) hG')
    (st := fun _ => P) (Φs := fun _ => phi0 H k β) (fun _ => hP) (fun _ v hv => by rw [hphi v hv]; simp) (fun _ _ _ => Iff.rfl) hcut
  by_cases hboth : 2 ≤ k / 2 + k % 2 ∧ 2 ≤ k / 2
  · rw [if_pos hboth]
    have hkt : ∀ t, 2 ≤ ktOf k t := by intro t; unfold ktOf; cases t <;> simp <;> omega
    generalize hht : (visits.head?.map (·.1)).getD false = t
    obtain ⟨s0, e0, a1, a2, a3⟩ := first t (hkt t)
    rw [e0]
    simp only [Option.bind_some]
    -- second task
    let Φs : Nat → Assign := fun j => visited (phi0 H k β) (blkOf k) (fun _ => s0.1) (tsk β) ((visits.takeWhile (fun x => x.1 == t)).take j)
    have hpre : ∀ j, ∀ x ∈ (visits.takeWhile (fun x => x.1 == t)).take j, x ∈ visits ∧ x.1 = t := by
      intro j x hx
      have h1 := List.mem_of_mem_take hx
      refine ⟨(List.takeWhile_sublist _).subset h1, ?_⟩
      simpa using (List.all_eq_true.1 (List.all_takeWhile (p := fun x : Bool × Nat => x.1 == t) (l := visits))) x h1
    have hS1 : ∀ j, Sim (FL.law H.m k (max H.maxEdgeSize 1)) H.toHG
        (((visits.takeWhile (fun x => x.1 == t)).take j).foldl (visit F.C H (blkOf k) (fun _ => s0.1)) P) (Φs j) := by
      intro j
      have := visits_spec (L := FL.law H.m k (max H.maxEdgeSize 1)) hG.ok hG.fits hphi (sub := fun _ => s0.1) (blk_ne hk)
        ((visits.takeWhile (fun x => x.1 == t)).take j) [] P (fun x hx => hvmem x (hpre j x hx).1)
        (hvn.sublist ((List.take_sublist _ _).trans (List.takeWhile_sublist _)))
        (fun x hx hxt => by
          have hx' := hpre j x hx
          have := lt_range hk x.1 (x := s0.1 x.2) (by rw [hx'.2]; exact a2 x.2 (hvmem x hx'.1) (by rw [← hxt, hx'.2]))
          exact this) (by rw [visited_nil]; exact hP)
      simpa using this
    have hall1 : ∀ j, ∀ v ∈ H.nodes, Φs j v ≠ none := by
      intro j v hv
      show visited _ _ _ _ _ v ≠ none
      unfold visited
      split
      · simp
      · rw [hphi v hv]; simp
    have hinv1 : ∀ j, ∀ v ∈ H.nodes, (Φs j v = some (blkOf k (!t)) ↔ phi0 H k β v = some (blkOf k (!t))) := by
      intro j v hv
      show visited _ _ _ _ _ v = _ ↔ _
      unfold visited
      split
      · rename_i hm
        have hm' := hpre j _ hm
        have ht : tsk β v = t := hm'.2
        have h1 := lt_range hk t (a2 v hv ht)
        rw [hphi v hv, ht]
        constructor
        · intro h; exact absurd (Option.some.inj h) (h1.2 _ (by cases t <;> simp))
        · intro h; exact absurd (Option.some.inj h) (blk_ne hk _ _ (by cases t <;> simp))
      · exact Iff.rfl
    obtain ⟨s1, e1, b1, b2, b3⟩ := task_spec FL (pol := pol) (old := old) (fx := fx) hl hG hk path hβ (hkt (!t))
      (fun H' old' fx' hG' => hrec (path ++ [!t]) H' (ktOf k (!t)) old' fx' (hkt (!t)) (by unfold ktOf; cases t <;> simp <;> omega) hG')
      hS1 hall1 hinv1 hcut
    rw [e1]
    simp only [Option.bind_some]
    refine ⟨_, rfl, ?_⟩
    let n : Bool → Nat → Nat := fun t' => if t' = t then s0.1 else s1.1
    have hnt : ∀ v ∈ H.nodes, n (tsk β v) v < ktOf k (tsk β v) := by
      intro v hv
      by_cases h : tsk β v = t
      · show (if tsk β v = t then s0.1 else s1.1) v < _
        rw [if_pos h, h]; exact a2 v hv h
      · have h' : tsk β v = !t := by revert h; cases tsk β v <;> cases t <;> simp
        show (if tsk β v = t then s0.1 else s1.1) v < _
        rw [if_neg h, h']; exact b2 v hv h'
    have hfin := visits_spec (L := FL.law H.m k (max H.maxEdgeSize 1)) hG.ok hG.fits hphi (sub := n) (blk_ne hk) visits [] P hvmem hvn
      (fun x hx hxt => by
        have h1 := hnt x.2 (hvmem x hx)
        rw [← hxt] at h1
        exact lt_range hk x.1 h1) (by rw [visited_nil]; exact hP)
    rw [List.nil_append] at hfin
    have hpart := hfin.part
    have hpart' : ∀ v ∈ H.nodes, (visits.foldl (visit F.C H (blkOf k) n) P).part v = some (blkOf k (tsk β v) + n (tsk β v) v) := by
      intro v hv
      rw [hpart]
      unfold visited
      rw [if_pos ((hvm _ _).2 hv)]
    rw [← hpart] at hfin
    refine assemble FL (env := env) (pol := pol) (old := old) (fx := fx) hw hk hβ2 (n := n) (c := fun t' => if t' = t then s0.2 else s1.2) hfin hpart' ?_ ?_ ?_
    · intro t' o ho
      by_cases h : t' = t
      · subst h
        have e : n t' = s0.1 := if_pos rfl
        rw [e]; simp only [if_true]; exact a1 o ho
      · have h' : t' = !t := by revert h; cases t' <;> cases t <;> simp
        have e : n t' = s1.1 := if_neg h
        rw [e]; simp only [h, if_false]
        subst h'
        exact b1 o ho
    · intro hR hF v hv d hd
      by_cases h : tsk β v = t
      · have e : n (tsk β v) = s0.1 := if_pos h
        rw [e, h]; exact a3 hR hF v hv h d hd
      · have h' : tsk β v = !t := by revert h; cases tsk β v <;> cases t <;> simp
        have e : n (tsk β v) = s1.1 := if_neg h
        rw [e, h']; exact b3 hR hF v hv h' d hd
    · cases t <;> simp <;> ring
  · rw [if_neg hboth]
    have hk1 : ktOf k true = 1 := by unfold ktOf; simp; omega
    by_cases hone : 2 ≤ k / 2 + k % 2
    · rw [if_pos hone]
      have hkt : 2 ≤ ktOf k false := by unfold ktOf; simp; omega
      obtain ⟨s0, e0, a1, a2, a3⟩ := first false hkt
      rw [e0]
      simp only [Option.bind_some]
      refine ⟨_, rfl, ?_⟩
      have hfm : ∀ x ∈ visits.filter (fun x => x.1 == false), x ∈ visits ∧ x.1 = false := by
        intro x hx
        have := List.mem_filter.1 hx
        exact ⟨this.1, by simpa using this.2⟩
      have hfin := visits_spec (L := FL.law H.m k (max H.maxEdgeSize 1)) hG.ok hG.fits hphi (sub := fun _ => s0.1) (blk_ne hk)
        (visits.filter (fun x => x.1 == false)) [] P (fun x hx => hvmem x (hfm x hx).1) (hvn.filter _)
        (fun x hx hxt => by
          have hx' := hfm x hx
          exact lt_range hk x.1 (x := s0.1 x.2) (by rw [hx'.2]; exact a2 x.2 (hvmem x hx'.1) (by rw [← hxt, hx'.2]))) (by rw [visited_nil]; exact hP)
      rw [List.nil_append] at hfin
      have hpart := hfin.part
      let n : Bool → Nat → Nat := fun t' => if t' = true then fun _ => 0 else s0.1
      have hpart' : ∀ v ∈ H.nodes, ((visits.filter (fun x => x.1 == false)).foldl (visit F.C H (blkOf k) (fun _ => s0.1)) P).part v =
          some (blkOf k (tsk β v) + n (tsk β v) v) := by
        intro v hv
        rw [hpart]
        unfold visited
        cases ht : tsk β v with
        | false =>
          rw [if_pos (List.mem_filter.2 ⟨(hvm _ _).2 hv, by simp⟩)]
          rfl
        | true =>
          rw [if_neg (fun h => by have := (hfm _ h).2; simp at this), hphi v hv, ht]
          rfl
      rw [← hpart] at hfin
      refine assemble FL (env := env) (pol := pol) (old := old) (fx := fx) hw hk hβ2 (n := n) (c := fun t' => if t' = true then 0 else s0.2) hfin hpart' ?_ ?_ ?_
      · intro t' o ho
        cases t' with
        | false => exact a1 o ho
        | true => exact single_rb hk hk1 β o
      · intro hR hF v hv d hd
        cases ht : tsk β v with
        | false => exact a3 hR hF v hv ht d hd
        | true => exact single_fix hG hk hk1 path hβ hR hF hv ht hd
      · simp
    · rw [if_neg hone]
      refine ⟨_, rfl, ?_⟩
      have hk0 : ktOf k false = 1 := by unfold ktOf; simp; omega
      have hkt : ∀ t, ktOf k t = 1 := by intro t; cases t; exact hk0; exact hk1
      have hpart := hP.part
      have hpart' : ∀ v ∈ H.nodes, P.part v = some (blkOf k (tsk β v) + (fun _ : Bool => fun _ : Nat => 0) (tsk β v) v) := by
        intro v hv; rw [hpart]; exact hphi v hv
      have hP' := hP
      rw [← hpart] at hP'
      refine assemble FL (env := env) (pol := pol) (old := old) (fx := fx) hw hk hβ2 (n := fun _ _ => 0) (c := fun _ => 0) hP' hpart' ?_ ?_ ?_
      · intro t' o ho; exact single_rb hk (hkt t') β o
      · intro hR hF v hv d hd
        exact single_fix hG hk (hkt _) path hβ hR hF hv rfl hd
      · simp

/-- the recursion always succeeds -/
theorem recBip_spec (hl : env.Legal) : ∀ fuel path H k old fx, 2 ≤ k → k ≤ fuel → Good H →
    ∃ r, recBip F env pol fuel path H k old fx = some r ∧ Res FL env pol H k old fx r := by
  intro fuel
  induction fuel with
  | zero => intro path H k old fx hk hf; omega
  | succ fuel ih =>
    intro path H k old fx hk hf hG
    show ∃ r, bipStep F env pol (recBip F env pol fuel) path H k old fx = some r ∧ _
    unfold bipStep
    split
    · dsimp only
      rw [adapt_adapt H (mult_ne_zero pol) old]
      obtain ⟨r, h1, h2⟩ := step_spec FL (pol := pol) (old := old) (fx := fx) hl hG hk path rfl (rec := recBip F env pol fuel)
        (fun p H' k' old' fx' h1 h2 h3 => ih p H' k' old' fx' h1 (by omega) h3)
      rw [h1]
      exact ⟨_, rfl, h2⟩
    · rename_i hn
      have hnodes : H.nodes = [] := by
        unfold SHG.nodes
        have : H.n = 0 := by omega
        rw [this]; rfl
      have hR : (FL.law H.m k (max H.maxEdgeSize 1)).R (F.fresh H k).con (fun _ _ => 0) :=
        FL.init _ _ _ (by omega) (by omega) (by have := hG.small; omega)
      refine ⟨_, rfl, PHG.sim_init hR, ?_, ?_, ?_⟩
      · intro v hv; rw [hnodes] at hv; exact absurd hv (by simp)
      · intro oldS _
        exact RB_empty _ _ _ _ _ _ (by omega) hG.ok.wf hnodes
      · intro _ _ v hv; rw [hnodes] at hv; exact absurd hv (by simp)

end
end RBip
end Verif
