import Verif.Lemmas.Dyn29
/-!
# Removed nets in the history, and the objective function
-/
namespace Verif
namespace Dyn
open SMap (wr)

variable {s0 : DH} {mx : Int} {s s' : St} {G : Gh}

/-- a step of a thread does not change the clusters of the versions before -/
theorem Inv.resp_step (hI : Inv s0 mx s G) {i : Nat} (h : TStep mx i s s') {k : Nat} (hk : k < s.h.V) {ρ : Nat → Nat} (hρ : Resp s'.h.par s'.h.ver k ρ) :
    Resp s.h.par s.h.ver k ρ := by
  have hun : ∀ {u v : Nat}, s.h.en v = true → s.h.par v = u → u ≠ v → s.h.ver v = s.h.V := by
    intro u v ev hp hne
    refine (hI.p.unf v (by rw [hp]; exact hne) ?_).2
    rw [bool_false_iff]; intro hfin
    have := (hI.p.finD v hfin).1
    rw [ev] at this; cases this
  have hfail : ∀ {u v : Nat}, s.h.en v = true → s.h.par v = u → u ≠ v → Resp (wr s.h.par v v) (wr s.h.ver v kInvVer) k ρ → Resp s.h.par s.h.ver k ρ := by
    intro u v ev hp hne hρ x hx hxk
    have hxv : x ≠ v := by
      rintro rfl
      have := hun ev hp hne
      omega
    have := hρ x (by rw [wr_other _ _ hxv]; exact hx) (by rw [wr_other _ _ hxv]; exact hxk)
    rwa [wr_other _ _ hxv] at this
  cases h with
  | register w v hi hw hv hwv ew ev hp hr =>
    intro x hx hxk
    have hxv : x ≠ v := by rintro rfl; exact hx hp
    have := hρ x (by show wr s.h.par v w x ≠ x; rw [wr_other _ _ hxv]; exact hx) (by show wr s.h.ver v s.h.V x ≤ k; rw [wr_other _ _ hxv]; exact hxk)
    change ρ (wr s.h.par v w x) = ρ x at this
    rwa [wr_other _ _ hxv] at this
  | tooHeavy u v hi ev hp hw =>
    have := hI.thr i
    rw [hi] at this
    exact hfail ev hp this.2.2.1 hρ
  | refused u v hi ev hp h0 hw =>
    have := hI.thr i
    rw [hi] at this
    exact hfail ev hp this.2.2.1 hρ
  | _ => exact hρ

theorem TStep.same_past {i : Nat} (h : TStep mx i s s') : s'.h.V = s.h.V ∧ s'.h.removed = s.h.removed ∧ s'.h.een = s.h.een := by
  cases h <;> exact ⟨rfl, rfl, rfl⟩

theorem past_reach (hc : Clean s0) {ref : Nat → Nat → Bool} (h : Steps mx ⟨s0, fun _ => .idle, ref⟩ s) :
    PastOK s0 s.h.par s.h.ver s.h.V s.h.removed s.h.een := by
  induction h with
  | refl =>
    show PastOK s0 s0.par s0.ver s0.V s0.removed s0.een
    rw [hc.V, hc.removed]; trivial
  | tail s1 s2 h h' ih =>
    obtain ⟨G, hI⟩ := Inv.reach hc h
    cases h' with
    | thread i _ _ h' =>
      obtain ⟨e1, e2, e3⟩ := h'.same_past
      rw [e1, e2, e3]
      exact ih.congr (fun k hk ρ hρ => hI.resp_step h' hk hρ)
    | remove _ R ord h' hi ha hR ho hs =>
      have hf : ∀ v, s1.h.par v ≠ v → G.fin v = true := fun v hv => hI.all_fin hi ha hv
      have hC := hI.contracted hc hf
      unfold DH.removeNetsStep at hs
      split at hs
      · cases hs
      injection hs with hs
      subst hs
      have hverV : ∀ v, s1.h.par v ≠ v → s1.h.ver v ≤ s1.h.V := fun v hv => hI.ver_V hf hv
      have himg : ∀ e, e < s1.h.m → s1.h.een e = true → ∀ ρ, Resp s1.h.par s1.h.ver s1.h.V ρ → ((s1.h.edgePins e).map ρ).toFinset = img s0 ρ e := by
        intro e hm he ρ hρ
        refine hC.img (fun v hv => ha v (by rw [hI.t.nEq]; exact hv.1)) ?_ ?_ ?_ (by rw [← hI.t.mEq]; exact hm) he ((hI.n.enabled e).1 he).1
        · intro v
          by_cases hp : s1.h.par v = v
          · rw [hp]
          · exact hρ v hp (hverV v hp)
        · intro v hv
          by_cases hp : s1.h.par v = v
          · rw [hp]; exact hv
          · exact (hI.p.root v hp).2
        · intro e hu v hv
          exact hc.pins e hu v (List.mem_of_mem_take hv)
      show PastOK s0 s1.h.par s1.h.ver (s1.h.V + 1) (R :: s1.h.removed) (fun e => s1.h.een e && !(R.map Prod.fst).contains e)
      have hback : (fun e => (s1.h.een e && !(R.map Prod.fst).contains e) || (R.map Prod.fst).contains e) = s1.h.een := by
        funext e
        by_cases he : (R.map Prod.fst).contains e = true
        · have : s1.h.een e = true := by
            rw [List.contains_iff_mem, List.mem_map] at he
            obtain ⟨p, hp, rfl⟩ := he
            exact (hR.enabled p hp).2
          rw [he, this]; rfl
        · rw [Bool.not_eq_true] at he
          rw [he]; simp
      refine ⟨hR.nodup, ?_, ?_, ?_, ?_⟩
      · intro p hp
        refine ⟨by rw [← hI.t.mEq]; exact (hR.enabled p hp).1, ?_⟩
        have : (R.map Prod.fst).contains p.1 = true := List.contains_iff_mem.2 (List.mem_map.2 ⟨p, hp, rfl⟩)
        show (s1.h.een p.1 && !(R.map Prod.fst).contains p.1) = false
        rw [this]; simp
      · intro e he ρ hρ
        obtain ⟨g1, g2, g3⟩ := (hR.single e).1 he
        rw [← himg e g1 g2 ρ hρ]
        refine Nat.le_trans (List.toFinset_card_le _) ?_
        rw [List.length_map]
        unfold DH.edgePins
        rw [List.length_take]; omega
      · intro e r he
        obtain ⟨g1, g2, g3, g4⟩ := hR.parallel e r he
        have hee := hR.enabled _ he
        refine ⟨by rw [← hI.t.mEq]; exact g1, ?_, ?_⟩
        · have : (R.map Prod.fst).contains r = false := by
            rw [bool_false_iff, List.contains_iff_mem]; exact g3
          show (s1.h.een r && !(R.map Prod.fst).contains r) = true
          rw [this, g2]; rfl
        · intro ρ hρ
          rw [← himg e hee.1 hee.2 ρ hρ, ← himg r g1 g2 ρ hρ]
          exact List.toFinset_eq_of_perm _ _ (g4.map ρ)
      · rw [hback]; exact ih

/-! ### uncontraction -/

theorem UStep.same_past {b : List (Nat × Nat)} {x y : USt} (h : UStep b x y) : y.h.removed = x.h.removed ∧ y.h.een = x.h.een := by
  cases h <;> exact ⟨rfl, rfl⟩

theorem USteps.same_past {b : List (Nat × Nat)} {x y : USt} (h : USteps b x y) : y.h.removed = x.h.removed ∧ y.h.een = x.h.een := by
  induction h with
  | refl => exact ⟨rfl, rfl⟩
  | tail y z h h' ih => obtain ⟨h1, h2⟩ := h'.same_past; exact ⟨h1.trans ih.1, h2.trans ih.2⟩

variable {par ver bi : Nat → Nat} {L : List (List (List (Nat × Nat)))}

theorem past_unc {x y : List (List (List (Nat × Nat))) × DH} (h : UncSteps x y)
    (hx : PastOK s0 par ver (x.1.length - 1) x.2.removed x.2.een) : PastOK s0 par ver (y.1.length - 1) y.2.removed y.2.een := by
  induction h with
  | refl => exact hx
  | tail y z h h' ih =>
    cases h' with
    | batch L' B b s1 s2 hu =>
      obtain ⟨tk, flag, hs, _⟩ := hu
      obtain ⟨e1, e2⟩ := hs.same_past
      have e1 : s2.removed = s1.removed := e1
      have e2 : s2.een = s1.een := e2
      show PastOK s0 par ver ((L' ++ [B]).length - 1) s2.removed s2.een
      rw [e1, e2]
      simpa using ih
    | nets L' B s1 s2 R rest ord hr ho hs =>
      unfold DH.restoreNetsStep at hs
      split at hs
      · cases hs
      injection hs with hs
      subst hs
      have ih' : PastOK s0 par ver (L'.length + 1) (R :: rest) s1.een := by
        rw [← hr]; simpa using ih
      have := ih'.2.2.2.2
      simpa using this

theorem BInv.rest_acyclic {V c : Nat} {h : DH} {U : UG} (hS : Stat s0 par ver bi G) (hI : BInv s0 par ver bi G V c h U) (v : Nat) :
    ∃ i, restPar par U.mg ((restPar par U.mg)^[i] v) = (restPar par U.mg)^[i] v := by
  have key : ∀ (d v : Nat), c - bi v = d → ∃ i, restPar par U.mg ((restPar par U.mg)^[i] v) = (restPar par U.mg)^[i] v := by
    intro d
    induction d using Nat.strong_induction_on with
    | _ d ih =>
      intro v hd
      by_cases hm : U.mg v = true
      · obtain ⟨h1, h2⟩ := (hI.mg_iff v).1 hm
        by_cases hm' : U.mg (par v) = true
        · obtain ⟨h3, h4⟩ := (hI.mg_iff (par v)).1 hm'
          have := hS.up v h1 h3
          obtain ⟨i, hi⟩ := ih (c - bi (par v)) (by omega) (par v) rfl
          exact ⟨i + 1, by rw [Function.iterate_succ_apply, restPar_mg hm]; exact hi⟩
        · exact ⟨1, by rw [Function.iterate_one, restPar_mg hm, restPar_root (by simpa using hm')]⟩
      · exact ⟨0, by rw [Function.iterate_zero, id_eq, restPar_root (by simpa using hm)]⟩
  exact key _ v rfl

/-- the objective function has the same value on the current and on the original hypergraph -/
theorem UncInv.objective (hc : Clean s0) (hS : Stat s0 par ver bi G) (hT : SchedOK par ver bi L) {L1 : List (List (List (Nat × Nat)))} {B : List (List (Nat × Nat))}
    {h : DH} {U : UG} (hI : UncInv s0 par ver bi G L L1 B h U) (hp : PastOK s0 par ver L1.length h.removed h.een)
    (ρ : Nat → Nat) (hρ : ∀ v, ρ (mementoPar (L1 ++ [B]) v) = ρ v)
    (f : Finset Nat → Int) (hf : ∀ S : Finset Nat, S.card ≤ 1 → f S = 0) : netSum h ρ f = netSum s0 ρ f := by
  classical
  have hC := hI.contracted hc hS hT
  rw [hI.memento hT] at hC hρ
  have hB := hI.inv
  have hpins : ∀ e, s0.used e → ∀ v ∈ s0.edgePins e, s0.live v := fun e hu v hv => hc.pins e hu v (List.mem_of_mem_take hv)
  have hresp : ∀ k < L1.length, Resp par ver k ρ := by
    intro k hk v hv hvk
    have hm : U.mg v = true := by
      rw [hB.mg_iff]
      refine ⟨hv, ?_⟩
      obtain ⟨k', i, A, b, a1, a2, a3⟩ := hT.mem v hv
      have e1 := hT.ver _ _ _ _ _ _ a1 a2 a3
      rw [((hT.batch _ _ _ _ a1 a2).mem _ _).1 a3 |>.2.2]
      have h1 := off_succ a1
      have h2 := off_mono L (show k' + 1 ≤ L1.length by omega)
      have h3 := (List.getElem?_eq_some_iff.1 a2).1
      omega
    have := hρ v
    rwa [restPar_mg hm] at this
  rw [netSum_wSum hB.core.mEq hC (fun v _ => hB.rest_acyclic hS v) hρ ?_ hpins (fun e he => ((hB.core.een e).1 he).1) f,
    ← wSum_undo hf hp hresp, hB.core.ew, hB.core.een0]
  · unfold netSum wSum img
    refine Finset.sum_congr ?_ (fun _ _ => rfl)
    ext e; simp
  · intro v hv
    by_cases hm : U.mg v = true
    · rw [restPar_mg hm]; exact (hS.live v ((hB.mg_iff v).1 hm).1).2
    · rw [restPar_root (by simpa using hm)]; exact hv

end Dyn
end Verif
