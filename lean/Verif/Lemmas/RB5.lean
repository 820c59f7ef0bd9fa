import Verif.Lemmas.RB4
/-! Recursive bipartitioning: the recursion. -/
namespace Verif
namespace RBip
open SMap (wr)
open Extract PHG HG

section
variable {σ : Type} {F : Fam σ} (FL : FamLaw F) {env : RBEnv} {pol : Policy} {H : SHG} {k : Nat} {old : Nat → Bool} {fx : Nat → Option Nat}

theorem mult_ne_zero (pol : Policy) : pol.mult ≠ 0 := by cases pol <;> decide

theorem visits_nodup {l : List (Bool × Nat)} (hn : H.nodes.Nodup) (h : ∀ t, ((l.filter (fun x => x.1 == t)).map (·.2)).Perm H.nodes) : l.Nodup := by
  have h1 : ∀ t, (l.filter (fun x => x.1 == t)).Nodup := by
    intro t
    exact List.Nodup.of_map _ ((h t).nodup_iff.2 hn)
  rw [List.nodup_iff_count_le_one]
  intro a
  have := List.nodup_iff_count_le_one.1 (h1 a.1) a
  rw [List.count_filter (by simp)] at this
  exact this

theorem visits_mem {l : List (Bool × Nat)} (h : ∀ t, ((l.filter (fun x => x.1 == t)).map (·.2)).Perm H.nodes) (t : Bool) (v : Nat) :
    (t, v) ∈ l ↔ v ∈ H.nodes := by
  rw [← (h t).mem_iff, List.mem_map]
  constructor
  · intro hm; exact ⟨(t, v), List.mem_filter.2 ⟨hm, by simp⟩, rfl⟩
  · rintro ⟨⟨t', v'⟩, hm, rfl⟩
    have := List.mem_filter.1 hm
    have ht : t' = t := by simpa using this.2
    subst ht
    exact this.1

theorem kt_lohi (k : Nat) (t : Bool) : hiOf k t - loOf k t = ktOf k t := by
  unfold hiOf loOf ktOf
  cases t <;> simp <;> omega

theorem lo_eq_blk (k : Nat) (t : Bool) : loOf k t = blkOf k t := rfl

theorem lt_range (hk : 2 ≤ k) (t : Bool) {x : Nat} (hx : x < ktOf k t) : blkOf k t + x < k ∧ ∀ t', t' ≠ t → blkOf k t + x ≠ blkOf k t' := by
  unfold ktOf at hx
  unfold blkOf
  refine ⟨?_, fun t' => ?_⟩
  · cases t <;> simp at hx ⊢ <;> omega
  · cases t <;> cases t' <;> simp at hx ⊢ <;> omega

/-- the partition after the bipartition has been applied -/
theorem base_sim (hl : env.Legal) (hG : Good H) (hk : 2 ≤ k) (path : List Bool) (β : Nat → Nat) :
    Sim (FL.law H.m k (max H.maxEdgeSize 1)) H.toHG
      (applied F env path H k β)
      (phi0 H k β) := by
  have hR : (FL.law H.m k (max H.maxEdgeSize 1)).R (F.fresh H k).con (fun _ _ => 0) :=
    FL.init _ _ _ (by omega) (by omega) (by have := hG.small; omega)
  refine build_spec hG.ok.wf hG.fits hR ?_ (hl.norder path H) (fun b _ => hl.order path H b) (hl.eorder path H)
  intro v _
  unfold blkOf
  split <;> simp <;> omega

/-- task `t` of a call, extracting at any time while the other task visits nodes -/
theorem task_spec (hl : env.Legal) (hG : Good H) (hk : 2 ≤ k) (path : List Bool) {β : Nat → Nat}
    (hβ : β = env.ml path (adapt H pol.mult old false) (fixBip H k fx))
    {rec : List Bool → SHG → Nat → (Nat → Bool) → (Nat → Option Nat) → Option (PHG σ × Int)} {t : Bool} (hkt : 2 ≤ ktOf k t)
    (hrec : ∀ H' old' fx', Good H' → ∃ r, rec (path ++ [t]) H' (ktOf k t) old' fx' = some r ∧ Res FL env pol H' (ktOf k t) old' fx' r)
    {st : Nat → PHG σ} {Φs : Nat → Assign} (hS : ∀ j, Sim (FL.law H.m k (max H.maxEdgeSize 1)) H.toHG (st j) (Φs j))
    (hall : ∀ j, ∀ v ∈ H.nodes, Φs j v ≠ none) (hinv : ∀ j, ∀ v ∈ H.nodes, (Φs j v = some (blkOf k t) ↔ phi0 H k β v = some (blkOf k t)))
    {cut : Option (Nat → Bool)} (hcut : pol.mult ≠ 1 → ∀ e ∈ H.edges, ∃ q, cut = some q ∧ q e = oldNext H β old e) :
    ∃ s, runTask F env pol rec path H k fx cut t st = some s ∧
      (∀ o : Nat → Bool, (pol.mult ≠ 1 → ∀ e ∈ H.edges, o e = oldNext H β old e) →
        RB pol.split pol.mult (ktOf k t) (H.toHG.restrict (side (tsk β)) t.toNat pol.split) o s.1 s.2) ∧
      (∀ v ∈ H.nodes, tsk β v = t → s.1 v < ktOf k t) ∧
      (env.Respects → FixOk H k fx → ∀ v ∈ H.nodes, tsk β v = t → ∀ d, fx v = some d → blkOf k t + s.1 v = d) := by
  have hw := hG.ok.wf
  have hb : blkOf k t < k := by unfold blkOf; cases t <;> simp <;> omega
  have hX := during_spec (L := FL.law H.m k (max H.maxEdgeSize 1)) (com := env.com path) (cut := cut) (split := pol.split) (stable := env.stable)
    (Φ := phi0 H k β) hG.ok hG.fits hS hall (fun v hv => by rw [phi0_eq hv]; simp) hb hinv (hl.x path t H) (env.j1 path) (env.j2 path) (env.jp path)
  obtain ⟨s, h1, h2, h3⟩ := subTask_spec FL (env := env) (k := k) hG (lo := loOf k t) (hi := hiOf k t) (by rw [kt_lohi]; exact hkt) (by rw [kt_lohi]; exact hrec) hX
    (fx := fx) (Ψ := side (tsk β)) (c := t.toNat) (fun v hv => phi0_iff hk t hv) (fun e he => by rw [phi0_lam hw hk he])
  rw [kt_lohi] at h2
  have hrb : ∀ o : Nat → Bool, (pol.mult ≠ 1 → ∀ e ∈ H.edges, o e = oldNext H β old e) →
      RB pol.split pol.mult (ktOf k t) (H.toHG.restrict (side (tsk β)) t.toNat pol.split) o s.1 s.2 := by
    intro o ho
    refine h2 o (fun hm e he => ?_)
    obtain ⟨q, hq, hqe⟩ := hcut hm e he
    exact ⟨q, hq, by rw [ho hm e he, hqe]⟩
  refine ⟨s, h1, hrb, ?_, ?_⟩
  · intro v hv ht
    refine (hrb (oldNext H β old) (fun _ _ _ => rfl)).lt.2 v (List.mem_filter.2 ⟨hv, ?_⟩)
    unfold side
    rw [ht]; simp
  · intro hR hF v hv ht d hd
    have hside : ∀ u ∈ H.nodes, ∀ c, fx u = some c → tsk β u = decide (k / 2 + k % 2 ≤ c) :=
      fun u hu c hc => fixed_side hG.ok hR hF path hβ hu hc
    have hrange : ∀ u ∈ H.nodes, ∀ c, fx u = some c → (loOf k t ≤ c ∧ c < hiOf k t ↔ tsk β u = t) := by
      intro u hu c hc
      rw [hside u hu c hc]
      have hck := (hF u hu c hc).1
      unfold loOf hiOf
      cases t <;> simp <;> omega
    obtain ⟨hlo, hhi⟩ := (hrange v hv d hd).2 ht
    have := h3 hR hF (fun u hu c hc h1 h2 => by
      rw [phi0_eq hu, (hrange u hu c hc).1 ⟨h1, h2⟩]) v hv (by rw [phi0_eq hv, ht]) d hd hlo hhi
    rw [this, ← lo_eq_blk]
    omega

end
end RBip
end Verif
