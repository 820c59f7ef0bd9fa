import Verif.Lemmas.Clustering3
namespace Verif
namespace ClSt

theorem WalkInv.refl {s : ClSt} (u : Nat) : s.WalkInv u u u := by
  refine ⟨fun x => x = u, rfl, rfl, rfl, fun x hx => Nat.le_of_eq (Eq.symm hx), fun x hx => .inl hx, fun x hx => ⟨0, hx, by omega⟩⟩

theorem CInv.partner_eq {s : ClSt} (I : s.CInv) {x : Nat} (h : s.partner x ≠ x) :
    own (s.pc x) = true ∧ s.partner x = s.tgt x := by
  have h1 := I.part x
  split at h1
  · rename_i hp
    refine ⟨?_, h1⟩
    cases hpc : s.pc x <;> simp_all [pstored, own]
  · exact (h h1).elim

theorem WalkInv.next {s : ClSt} (I : s.CInv) {u c m : Nat} (h : s.WalkInv u c m) (hne : s.partner c ≠ c) :
    s.WalkInv u (s.partner c) (min m (s.partner c)) := by
  obtain ⟨P, h1, h2, h3, h4, h5, h6⟩ := h.ex
  obtain ⟨ho, hp⟩ := I.partner_eq hne
  refine ⟨fun x => P x ∨ x = s.partner c, .inl h1, .inr rfl, ?_, ?_, ?_, ?_⟩
  · rcases Nat.le_total m (s.partner c) with h | h
    · rw [Nat.min_eq_left h]; exact .inl h3
    · rw [Nat.min_eq_right h]; exact .inr rfl
  · rintro x (hx | hx)
    · have := h4 x hx; omega
    · omega
  · rintro x (hx | hx)
    · rcases h5 x hx with h | ⟨h, h'⟩
      · right; rw [h]; exact ⟨ho, .inr hp.symm⟩
      · exact .inr ⟨h, .inl h'⟩
    · exact .inl hx
  · rintro x (hx | hx)
    · exact h6 x hx
    · obtain ⟨i, hi, hj⟩ := h6 c h2
      refine ⟨i + 1, by rw [Function.iterate_succ_apply', ← hi, hx, hp], ?_⟩
      intro j hj'
      by_cases h : j = i
      · rw [h, ← hi]; exact ho
      · exact hj j (by omega)

/-- a walk that came back to its start has found a cycle and its smallest node -/
theorem WalkInv.cyc {s : ClSt} (I : s.CInv) {u c m : Nat} (h : s.WalkInv u c m) (hne : s.partner u ≠ u)
    (hc : s.partner c = u) :
    (∃ n, 0 < n ∧ s.tgt^[n] u = u) ∧ (∀ i, own (s.pc (s.tgt^[i] u)) = true) ∧ ∀ i, m ≤ s.tgt^[i] u := by
  obtain ⟨P, h1, h2, h3, h4, h5, h6⟩ := h.ex
  have hcu : s.partner c ≠ c := by
    intro h; rw [hc] at h; rw [← h] at hc; exact hne hc
  obtain ⟨ho, hp⟩ := I.partner_eq hcu
  obtain ⟨i, hi, hj⟩ := h6 c h2
  have hclosed : ∀ x, P x → own (s.pc x) = true ∧ P (s.tgt x) := by
    intro x hx
    rcases h5 x hx with h | h
    · rw [h]; exact ⟨ho, by rw [← hp, hc]; exact h1⟩
    · exact h
  have hall : ∀ i, P (s.tgt^[i] u) := by
    intro i
    induction i with
    | zero => exact h1
    | succ i ih => rw [Function.iterate_succ_apply']; exact (hclosed _ ih).2
  refine ⟨⟨i + 1, by omega, ?_⟩, fun i => (hclosed _ (hall i)).1, fun i => h4 _ (hall i)⟩
  rw [Function.iterate_succ_apply', ← hi, ← hp, hc]

theorem afterLoad_pstored {p : CPc} (h : afterLoad p = true) : pstored p = true := by cases p <;> simp_all [pstored, afterLoad]

theorem CInv.partner_ne {s : ClSt} (I : s.CInv) {u : Nat} (h : pstored (s.pc u) = true) (ho : own (s.pc u) = true) :
    s.partner u = s.tgt u ∧ s.partner u ≠ u := by
  have h1 := I.part u
  rw [if_pos h] at h1
  exact ⟨h1, by rw [h1]; exact I.tgt_ne u ho⟩

theorem CInv.cyc_entry {s : ClSt} (I : s.CInv) {u c : Nat} (hpc : s.pc u = .check2 c u) (hp : s.partner c = u) :
    s.CycMin u ∧ ∀ i, s.st (s.tgt^[i] u) = .inProgress := by
  have h := (I.chkI u c u hpc).cyc I (I.partner_ne (by rw [hpc]; rfl) (by rw [hpc]; rfl)).2 hp
  have hc : s.CycMin u := ⟨h.1, h.2.1, h.2.2⟩
  refine ⟨hc, I.cycle_inProgress hc (by rw [hpc]; simp) ?_⟩
  by_contra hr
  have := (I.resW u (by simpa using hr)).1
  rw [hpc] at this; simp [inW'] at this

theorem CInv.res_false {s : ClSt} (I : s.CInv) {u : Nat} (h : inW' (s.pc u) = true) : s.res u = false := by
  by_contra hr
  have := (I.resW u (by simpa using hr)).1
  rw [h] at this; cases this

theorem CInv.res_false' {s : ClSt} (I : s.CInv) {u : Nat} (h : own (s.pc u) = false) : s.res u = false := by
  by_contra hr
  have := I.res_own (u := u) (by simpa using hr)
  rw [h] at this; cases this

set_option maxHeartbeats 1000000 in
theorem CInv.run {s s' : ClSt} (I : s.CInv) {lim : Int} {nw : Nat → Int} {u : Nat} {ok : Bool}
    (h : s.run lim nw u ok = some s') : s'.CInv := by
  unfold ClSt.run at h
  have hwc := I.wcid u
  cases hpc : s.pc u with
  | idle | done | skip => simp [hpc] at h
  | weight =>
    simp only [hpc, Option.some.injEq] at h
    have hr := I.res_false' (u := u) (by rw [hpc]; rfl)
    subst h
    by_cases hc : nw u + s.cw (s.tgt u) ≤ lim
    · rw [if_pos hc]
      refine I.pcStep (by simp [hpc]) ?_ ?_ ?_ ?_ ?_ ?_ (by simp [hpc]) ?_ ?_ ?_ ?_ ?_ ?_ ?_ <;>
        simp [hpc, own, pstored, inJ, inW, afterLoad, hr, inW', hwc]
    · rw [if_neg hc]
      refine I.pcStep (by simp [hpc]) ?_ ?_ ?_ ?_ ?_ ?_ (by simp [hpc]) ?_ ?_ ?_ ?_ ?_ ?_ ?_ <;>
        simp [hpc, own, pstored, inJ, inW, afterLoad, hr, inW', hwc]
  | cas =>
    simp only [hpc] at h
    have hr := I.res_false' (u := u) (by rw [hpc]; rfl)
    split at h
    · rename_i hst
      cases h
      exact I.casStep hpc hst
    · cases h
      refine I.pcStep (by simp [hpc]) ?_ ?_ ?_ ?_ ?_ ?_ (by simp [hpc]) ?_ ?_ ?_ ?_ ?_ ?_ ?_ <;>
        simp [hpc, own, pstored, inJ, inW, afterLoad, hr, inW', hwc]
  | store =>
    simp only [hpc, Option.some.injEq] at h
    subst h
    exact I.storeStep hpc
  | loadV =>
    simp only [hpc] at h
    have hr := I.res_false (u := u) (by rw [hpc]; rfl)
    replace hwc := hwc (by rw [hpc]; rfl) hr
    cases hst : s.st (s.tgt u) with
    | matched =>
      simp only [hst, Option.some.injEq] at h
      subst h
      refine CInv.congr (s := s.goto u .read) ?_ rfl rfl rfl rfl rfl rfl
      refine I.pcStep (by simp [hpc]) ?_ ?_ ?_ ?_ ?_ ?_ (by simp [hpc]) ?_ ?_ ?_ ?_ ?_ ?_ ?_ <;>
        simp [hpc, own, pstored, inJ, inW, afterLoad, hr, inW', hst]
    | unmatched =>
      simp only [hst, Option.some.injEq] at h
      subst h
      refine I.pcStep (by simp [hpc]) ?_ ?_ ?_ ?_ ?_ ?_ (by simp [hpc]) ?_ ?_ ?_ ?_ ?_ ?_ ?_ <;>
        simp [hpc, own, pstored, inJ, inW, afterLoad, hr, inW', hwc]
    | inProgress =>
      simp only [hst, Option.some.injEq] at h
      subst h
      refine I.pcStep (by simp [hpc]) ?_ ?_ ?_ ?_ ?_ ?_ (by simp [hpc]) ?_ ?_ ?_ ?_ ?_ ?_ ?_ <;>
        simp [hpc, own, pstored, inJ, inW, afterLoad, hr, inW', hst, WalkInv.refl, hwc]
  | casV =>
    simp only [hpc] at h
    have hr := I.res_false (u := u) (by rw [hpc]; rfl)
    replace hwc := hwc (by rw [hpc]; rfl) hr
    split at h
    · rename_i hst
      cases h
      exact I.casVStep hpc hst
    · rename_i hst
      cases h
      refine I.pcStep (by simp [hpc]) ?_ ?_ ?_ ?_ ?_ ?_ (by simp [hpc]) ?_ ?_ ?_ ?_ ?_ ?_ ?_ <;>
        simp [hpc, own, pstored, inJ, inW, afterLoad, hr, inW', hst, WalkInv.refl, hwc]
  | walk c m =>
    simp only [hpc] at h
    have hr := I.res_false (u := u) (by rw [hpc]; rfl)
    replace hwc := hwc (by rw [hpc]; rfl) hr
    have hl := I.ldU u (by rw [hpc]; rfl)
    have hw := I.walkI u c m hpc
    split at h
    · rename_i hn
      cases h
      refine I.pcStep (by simp [hpc]) ?_ ?_ ?_ ?_ ?_ ?_ (by simp [hpc]) ?_ ?_ ?_ ?_ ?_ ?_ ?_ <;>
        simp [hpc, own, pstored, inJ, inW, afterLoad, hr, inW', hl, hwc, WalkInv.refl]
      exact hw.next I hn.2
    · cases h
      refine I.pcStep (by simp [hpc]) ?_ ?_ ?_ ?_ ?_ ?_ (by simp [hpc]) ?_ ?_ ?_ ?_ ?_ ?_ ?_ <;>
        simp [hpc, own, pstored, inJ, inW, afterLoad, hr, inW', hl, hwc, WalkInv.refl]
      exact hw
  | check2 c m =>
    simp only [hpc] at h
    have hr := I.res_false (u := u) (by rw [hpc]; rfl)
    replace hwc := hwc (by rw [hpc]; rfl) hr
    have hl := I.ldU u (by rw [hpc]; rfl)
    split at h
    · rename_i hn
      cases h
      obtain ⟨hn1, rfl⟩ := hn
      have hcy := I.cyc_entry hpc hn1
      refine I.pcStep (by simp [hpc]) ?_ ?_ ?_ ?_ ?_ ?_ (by simp [hpc]) ?_ (fun _ => hcy) ?_ ?_ ?_ ?_ ?_ <;>
        simp [hpc, own, pstored, inJ, inW, afterLoad, hr, inW', hl, hwc, WalkInv.refl]
    · cases h
      refine I.pcStep (by simp [hpc]) ?_ ?_ ?_ ?_ ?_ ?_ (by simp [hpc]) ?_ ?_ ?_ ?_ ?_ ?_ ?_ <;>
        simp [hpc, own, pstored, inJ, inW, afterLoad, hr, inW', hl, hwc, WalkInv.refl]
  | loop =>
    simp only [hpc, Option.some.injEq] at h
    have hl := I.ldU u (by rw [hpc]; rfl)
    subst h
    by_cases hst : s.st (s.tgt u) = .inProgress
    · rw [if_pos hst]
      have hr : s.res u = false := by
        by_contra hr
        have := I.resM u (by simpa using hr)
        rw [hst] at this; cases this
      replace hwc := hwc (by rw [hpc]; rfl) hr
      refine I.pcStep (by simp [hpc]) ?_ ?_ ?_ ?_ ?_ ?_ (by simp [hpc]) ?_ ?_ ?_ ?_ ?_ ?_ ?_ <;>
        simp [hpc, own, pstored, inJ, inW, afterLoad, hr, inW', hl, hwc, WalkInv.refl]
    · rw [if_neg hst]
      have hm : s.st (s.tgt u) = .matched := by cases hh : s.st (s.tgt u) <;> simp_all
      refine I.pcStep (by simp [hpc]) ?_ ?_ ?_ ?_ ?_ ?_ (by simp [hpc]) ?_ ?_ ?_ ?_ ?_ ?_ ?_ <;>
        simp [hpc, own, pstored, inJ, inW, afterLoad, inW', hm]
  | self =>
    simp only [hpc, Option.some.injEq] at h
    have hm : s.st (s.tgt u) = .matched := by
      have := I.past u (by rw [hpc]; rfl)
      simpa [hpc, inW, inJ] using this
    subst h
    by_cases hst : s.st u = .inProgress
    · rw [if_pos hst]
      refine I.pcStep (by simp [hpc]) ?_ ?_ ?_ ?_ ?_ ?_ (by simp [hpc]) ?_ ?_ ?_ ?_ ?_ ?_ ?_ <;>
        simp [hpc, own, pstored, inJ, inW, afterLoad, inW', hm]
    · rw [if_neg hst]
      refine I.pcStep (by simp [hpc]) ?_ ?_ ?_ ?_ ?_ ?_ (by simp [hpc]) ?_ ?_ ?_ ?_ ?_ ?_ ?_ <;>
        simp [hpc, own, pstored, inJ, inW, afterLoad, inW', hm]
  | read =>
    simp only [hpc, Option.some.injEq] at h
    have hm : s.st (s.tgt u) = .matched := by
      have := I.past u (by rw [hpc]; rfl)
      simpa [hpc, inW, inJ] using this
    subst h
    refine I.pcStep (by simp [hpc]) ?_ ?_ ?_ ?_ ?_ ?_ (by simp [hpc]) ?_ ?_ ?_ ?_ ?_ ?_ ?_ <;>
      simp [hpc, own, pstored, inJ, inW, afterLoad, inW', hm]
    rintro k hk rfl; exact (hk rfl).elim
  | jload k rep =>
    simp only [hpc, Option.some.injEq] at h
    have hp := I.past u (by rw [hpc]; rfl)
    have hrw := I.resW u
    have hcc := I.cycC u
    have hci := I.cycI u
    have hH := I.repH u k rep
    subst h
    split
    · refine I.pcStep (by simp [hpc]) ?_ ?_ ?_ ?_ ?_ ?_ (by simp [hpc]) ?_ ?_ ?_ ?_ ?_ ?_ ?_ <;>
        cases k <;> simp_all [hpc, own, pstored, inJ, inW, afterLoad, inW']
      rintro k hk rfl; exact (hk rfl).elim
    · refine I.pcStep (by simp [hpc]) ?_ ?_ ?_ ?_ ?_ ?_ (by simp [hpc]) ?_ ?_ ?_ ?_ ?_ ?_ ?_ <;>
        cases k <;> simp_all [hpc, own, pstored, inJ, inW, afterLoad, inW', afterJoin]
  | jwrite k rep =>
    simp only [hpc, Option.some.injEq] at h
    subst h
    exact I.jwriteStep hpc
  | jadd k rep =>
    simp only [hpc, Option.some.injEq] at h
    subst h
    cases k with
    | rep => exact (I.jaddStep_rep hpc).congr rfl rfl rfl rfl rfl rfl
    | grab => exact (I.jaddStep_grab hpc).congr rfl rfl rfl rfl rfl rfl
    | cyc => exact (I.jaddStep_cyc hpc).congr rfl rfl rfl rfl rfl rfl
  | jstore k =>
    cases k with
    | rep => exact (I.jst u hpc).elim
    | grab =>
      simp only [hpc, Option.some.injEq] at h
      subst h
      exact I.jstoreGrab hpc
    | cyc =>
      simp only [hpc, Option.some.injEq] at h
      subst h
      exact I.jstoreCyc hpc
  | fin1 =>
    simp only [hpc, Option.some.injEq] at h
    subst h
    exact I.fin1Step hpc
  | fin2 =>
    simp only [hpc, Option.some.injEq] at h
    subst h
    exact I.fin2Step hpc

end ClSt
end Verif
