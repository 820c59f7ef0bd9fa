import Verif.Lemmas.Clustering8
import Mathlib.Algebra.Order.BigOperators.Group.List
/-! No deadlock: the main argument -/
namespace Verif
namespace ClSt

variable {lim : Int} {nw : Nat → Int} {nodes : List Nat} {T : Nat}

/-- the process of `u` comes to its end, nobody else moves -/
def Drives (lim : Int) (nw : Nat → Int) (s : ClSt) (u : Nat) : Prop :=
  ∃ s', Solo lim nw u s s' ∧ active (s'.pc u) = false ∧ ∀ x, x ≠ u → s'.pc x = s.pc x

theorem drives_of {s s1 : ClSt} {u : Nat} (hr : Reach lim nw nodes T s) (h : Solo lim nw u s s1)
    (hp : ∀ x, x ≠ u → s1.pc x = s.pc x) (hf : s1.free u) : s.Drives lim nw u := by
  obtain ⟨s', h1, h2, h3⟩ := free_drive _ (h.reach hr) (Nat.le_refl _) hf
  exact ⟨s', h.trans h1, h2, fun x hx => by rw [h3 x hx, hp x hx]⟩

def waiting (s : ClSt) (u : Nat) : Prop :=
  match s.pc u with
  | .walk _ _ | .check2 _ _ => True
  | .loop => s.st (s.tgt u) = .inProgress
  | _ => False

theorem waiting.al {s : ClSt} {u : Nat} (h : s.waiting u) : afterLoad (s.pc u) = true := by
  unfold waiting at h
  cases hpc : s.pc u <;> simp_all [afterLoad]

theorem goto_pc_ne {s : ClSt} {u : Nat} {q : CPc} : ∀ x, x ≠ u → (s.goto u q).pc x = s.pc x :=
  fun _ hx => Function.update_of_ne hx ..

theorem goto_pc_self {s : ClSt} {u : Nat} {q : CPc} : (s.goto u q).pc u = q := Function.update_self ..

theorem ends_of {s : ClSt} {u : Nat} {A : Nat → Prop} (hA : ∀ x, ¬ A x → s.partner x = x) :
    ∀ k c, ¬ A (s.partner^[k] c) → s.Ends u c
  | 0, c, h => .stop (.inr (hA c h))
  | k + 1, c, h => .next (ends_of hA k _ h)

/-- what remains after the walk -/
theorem drives_walk {s : ClSt} (hr : Reach lim nw nodes T s) {u c m : Nat}
    (hpc : s.pc u = .walk c m) (he : s.Ends u c)
    (hd : ∀ c' m', (s.goto u (.check2 c' m')).WalkInv u c' m' → (s.partner c' = u ∨ s.partner c' = c') →
      (s.partner c' = u ∧ u = m') ∨ s.st (s.tgt u) ≠ .inProgress) : s.Drives lim nw u := by
  obtain ⟨c', m', h1, h2⟩ := ends_drive (lim := lim) (nw := nw) he (s1 := s) rfl hpc
  have hr1 := h1.reach hr
  have hpc1 : (s.goto u (.check2 c' m')).pc u = .check2 c' m' := goto_pc_self
  have hw := hr1.inv.1.chkI u c' m' hpc1
  by_cases hc : s.partner c' = u ∧ u = m'
  · refine drives_of (s1 := (s.goto u (.check2 c' m')).goto u (.jload .cyc (s.tgt u))) hr (h1.trans (.step ?_ .refl)) ?_ ?_
    · unfold ClSt.run; simp only [hpc1]; exact if_pos hc
    · intro x hx; rw [goto_pc_ne x hx, goto_pc_ne x hx]
    · unfold free; rw [goto_pc_self]; trivial
  · refine drives_of (s1 := (s.goto u (.check2 c' m')).goto u .loop) hr (h1.trans (.step ?_ .refl)) ?_ ?_
    · unfold ClSt.run; simp only [hpc1]; exact if_neg hc
    · intro x hx; rw [goto_pc_ne x hx, goto_pc_ne x hx]
    · unfold free; rw [goto_pc_self]
      rcases hd c' m' hw h2 with h | h
      · exact absurd h hc
      · exact h

theorem Drives.pre {s s1 : ClSt} {u : Nat} (h : Solo lim nw u s s1) (hp : ∀ x, x ≠ u → s1.pc x = s.pc x)
    (hd : s1.Drives lim nw u) : s.Drives lim nw u := by
  obtain ⟨s', h1, h2, h3⟩ := hd
  exact ⟨s', h.trans h1, h2, fun x hx => by rw [h3 x hx, hp x hx]⟩

/-- If every running process waits, the responsible one can finish. -/
theorem stuck {s : ClSt} (hr : Reach lim nw nodes T s) (hw : ∀ x, active (s.pc x) = true → s.waiting x) {u0 : Nat}
    (hu0 : active (s.pc u0) = true) : ∃ u, active (s.pc u) = true ∧ s.Drives lim nw u := by
  have I := hr.inv.1
  have H := hr.hinv
  have hown : ∀ {x}, active (s.pc x) = true → own (s.pc x) = true := fun hx => own_of_afterLoad (hw _ hx).al
  have hpar : ∀ {x}, active (s.pc x) = true → s.partner x = s.tgt x := by
    intro x hx
    have := I.part x
    rwa [if_pos (afterLoad_pstored (hw x hx).al)] at this
  have hpar' : ∀ x, ¬ active (s.pc x) = true → s.partner x = x := by
    intro x hx
    have := I.part x
    rw [if_neg] at this
    · exact this
    · cases hpc : s.pc x <;> simp_all [active, pstored]
  have hmem : ∀ x, active (s.pc x) = true → x ∈ nodes := by
    intro x hx
    exact (hr.mem.1 x (by intro h; rw [h] at hx; simp [active] at hx)).1
  by_cases hcyc : ∃ z, (∃ n, 0 < n ∧ s.tgt^[n] z = z) ∧ (∀ i, active (s.pc (s.tgt^[i] z)) = true) ∧ ∀ i, z ≤ s.tgt^[i] z
  · -- a cycle of waiting processes: its smallest node resolves it
    obtain ⟨z, hper, hact, hmin⟩ := hcyc
    have hz := hact 0
    have hC : s.CycMin z := ⟨hper, fun i => hown (hact i), hmin⟩
    have hres : s.res z = false := by
      by_contra hne
      have hne : s.res z = true := by simpa using hne
      have h1 := I.resW z hne
      have h2 := I.resM z hne
      have h3 := hw z hz
      unfold waiting at h3
      cases hpc : s.pc z <;> simp_all [inW', active]
    have hI := I.cycle_inProgress hC (by intro h; have := hz; simp only [Function.iterate_zero, id] at this; rw [h] at this; simp [active] at this) hres
    refine ⟨z, hz, ?_⟩
    have hpi : ∀ i x, s.partner^[i] (s.tgt^[x] z) = s.tgt^[i] (s.tgt^[x] z) := by
      intro i
      induction i with
      | zero => intro x; rfl
      | succ i ih =>
        intro x
        rw [Function.iterate_succ_apply', ih, Function.iterate_succ_apply', ← Function.iterate_add_apply, hpar (hact _)]
    -- the walk from any node of the cycle comes back to z
    have hE : ∀ x, s.Ends z (s.tgt^[x] z) := by
      intro x
      obtain ⟨j, hj⟩ := hC.back x
      have : ∀ j c, s.partner^[j + 1] c = z → s.Ends z c := by
        intro j
        induction j with
        | zero => intro c h; exact .stop (.inl h)
        | succ j ih => intro c h; exact .next (ih _ h)
      cases j with
      | zero =>
        have hx : s.tgt^[x] z = z := hj
        obtain ⟨n, hn, hp⟩ := hper
        obtain ⟨n, rfl⟩ : ∃ k, n = k + 1 := ⟨n - 1, by omega⟩
        refine this n _ ?_
        rw [hpi, hx]; exact hp
      | succ j =>
        refine this j _ ?_
        rw [hpi]; exact hj
    have hfin : ∀ {s1 : ClSt} {c m : Nat}, Reach lim nw nodes T s1 → s1.partner = s.partner → s1.tgt = s.tgt →
        s1.pc z = .walk c m → (∀ x, x ≠ z → s1.pc x = s.pc x) → s1.Drives lim nw z := by
      intro s1 c m hr1 h1 h2 hpc1 _
      have W := hr1.inv.1.walkI z c m hpc1
      obtain ⟨P, _, hPc, _, _, _, h6⟩ := W.ex
      obtain ⟨i, hi, _⟩ := h6 c hPc
      rw [h2] at hi
      have hEc : s1.Ends z c := by
        have h5 := hE i
        rw [← hi] at h5
        have : ∀ c, s.Ends z c → s1.Ends z c := by
          intro c h
          induction h with
          | stop h => exact .stop (by rw [h1]; exact h)
          | next _ ih => exact .next (by rw [h1]; exact ih)
        exact this c h5
      refine drives_walk hr1 hpc1 hEc ?_
      intro c' m' W' hc'
      left
      obtain ⟨P', hPz, hPc', hPm, hle, _, h6'⟩ := W'.ex
      obtain ⟨i', hi', _⟩ := h6' c' hPc'
      obtain ⟨j', hj', _⟩ := h6' m' hPm
      have ht' : (s1.goto z (.check2 c' m')).tgt = s.tgt := h2
      rw [ht'] at hi' hj'
      have h7 : z ≤ m' := by rw [hj']; exact hmin j'
      have h8 : m' ≤ z := hle z hPz
      refine ⟨?_, by omega⟩
      rcases hc' with h | h
      · exact h
      · rw [h1, hi'] at h
        have h9 := hpar (hact i')
        rw [h] at h9
        exact absurd h9.symm (I.tgt_ne _ (hown (hact i')))
    have hloop : ∀ {s1 : ClSt}, Reach lim nw nodes T s1 → s1.partner = s.partner → s1.tgt = s.tgt → s1.st = s.st →
        s1.pc z = .loop → (∀ x, x ≠ z → s1.pc x = s.pc x) → s1.Drives lim nw z := by
      intro s1 hr1 h1 h2 h3 hpc1 h4
      have hrun : s1.run lim nw z true = some (s1.goto z (.walk z z)) := by
        unfold ClSt.run
        simp only [hpc1]
        rw [if_pos]
        rw [h2, h3]; exact hI 1
      exact Drives.pre (.step hrun .refl) goto_pc_ne
        (hfin (.run hr1 hrun) h1 h2 goto_pc_self (fun x hx => by rw [goto_pc_ne x hx, h4 x hx]))
    have hwz := hw z hz
    unfold waiting at hwz
    cases hpc : s.pc z with
    | walk c m => exact hfin hr rfl rfl hpc (fun _ _ => rfl)
    | loop => exact hloop hr rfl rfl rfl hpc (fun _ _ => rfl)
    | check2 c m =>
      by_cases hc : s.partner c = z ∧ z = m
      · refine drives_of (s1 := s.goto z (.jload .cyc (s.tgt z))) hr (.step ?_ .refl) goto_pc_ne ?_
        · unfold ClSt.run; simp only [hpc]; rw [if_pos hc]
        · unfold free; rw [goto_pc_self]; trivial
      · have hrun : s.run lim nw z true = some (s.goto z .loop) := by
          unfold ClSt.run; simp only [hpc]; rw [if_neg hc]
        exact Drives.pre (.step hrun .refl) goto_pc_ne
          (hloop (.run hr hrun) rfl rfl rfl goto_pc_self (fun x hx => goto_pc_ne x hx))
    | _ => simp only [hpc] at hwz
  · -- no cycle: some process waits for a node whose process has ended
    have hl : ∃ k, ¬ active (s.pc (s.tgt^[k] u0)) = true := by
      rcases leave_or_cycle s.tgt hmem u0 with h | h
      · exact h
      · exact (hcyc h).elim
    obtain ⟨x, hx, hxt⟩ : ∃ x, active (s.pc x) = true ∧ ¬ active (s.pc (s.tgt x)) = true := by
      obtain ⟨k, hk⟩ := hl
      clear hcyc
      induction k with
      | zero => exact (hk hu0).elim
      | succ k ih =>
        by_cases h : active (s.pc (s.tgt^[k] u0)) = true
        · exact ⟨_, h, by rw [← Function.iterate_succ_apply' s.tgt]; exact hk⟩
        · exact ih h
    have hm : s.st (s.tgt x) ≠ .inProgress := by
      intro hp
      rcases H _ hp with ⟨h1, h2⟩ | ⟨y, h1, _⟩
      · exact hxt (active_of_own h1 h2)
      · have hya : active (s.pc y) = true := by
          cases hpc : s.pc y <;> simp_all [inJ, active]
        have := hw y hya
        unfold waiting at this
        cases hpc : s.pc y <;> simp_all [inJ]
    have hE : ∀ c, s.Ends x c := by
      intro c
      by_cases hac : active (s.pc c) = true
      · rcases leave_or_cycle s.partner hmem c with ⟨k, hk⟩ | ⟨z, ⟨n, hn, hp⟩, h2, h3⟩
        · exact ends_of (A := fun x => active (s.pc x) = true) hpar' k c hk
        · exfalso
          have hit : ∀ i, s.tgt^[i] z = s.partner^[i] z := by
            intro i
            induction i with
            | zero => rfl
            | succ i ih => rw [Function.iterate_succ_apply', ih, Function.iterate_succ_apply', hpar (h2 i)]
          exact hcyc ⟨z, ⟨n, hn, by rw [hit]; exact hp⟩, fun i => by rw [hit]; exact h2 i, fun i => by rw [hit]; exact h3 i⟩
      · exact .stop (.inr (hpar' c hac))
    refine ⟨x, hx, ?_⟩
    have hwx := hw x hx
    unfold waiting at hwx
    cases hpc : s.pc x with
    | walk c m => exact drives_walk hr hpc (hE c) (fun _ _ _ _ => .inr hm)
    | loop => simp only [hpc] at hwx; exact (hm hwx).elim
    | check2 c m =>
      by_cases hc : s.partner c = x ∧ x = m
      · refine drives_of (s1 := s.goto x (.jload .cyc (s.tgt x))) hr (.step ?_ .refl) goto_pc_ne ?_
        · unfold ClSt.run; simp only [hpc]; rw [if_pos hc]
        · unfold free; rw [goto_pc_self]; trivial
      · refine drives_of (s1 := s.goto x .loop) hr (.step ?_ .refl) goto_pc_ne ?_
        · unfold ClSt.run; simp only [hpc]; rw [if_neg hc]
        · unfold free; rw [goto_pc_self]; exact hm
    | _ => simp only [hpc] at hwx

/-- measure of one process -/
def mu : CPc → Nat
  | .idle | .done | .skip => 0
  | .weight => 6 | .cas => 5 | .store => 4 | .loadV => 3 | .casV => 2
  | _ => 1

def early : CPc → Bool
  | .weight | .cas | .store | .loadV | .casV => true
  | _ => false

theorem mu_pos {p : CPc} (h : active p = true) : 0 < mu p := by cases p <;> simp_all [active, mu]
theorem mu_zero {p : CPc} (h : active p = false) : mu p = 0 := by cases p <;> simp_all [active, mu]

theorem early_step {s : ClSt} {u : Nat} (h : early (s.pc u) = true) :
    ∃ s1, s.run lim nw u true = some s1 ∧ mu (s1.pc u) < mu (s.pc u) := by
  have key : ∀ o : Option ClSt, s.run lim nw u true = o → ∃ s1, o = some s1 ∧ mu (s1.pc u) < mu (s.pc u) := by
    intro o ho
    unfold ClSt.run at ho
    cases hpc : s.pc u with
    | weight =>
      simp only [hpc] at ho; subst ho
      refine ⟨_, rfl, ?_⟩
      rw [goto_pc_self]; split <;> simp [mu]
    | cas | casV =>
      simp only [hpc] at ho
      split at ho <;> (subst ho; exact ⟨_, rfl, by simp [mu, goto]⟩)
    | store => simp only [hpc] at ho; subst ho; exact ⟨_, rfl, by simp [mu]⟩
    | loadV =>
      simp only [hpc] at ho
      cases hst : s.st (s.tgt u) <;> (simp only [hst] at ho; subst ho; exact ⟨_, rfl, by simp [mu, goto]⟩)
    | _ => rw [hpc] at h; simp [early] at h
  exact key _ rfl

theorem finish_all : ∀ (n : Nat) {s : ClSt}, Reach lim nw nodes T s → (nodes.map fun x => mu (s.pc x)).sum ≤ n →
    ∃ s', Steps lim nw s s' ∧ ∀ x, active (s'.pc x) = false := by
  intro n
  induction n with
  | zero =>
    intro s hr hn
    refine ⟨s, .refl, fun x => ?_⟩
    by_contra hx
    have hx : active (s.pc x) = true := by simpa using hx
    have hm : x ∈ nodes := (hr.mem.1 x (by intro h; rw [h] at hx; simp [active] at hx)).1
    have h1 : mu (s.pc x) ≤ (nodes.map fun x => mu (s.pc x)).sum :=
      List.single_le_sum (fun _ _ => Nat.zero_le _) _ (List.mem_map_of_mem hm)
    have := mu_pos hx
    omega
  | succ n ih =>
    intro s hr hn
    have dec : ∀ {s1 : ClSt} {u : Nat}, Steps lim nw s s1 → active (s.pc u) = true → mu (s1.pc u) < mu (s.pc u) →
        (∀ x, x ≠ u → s1.pc x = s.pc x) → ∃ s', Steps lim nw s s' ∧ ∀ x, active (s'.pc x) = false := by
      intro s1 u h1 ha h2 h3
      have hm : u ∈ nodes := (hr.mem.1 u (by intro h; rw [h] at ha; simp [active] at ha)).1
      have hlt : (nodes.map fun x => mu (s1.pc x)).sum < (nodes.map fun x => mu (s.pc x)).sum := by
        refine List.sum_lt_sum _ _ ?_ ⟨u, hm, h2⟩
        intro x _
        by_cases hx : x = u
        · subst hx; exact h2.le
        · rw [h3 x hx]
      obtain ⟨s', h4, h5⟩ := ih (h1.reach hr) (by omega)
      exact ⟨s', h1.trans h4, h5⟩
    by_cases he : ∃ u, early (s.pc u) = true
    · obtain ⟨u, hu⟩ := he
      obtain ⟨s1, h1, h2⟩ := early_step (lim := lim) (nw := nw) hu
      exact dec (.step h1 .refl) (run_pc h1).2.1 h2 (run_pc h1).1
    by_cases hf : ∃ u, s.free u
    · obtain ⟨u, hu⟩ := hf
      obtain ⟨s1, h1, h2, h3⟩ := free_drive _ hr (Nat.le_refl _) hu
      have ha : active (s.pc u) = true := by
        unfold free at hu
        cases hpc : s.pc u <;> simp_all [active]
      exact dec h1.steps ha (by rw [mu_zero h2]; exact mu_pos ha) h3
    by_cases ha : ∃ u, active (s.pc u) = true
    · obtain ⟨u0, hu0⟩ := ha
      have hw : ∀ x, active (s.pc x) = true → s.waiting x := by
        intro x hx
        have h1 : ¬ early (s.pc x) = true := fun h => he ⟨x, h⟩
        have h2 : ¬ s.free x := fun h => hf ⟨x, h⟩
        unfold free at h2
        unfold waiting
        cases hpc : s.pc x <;> simp_all [active, early]
      obtain ⟨u, h1, s1, h2, h3, h4⟩ := stuck hr hw hu0
      exact dec h2.steps h1 (by rw [mu_zero h3]; exact mu_pos h1) h4
    · refine ⟨s, .refl, fun x => ?_⟩
      by_contra hx
      exact ha ⟨x, by simpa using hx⟩

end ClSt
end Verif
