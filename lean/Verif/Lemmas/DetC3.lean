import Verif.Lemmas.DetC2
/-!
# Lemmas: third loop of the deterministic coarsener (requests that fit)
-/
namespace Verif
namespace DetC
open SMap (wr)
variable {α : Type} {c : Cfg α}

/-- the fixed blocks of nodes do not change -/
theorem nextF_block {t u : Nat} {p p' : FPc} {f f' : FVS} (h : nextF c t u p f = some (p', f')) (ha : (f.data t).block = none → (f.data u).block = none) (v : Nat) :
    (f'.data v).block = (f.data v).block := by
  cases p <;> simp only [nextF] at h
  · split at h
    · simp only [Option.some.injEq, Prod.mk.injEq] at h; rw [← h.2]
    · simp only [Option.some.injEq, Prod.mk.injEq] at h; rw [← h.2]
    · next h1 h2 =>
      simp only [Option.some.injEq, Prod.mk.injEq] at h
      rw [← h.2]
      cases h3 : (f.data t).block with
      | none => simp [h3, ha h3] at h1
      | some b =>
        cases h4 : (f.data u).block with
        | none => simp [h3, h4] at h2
        | some d =>
          simp only [FVS.contractImpl, h3, h4]
          split
          · simp only [FVS.setData]; split
            · next e => subst e; simp [h3]
            · rfl
          · rfl
  · simp only [Option.some.injEq, Prod.mk.injEq] at h; rw [← h.2]
  · simp only [Option.some.injEq, Prod.mk.injEq] at h; rw [← h.2]
  · cases h

/-- the request of `u` fits -/
def Ok (c : Cfg α) (s : DC) (u : Nat) : Prop := s.prop u ≠ u ∧ s.opp (s.prop u) ≤ c.maxw
/-- the request of `u` does not fit -/
def Bad (c : Cfg α) (s : DC) (u : Nat) : Prop := s.prop u ≠ u ∧ c.maxw < s.opp (s.prop u)

instance (s : DC) (u : Nat) : Decidable (Ok c s u) := by unfold Ok; infer_instance
instance (s : DC) (u : Nat) : Decidable (Bad c s u) := by unfold Bad; infer_instance

def pastOwn : Pc3 → Bool
  | .fixed _ _ => true
  | .put _ => true
  | .rd2 _ => true
  | .put2 _ _ => true
  | .push => true
  | .fin => true
  | _ => false

def pastPut : Pc3 → Bool
  | .rd2 _ => true
  | .put2 _ _ => true
  | .fin => true
  | _ => false

theorem pO_start : pastOwn (.start) = false := rfl
theorem pP_start : pastPut (.start) = false := rfl
theorem pO_rd (t : Nat) : pastOwn (.rd t) = false := rfl
theorem pP_rd (t : Nat) : pastPut (.rd t) = false := rfl
theorem pO_own (t : Nat) : pastOwn (.own t) = false := rfl
theorem pP_own (t : Nat) : pastPut (.own t) = false := rfl
theorem pO_fixed (t : Nat) (p : FPc) : pastOwn (.fixed t p) = true := rfl
theorem pP_fixed (t : Nat) (p : FPc) : pastPut (.fixed t p) = false := rfl
theorem pO_put (t : Nat) : pastOwn (.put t) = true := rfl
theorem pP_put (t : Nat) : pastPut (.put t) = false := rfl
theorem pO_rd2 (t : Nat) : pastOwn (.rd2 t) = true := rfl
theorem pP_rd2 (t : Nat) : pastPut (.rd2 t) = true := rfl
theorem pO_put2 (t : Nat) (x : Int) : pastOwn (.put2 t x) = true := rfl
theorem pP_put2 (t : Nat) (x : Int) : pastPut (.put2 t x) = true := rfl
theorem pO_own2 : pastOwn (.own2) = false := rfl
theorem pP_own2 : pastPut (.own2) = false := rfl
theorem pO_push : pastOwn (.push) = true := rfl
theorem pP_push : pastPut (.push) = false := rfl
theorem pO_fin : pastOwn (.fin) = true := rfl
theorem pP_fin : pastPut (.fin) = true := rfl

/-- state during the third loop -/
structure Inv3 (c : Cfg α) (us : List Nat) (s : DC) (x : Par.PSt DC Pc3) : Prop where
  prop : x.s.prop = s.prop
  opp : x.s.opp = s.opp
  fvB : ∀ v, (x.s.fv.data v).block = (s.fv.data v).block
  fvE : c.hasFixed = false → x.s.fv = s.fv
  pc : ∀ u ∈ us, x.pc u = .start ∨ (x.pc u = .rd (s.prop u) ∧ s.prop u ≠ u) ∨
    (Ok c s u ∧ (x.pc u = .own (s.prop u) ∨ (∃ p, x.pc u = .fixed (s.prop u) p ∧ c.hasFixed = true) ∨ x.pc u = .put (s.prop u) ∨ x.pc u = .rd2 (s.prop u) ∨ x.pc u = .put2 (s.prop u) (s.opp (s.prop u)))) ∨
    (Bad c s u ∧ (x.pc u = .own2 ∨ x.pc u = .push)) ∨ x.pc u = .fin
  cl : ∀ u, x.s.cl u = if u ∈ us ∧ Ok c s u ∧ pastPut (x.pc u) then s.prop u else s.cl u
  cw1 : ∀ t, x.s.cw t = s.cw t ∨ (x.s.cw t = s.opp t ∧ ∃ u ∈ us, Ok c s u ∧ s.prop u = t)
  cw2 : ∀ u ∈ us, Ok c s u → x.pc u = .fin → x.s.cw (s.prop u) = s.opp (s.prop u)
  cnt : (x.s.cnt : Int) = s.cnt + (us.map (fun u => if Ok c s u ∧ pastOwn (x.pc u) ∧ s.opp u = c.nw u then (1 : Int) else 0)).sum
  fixN : x.s.fix.Nodup
  fix : ∀ v, v ∈ x.s.fix ↔ v ∈ us ∧ s.prop v ≠ v ∧ pastOwn (x.pc v) ∧ s.opp v ≠ c.nw v
  hvN : x.s.heavy.Nodup
  hv : ∀ v, v ∈ x.s.heavy ↔ v ∈ us ∧ Bad c s v ∧ x.pc v = .fin

theorem Inv3.step {us : List Nat} (hn : us.Nodup) {s : DC} {x : Par.PSt DC Pc3} {u : Nat} {q : Pc3} {s2 : DC} (hu : u ∈ us)
    (ha : c.hasFixed = true → ∀ u ∈ us, s.prop u ≠ u → (s.fv.data (s.prop u)).block = none → (s.fv.data u).block = none) (hI : Inv3 c us s x)
    (hx : next3 c u (x.pc u) x.s = some (q, s2)) : Inv3 c us s ⟨s2, wr x.pc u q⟩ := by
  obtain ⟨hp, ho, hfb, hfe, hpc, hcl, hcw1, hcw2, hcnt, hfn, hfx, hhn, hhv⟩ := hI
  have hsum : (us.map (fun v => if Ok c s v ∧ pastOwn (wr x.pc u q v) ∧ s.opp v = c.nw v then (1 : Int) else 0)).sum =
      (us.map (fun v => if Ok c s v ∧ pastOwn (x.pc v) ∧ s.opp v = c.nw v then (1 : Int) else 0)).sum -
        (if Ok c s u ∧ pastOwn (x.pc u) ∧ s.opp u = c.nw u then 1 else 0) + (if Ok c s u ∧ pastOwn q ∧ s.opp u = c.nw u then 1 else 0) := by
    rw [sum_change hn hu (f := fun v => if Ok c s v ∧ pastOwn (x.pc v) ∧ s.opp v = c.nw v then (1 : Int) else 0)]
    · simp [wr_same]
    · intro v _ hv; simp [wr_other _ _ hv]
  -- how a new state is checked
  have fin : ∀ s3 : DC, s3.prop = s.prop → s3.opp = s.opp → (∀ v, (s3.fv.data v).block = (s.fv.data v).block) → (c.hasFixed = false → s3.fv = s.fv) →
      (q = .start ∨ (q = .rd (s.prop u) ∧ s.prop u ≠ u) ∨
        (Ok c s u ∧ (q = .own (s.prop u) ∨ (∃ p, q = .fixed (s.prop u) p ∧ c.hasFixed = true) ∨ q = .put (s.prop u) ∨ q = .rd2 (s.prop u) ∨ q = .put2 (s.prop u) (s.opp (s.prop u)))) ∨
        (Bad c s u ∧ (q = .own2 ∨ q = .push)) ∨ q = .fin) →
      (∀ v, v ≠ u → s3.cl v = x.s.cl v) → (s3.cl u = if Ok c s u ∧ pastPut q then s.prop u else s.cl u) →
      ((s3.cw = x.s.cw ∧ (q = .fin → Ok c s u → x.pc u = .fin)) ∨ (s3.cw = wr x.s.cw (s.prop u) (s.opp (s.prop u)) ∧ Ok c s u)) →
      ((s3.cnt : Int) = x.s.cnt - (if Ok c s u ∧ pastOwn (x.pc u) ∧ s.opp u = c.nw u then 1 else 0) + (if Ok c s u ∧ pastOwn q ∧ s.opp u = c.nw u then 1 else 0)) →
      (s3.fix = x.s.fix ∧ (pastOwn q = pastOwn (x.pc u) ∨ s.prop u = u ∨ s.opp u = c.nw u) ∨
        (s3.fix = x.s.fix ++ [u] ∧ s.prop u ≠ u ∧ s.opp u ≠ c.nw u ∧ pastOwn q = true ∧ pastOwn (x.pc u) = false)) →
      (s3.heavy = x.s.heavy ∧ (¬ Bad c s u ∨ ¬ q = .fin ∧ ¬ x.pc u = .fin) ∨ (s3.heavy = x.s.heavy ++ [u] ∧ Bad c s u ∧ q = .fin ∧ ¬ x.pc u = .fin)) →
      Inv3 c us s ⟨s3, wr x.pc u q⟩ := by
    intro s3 a1 a2 a3 a4 a5 a6 a7 a8 a9 a10 a11
    refine ⟨a1, a2, a3, a4, fun v hv => ?_, fun v => ?_, fun t => ?_, fun v hv hok => ?_, ?_, ?_, fun v => ?_, ?_, fun v => ?_⟩
    · by_cases h : v = u
      · subst h; simpa only [wr_same] using a5
      · simp only [wr_other _ _ h]; exact hpc v hv
    · by_cases h : v = u
      · subst h; simp only [wr_same, a7, hu, true_and]
      · simp only [wr_other _ _ h]; rw [a6 v h]; exact hcl v
    · simp only
      rcases a8 with ⟨a8, _⟩ | ⟨a8, hok⟩
      · rw [a8]; exact hcw1 t
      · rw [a8]
        by_cases h : t = s.prop u
        · subst h; exact .inr ⟨wr_same .., u, hu, hok, rfl⟩
        · rw [wr_other _ _ h]; exact hcw1 t
    · simp only
      intro hfin
      have old : v ≠ u → x.s.cw (s.prop v) = s.opp (s.prop v) := fun h => hcw2 v hv hok (by rwa [wr_other _ _ h] at hfin)
      rcases a8 with ⟨a8, hh⟩ | ⟨a8, _⟩
      · rw [a8]
        by_cases h : v = u
        · subst h; rw [wr_same] at hfin; exact hcw2 v hv hok (hh hfin hok)
        · exact old h
      · rw [a8]
        by_cases h : s.prop v = s.prop u
        · rw [h, wr_same]
        · rw [wr_other _ _ h]; exact old (by rintro rfl; exact h rfl)
    · simp only; rw [hsum, a9, hcnt]; omega
    · simp only
      rcases a10 with ⟨e, _⟩ | ⟨e, _, _, _, h4⟩
      · rw [e]; exact hfn
      · rw [e]
        refine List.nodup_append.2 ⟨hfn, by simp, ?_⟩
        intro a h1 b h2 hab
        simp only [List.mem_singleton] at h2
        subst h2; subst hab
        have := (hfx a).1 h1
        simp [h4] at this
    · simp only
      rcases a10 with ⟨e, h⟩ | ⟨e, h1, h2, h3, h4⟩ <;> rw [e]
      · by_cases hv : v = u
        · subst hv; rw [hfx v, wr_same]; grind
        · rw [wr_other _ _ hv]; exact hfx v
      · rw [List.mem_append, List.mem_singleton]
        by_cases hv : v = u
        · subst hv; rw [wr_same]; grind
        · rw [wr_other _ _ hv, hfx v]; grind
    · simp only
      rcases a11 with ⟨e, _⟩ | ⟨e, _, _, h4⟩
      · rw [e]; exact hhn
      · rw [e]
        refine List.nodup_append.2 ⟨hhn, by simp, ?_⟩
        intro a h1 b h2 hab
        simp only [List.mem_singleton] at h2
        subst h2; subst hab
        exact h4 ((hhv a).1 h1).2.2
    · simp only
      rcases a11 with ⟨e, h⟩ | ⟨e, h1, h2, h3⟩ <;> rw [e]
      · by_cases hv : v = u
        · subst hv; rw [hhv v, wr_same]; grind
        · rw [wr_other _ _ hv]; exact hhv v
      · rw [List.mem_append, List.mem_singleton]
        by_cases hv : v = u
        · subst hv; rw [wr_same]; grind
        · rw [wr_other _ _ hv, hhv v]; grind
  have hclu := hcl u
  have hokne : Ok c s u → ¬ Bad c s u := fun h1 h2 => by unfold Ok at h1; unfold Bad at h2; omega
  have hone : Ok c s u → s.prop u ≠ u := fun h => h.1
  have hbne : Bad c s u → s.prop u ≠ u := fun h => h.1
  rcases hpc u hu with h | ⟨h, hne⟩ | ⟨hok, h | ⟨p, h, hF⟩ | h | h | h⟩ | ⟨hbad, h | h⟩ | h <;> rw [h] at hx hclu fin <;>
    simp only [next3, pO_start, pP_start, pO_rd, pP_rd, pO_own, pP_own, pO_fixed, pP_fixed, pO_put, pP_put, pO_rd2, pP_rd2, pO_put2, pP_put2, pO_own2, pP_own2, pO_push, pP_push, pO_fin, pP_fin, Bool.false_eq_true, and_false, false_and, and_true, if_false, if_true, hu, true_and, reduceCtorEq, not_false_eq_true] at hx hclu fin
  · rw [hp] at hx
    by_cases h1 : s.prop u = u
    · have e : q = .fin ∧ s2 = x.s := by grind
      obtain ⟨rfl, rfl⟩ := e
      have h2 : ¬ Ok c s u := fun h => h.1 h1
      have h3 : ¬ Bad c s u := fun h => h.1 h1
      exact fin _ hp ho hfb hfe (by simp) (fun _ _ => rfl) (by simp [hclu, h2]) (.inl ⟨rfl, fun _ h => absurd h h2⟩) (by simp [h2]) (.inl ⟨rfl, .inr (.inl h1)⟩) (.inl ⟨rfl, .inl h3⟩)
    · have e : q = .rd (s.prop u) ∧ s2 = x.s := by grind
      obtain ⟨rfl, rfl⟩ := e
      exact fin _ hp ho hfb hfe (by simp [h1]) (fun _ _ => rfl) (by simp [hclu, pastPut]) (.inl ⟨rfl, by simp⟩) (by simp [pastOwn]) (.inl ⟨rfl, by simp [pastOwn]⟩) (.inl ⟨rfl, by simp⟩)
  · rw [ho] at hx
    by_cases h1 : s.opp (s.prop u) ≤ c.maxw
    · have e : q = .own (s.prop u) ∧ s2 = x.s := by grind
      obtain ⟨rfl, rfl⟩ := e
      have h2 : Ok c s u := ⟨hne, h1⟩
      exact fin _ hp ho hfb hfe (by simp [h2]) (fun _ _ => rfl) (by simp [hclu, pastPut]) (.inl ⟨rfl, by simp⟩) (by simp [pastOwn]) (.inl ⟨rfl, by simp [pastOwn]⟩) (.inl ⟨rfl, by simp⟩)
    · have e : q = .own2 ∧ s2 = x.s := by grind
      obtain ⟨rfl, rfl⟩ := e
      have h2 : Bad c s u := ⟨hne, by omega⟩
      exact fin _ hp ho hfb hfe (by simp [h2]) (fun _ _ => rfl) (by simp [hclu, pastPut]) (.inl ⟨rfl, by simp⟩) (by simp [pastOwn]) (.inl ⟨rfl, by simp [pastOwn]⟩) (.inl ⟨rfl, by simp⟩)
  · rw [ho] at hx
    simp only [Option.some.injEq, Prod.mk.injEq] at hx
    obtain ⟨e1, e2⟩ := hx
    have hq : pastOwn q = true ∧ pastPut q = false ∧ q ≠ .fin := by subst e1; split <;> simp [pastOwn, pastPut]
    have hq2 : (∃ p, q = .fixed (s.prop u) p ∧ c.hasFixed = true) ∨ q = .put (s.prop u) := by
      subst e1; split
      · next h => exact .inl ⟨_, rfl, h⟩
      · exact .inr rfl
    by_cases h1 : s.opp u = c.nw u
    · rw [if_pos h1] at e2
      subst e2
      exact fin _ hp rfl hfb hfe (.inr (.inr (.inl ⟨hok, .inr (hq2.elim .inl (fun h => .inr (.inl h)))⟩))) (fun _ _ => rfl) (by simp [hclu, hq.2.1]) (.inl ⟨rfl, fun h => absurd h hq.2.2⟩)
        (by simp [hok, hq.1, h1]) (.inl ⟨rfl, .inr (.inr h1)⟩) (.inl ⟨rfl, .inl (hokne hok)⟩)
    · rw [if_neg h1] at e2
      subst e2
      exact fin _ hp rfl hfb hfe (.inr (.inr (.inl ⟨hok, .inr (hq2.elim .inl (fun h => .inr (.inl h)))⟩))) (fun _ _ => rfl) (by simp [hclu, hq.2.1]) (.inl ⟨rfl, fun h => absurd h hq.2.2⟩)
        (by simp [h1]) (.inr ⟨rfl, hok.1, h1, hq.1⟩) (.inl ⟨rfl, .inl (hokne hok)⟩)
  · cases hF2 : nextF c (s.prop u) u p x.s.fv with
    | none =>
      rw [hF2] at hx
      simp only [Option.some.injEq, Prod.mk.injEq] at hx
      obtain ⟨rfl, rfl⟩ := hx
      exact fin _ hp ho hfb hfe (by simp [hok]) (fun _ _ => rfl) (by simp [hclu, pastPut]) (.inl ⟨rfl, by simp⟩) (by simp [pastOwn]) (.inl ⟨rfl, by simp [pastOwn]⟩) (.inl ⟨rfl, by simp⟩)
    | some r =>
      obtain ⟨p', f'⟩ := r
      rw [hF2] at hx
      simp only [Option.some.injEq, Prod.mk.injEq] at hx
      obtain ⟨rfl, rfl⟩ := hx
      have hb := nextF_block hF2 (by rw [hfb, hfb]; exact ha hF u hu hok.1)
      exact fin _ hp ho (fun v => (hb v).trans (hfb v)) (fun h => by rw [hF] at h; cases h) (.inr (.inr (.inl ⟨hok, .inr (.inl ⟨_, rfl, hF⟩)⟩))) (fun _ _ => rfl) (by simp [hclu, pastPut]) (.inl ⟨rfl, by simp⟩) (by simp [pastOwn]) (.inl ⟨rfl, by simp [pastOwn]⟩) (.inl ⟨rfl, by simp⟩)
  · simp only [Option.some.injEq, Prod.mk.injEq] at hx
    obtain ⟨rfl, rfl⟩ := hx
    exact fin _ hp ho hfb hfe (by simp [hok]) (fun v hv => wr_other _ _ hv) (by simp [wr_same, hok, pastPut]) (.inl ⟨rfl, by simp⟩) (by simp [pastOwn]) (.inl ⟨rfl, by simp [pastOwn]⟩) (.inl ⟨rfl, by simp⟩)
  · rw [ho] at hx
    simp only [Option.some.injEq, Prod.mk.injEq] at hx
    obtain ⟨rfl, rfl⟩ := hx
    exact fin _ hp ho hfb hfe (by simp [hok]) (fun v hv => rfl) (by simp [hclu, hok, pastPut]) (.inl ⟨rfl, by simp⟩) (by simp [pastOwn]) (.inl ⟨rfl, by simp [pastOwn]⟩) (.inl ⟨rfl, by simp⟩)
  · simp only [Option.some.injEq, Prod.mk.injEq] at hx
    obtain ⟨rfl, rfl⟩ := hx
    exact fin _ hp ho hfb hfe (by simp) (fun v hv => rfl) (by simp [hclu, hok, pastPut]) (.inr ⟨rfl, hok⟩) (by simp [pastOwn]) (.inl ⟨rfl, by simp [pastOwn]⟩) (.inl ⟨rfl, .inl (hokne hok)⟩)
  · rw [ho] at hx
    simp only [Option.some.injEq, Prod.mk.injEq] at hx
    obtain ⟨rfl, e2⟩ := hx
    have h3 : ¬ Ok c s u := fun h => hokne h hbad
    by_cases h1 : s.opp u = c.nw u
    · rw [if_neg (by simpa using h1)] at e2
      subst e2
      exact fin _ hp ho hfb hfe (by simp [hbad]) (fun v hv => rfl) (by simp [hclu, pastPut]) (.inl ⟨rfl, by simp⟩) (by simp [h3]) (.inl ⟨rfl, .inr (.inr h1)⟩) (.inl ⟨rfl, by simp⟩)
    · rw [if_pos h1] at e2
      subst e2
      exact fin _ hp rfl hfb hfe (by simp [hbad]) (fun v hv => rfl) (by simp [hclu, pastPut]) (.inl ⟨rfl, by simp⟩) (by simp [h3]) (.inr ⟨rfl, hbad.1, h1, rfl⟩) (.inl ⟨rfl, by simp⟩)
  · simp only [Option.some.injEq, Prod.mk.injEq] at hx
    obtain ⟨rfl, rfl⟩ := hx
    have h3 : ¬ Ok c s u := fun h => hokne h hbad
    exact fin _ hp ho hfb hfe (by simp) (fun v hv => rfl) (by simp [hclu, h3]) (.inl ⟨rfl, fun _ h => absurd h h3⟩) (by simp [h3]) (.inl ⟨rfl, by simp [pastOwn]⟩) (.inr ⟨rfl, hbad, rfl⟩)

/-- effect of the third loop -/
theorem loop3 {us : List Nat} (hn : us.Nodup) {s s' : DC} (hc : s.cnt = 0) (hfx : s.fix = []) (hh : s.heavy = [])
    (ha : c.hasFixed = true → ∀ u ∈ us, s.prop u ≠ u → (s.fv.data (s.prop u)).block = none → (s.fv.data u).block = none)
    (h : Par.For (next3 c) us .start .fin s s') :
    s'.prop = s.prop ∧ s'.opp = s.opp ∧ (∀ v, (s'.fv.data v).block = (s.fv.data v).block) ∧ (c.hasFixed = false → s'.fv = s.fv) ∧
    (∀ u, s'.cl u = if u ∈ us ∧ Ok c s u then s.prop u else s.cl u) ∧
    (∀ t, (∃ u ∈ us, Ok c s u ∧ s.prop u = t) → s'.cw t = s.opp t) ∧ (∀ t, (¬ ∃ u ∈ us, Ok c s u ∧ s.prop u = t) → s'.cw t = s.cw t) ∧
    (s'.cnt : Int) = (us.map (fun u => if Ok c s u ∧ s.opp u = c.nw u then (1 : Int) else 0)).sum ∧
    s'.fix.Nodup ∧ (∀ v, v ∈ s'.fix ↔ v ∈ us ∧ s.prop v ≠ v ∧ s.opp v ≠ c.nw v) ∧
    s'.heavy.Nodup ∧ (∀ v, v ∈ s'.heavy ↔ v ∈ us ∧ Bad c s v) := by
  have i0 : Inv3 c us s ⟨s, fun _ => .start⟩ := by
    refine ⟨rfl, rfl, fun _ => rfl, fun _ => rfl, fun _ _ => .inl rfl, fun u => by simp [pastPut], fun t => .inl rfl, fun _ _ _ h => by simp at h, ?_,
      by simp [hfx], fun v => by simp [hfx, pastOwn], by simp [hh], fun v => by simp [hh]⟩
    simp only [pastOwn]
    rw [sum_zero (by simp)]; omega
  obtain ⟨pc, hI, hf⟩ := h.of_inv i0 (fun x u p s2 hu hI hx => hI.step hn hu ha hx)
  have hf' : ∀ u, u ∈ us → pc u = .fin := hf
  refine ⟨hI.prop, hI.opp, hI.fvB, hI.fvE, fun u => ?_, fun t => ?_, fun t ht => ?_, ?_, hI.fixN, fun v => ?_, hI.hvN, fun v => ?_⟩
  · rw [hI.cl u]
    by_cases hu : u ∈ us
    · simp [hu, hf' u hu, pastPut]
    · simp [hu]
  · rintro ⟨u, hu, hok, rfl⟩
    exact hI.cw2 u hu hok (hf' u hu)
  · rcases hI.cw1 t with h | ⟨_, h⟩
    · exact h
    · exact absurd h ht
  · rw [hI.cnt, hc]
    rw [List.map_congr_left (g := fun u => if Ok c s u ∧ s.opp u = c.nw u then (1 : Int) else 0) fun u hu => by simp [hf' u hu, pastOwn]]
    omega
  · rw [hI.fix v]
    constructor
    · rintro ⟨a, b, _, d⟩; exact ⟨a, b, d⟩
    · rintro ⟨a, b, d⟩; exact ⟨a, b, by simp [hf' v a, pastOwn], d⟩
  · rw [hI.hv v]
    constructor
    · rintro ⟨a, b, _⟩; exact ⟨a, b⟩
    · rintro ⟨a, b⟩; exact ⟨a, b, hf' v a⟩

end DetC
end Verif
