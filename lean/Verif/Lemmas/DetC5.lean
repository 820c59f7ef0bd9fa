import Verif.Lemmas.DetC4
/-!
# Lemmas: end of `approveNodes`, weights of left clusters
-/
namespace Verif
namespace DetC
open SMap (wr)
variable {α : Type} {c : Cfg α}

/-- the nodes that `approveNodes` accepts -/
def Acc (c : Cfg α) (s : DC) (hv : List Nat) (v : Nat) : Prop := v ∈ (grp s.prop hv (s.prop v)).take (nAcc c s hv (s.prop v))

instance (s : DC) (hv : List Nat) (v : Nat) : Decidable (Acc c s hv v) := by unfold Acc; infer_instance

/-- the number of contracted nodes that `approveNodes` reports -/
def cntAcc (c : Cfg α) (s : DC) (hv : List Nat) : Int :=
  ((List.range hv.length).map (fun pos => match hv[pos]? with
    | some v => if pos = gst s.prop hv (s.prop v) then (kAcc c s hv (s.prop v) (nAcc c s hv (s.prop v)) : Int) else 0
    | none => 0)).sum

theorem inv4_init (c : Cfg α) (hv : List Nat) (s : DC) : Inv4 c hv s ⟨s, fun _ => .start⟩ := by
  refine ⟨rfl, rfl, fun _ => rfl, fun _ => rfl, fun _ _ => .start, fun _ _ _ => .inl rfl, fun v => by simp [prg], fun t => by simp [pastCw], fun t => by simp [pastOpp], ?_⟩
  rw [sum_zero]; · simp
  intro x _; split <;> simp

theorem loop4 {hv : List Nat} {s s' : DC} (hs : hv.Pairwise (fun a b => s.prop a ≤ s.prop b)) (hnd : hv.Nodup)
    (ha : c.hasFixed = true → ∀ u ∈ hv, (s.fv.data (s.prop u)).block = none → (s.fv.data u).block = none)
    (hlen : ∀ t, grp s.prop hv t ≠ [] → nAcc c s hv t < (grp s.prop hv t).length)
    (hopp : ∀ v ∈ hv, grp s.prop hv v ≠ [] → s.opp v ≠ c.nw v ∧ wAcc c s hv v (nAcc c s hv v) ≠ c.nw v)
    (h : Par.For (next4 c hv) (List.range hv.length) .start .fin s s') :
    s'.prop = s.prop ∧ s'.fix = s.fix ∧ (∀ v, (s'.fv.data v).block = (s.fv.data v).block) ∧ (c.hasFixed = false → s'.fv = s.fv) ∧
    (∀ v, s'.cl v = if Acc c s hv v then s.prop v else s.cl v) ∧
    (∀ t, grp s.prop hv t ≠ [] → s'.cw t = wAcc c s hv t (nAcc c s hv t) ∧ s'.opp t = wAcc c s hv t (nAcc c s hv t)) ∧
    (∀ t, grp s.prop hv t = [] → s'.cw t = s.cw t ∧ s'.opp t = s.opp t) ∧
    (s'.cnt : Int) = s.cnt + cntAcc c s hv := by
  obtain ⟨pc, hI, hf⟩ := Par.For.of_inv (I := Inv4 c hv s) (inv4_init c hv s)
    (fun x u p s' hu hI hx => hI.step hs hnd (List.mem_range.1 hu) ha hlen hopp hx) h
  have hg : ∀ t, grp s.prop hv t ≠ [] → pc (gst s.prop hv t) = .fin := by
    intro t ht
    obtain ⟨v, hv', _⟩ := gst_self hs ht
    exact hf _ (List.mem_range.2 (List.getElem?_eq_some_iff.1 hv').1)
  refine ⟨hI.prop, hI.fix, hI.fvB, hI.fvE, fun v => ?_, fun t ht => ?_, fun t ht => ?_, ?_⟩
  · rw [hI.cl v]
    unfold Acc
    by_cases h0 : grp s.prop hv (s.prop v) = []
    · simp [h0]
    · simp only [hg _ h0, prg]
  · rw [hI.cw t, hI.opp t]; simp [ht, hg t ht, pastCw, pastOpp]
  · rw [hI.cw t, hI.opp t]; simp [ht]
  · rw [hI.cnt]
    unfold cntAcc
    congr 2
    apply List.map_congr_left
    intro pos hpos
    have : pc pos = .fin := hf pos hpos
    simp only [this, and_true]
    cases hv[pos]? <;> rfl

/-- bound on the remaining steps of an iteration -/
def rank4 (n : Nat) : Pc4 → Nat
  | .start => (n + 2) * 20 + 20
  | .rd _ => (n + 2) * 20 + 19
  | .loop _ i _ _ => (n + 1 - i) * 20 + 10
  | .fixed _ i _ _ p => (n + 1 - i) * 20 + (match p with | .start => 9 | .commit _ => 8 | .undo _ => 8 | .fin => 7)
  | .put _ i _ _ => (n + 1 - i) * 20 + 6
  | .own _ i _ _ => (n + 1 - i) * 20 + 5
  | .put1 _ _ _ => 4
  | .put2 _ _ _ => 3
  | .count _ => 2
  | .fin => 0

/-- bound on the remaining steps of `contractWithoutChains` -/
def rankF : FPc → Nat
  | .start => 2
  | .commit _ => 1
  | .undo _ => 1
  | .fin => 0

theorem rankF_step {t u : Nat} {p p' : FPc} {f f' : FVS} (h : nextF c t u p f = some (p', f')) : rankF p' < rankF p := by
  cases p with
  | start =>
    simp only [nextF] at h
    split at h
    · simp only [Option.some.injEq, Prod.mk.injEq] at h; obtain ⟨rfl, _⟩ := h; simp [rankF]
    · simp only [Option.some.injEq, Prod.mk.injEq] at h; obtain ⟨h, _⟩ := h; subst h; split <;> simp [rankF]
    · simp only [Option.some.injEq, Prod.mk.injEq] at h; obtain ⟨rfl, _⟩ := h; simp [rankF]
  | commit b => simp only [nextF, Option.some.injEq, Prod.mk.injEq] at h; obtain ⟨rfl, _⟩ := h; simp [rankF]
  | undo b => simp only [nextF, Option.some.injEq, Prod.mk.injEq] at h; obtain ⟨rfl, _⟩ := h; simp [rankF]
  | fin => simp [nextF] at h

theorem rank4_step {hv : List Nat} {pos : Nat} {p q : Pc4} {s s' : DC} (h : next4 c hv pos p s = some (q, s')) : rank4 hv.length q < rank4 hv.length p := by
  have hlt : ∀ i w, hv[i]? = some w → i < hv.length := fun i w h => (List.getElem?_eq_some_iff.1 h).1
  cases p with
  | start =>
    simp only [next4] at h
    split at h
    · cases h
    · split at h <;> (simp only [Option.some.injEq, Prod.mk.injEq] at h; obtain ⟨rfl, _⟩ := h; simp [rank4])
  | rd t =>
    simp only [next4, Option.some.injEq, Prod.mk.injEq] at h; obtain ⟨rfl, _⟩ := h; simp only [rank4]; omega
  | loop t i w k =>
    simp only [next4] at h
    split at h
    · cases h
    · next v hv' =>
      have := hlt _ _ hv'
      split at h
      · simp only [Option.some.injEq, Prod.mk.injEq] at h; obtain ⟨rfl, _⟩ := h; simp only [rank4]; omega
      · split at h <;> (simp only [Option.some.injEq, Prod.mk.injEq] at h; obtain ⟨rfl, _⟩ := h; simp only [rank4]; omega)
  | fixed t i w k p =>
    simp only [next4] at h
    split at h
    · cases h
    · split at h
      · next p' f hF =>
        have := rankF_step hF
        simp only [Option.some.injEq, Prod.mk.injEq] at h; obtain ⟨rfl, _⟩ := h
        cases p <;> cases p' <;> simp [rankF, rank4] at this ⊢
      · simp only [Option.some.injEq, Prod.mk.injEq] at h; obtain ⟨rfl, _⟩ := h
        cases p <;> simp only [rank4] <;> omega
  | put t i w k =>
    simp only [next4] at h
    split at h
    · cases h
    · simp only [Option.some.injEq, Prod.mk.injEq] at h; obtain ⟨rfl, _⟩ := h; simp only [rank4]; omega
  | own t i w k =>
    simp only [next4] at h
    split at h
    · cases h
    · next v hv' =>
      have := hlt _ _ hv'
      simp only [Option.some.injEq, Prod.mk.injEq] at h; obtain ⟨rfl, _⟩ := h; simp only [rank4]; omega
  | put1 t w k => simp only [next4, Option.some.injEq, Prod.mk.injEq] at h; obtain ⟨rfl, _⟩ := h; simp [rank4]
  | put2 t w k => simp only [next4, Option.some.injEq, Prod.mk.injEq] at h; obtain ⟨rfl, _⟩ := h; simp [rank4]
  | count k => simp only [next4, Option.some.injEq, Prod.mk.injEq] at h; obtain ⟨rfl, _⟩ := h; simp [rank4]
  | fin => simp [next4] at h

/-- `approveNodes` never leaves its array -/
theorem next4_ne_none {hv : List Nat} {s : DC} {x : Par.PSt DC Pc4} {pos : Nat} (hs : hv.Pairwise (fun a b => s.prop a ≤ s.prop b))
    (hlen : ∀ t, grp s.prop hv t ≠ [] → nAcc c s hv t < (grp s.prop hv t).length) (hu : pos < hv.length)
    (hI : Inv4 c hv s x) (hpc : x.pc pos ≠ .fin) : next4 c hv pos (x.pc pos) x.s ≠ none := by
  obtain ⟨v0, hv0⟩ : ∃ v, hv[pos]? = some v := ⟨_, List.getElem?_eq_getElem hu⟩
  by_cases hF : First s hv pos
  · obtain ⟨v1, hv1, hpos⟩ := hF
    rw [hv0] at hv1; cases hv1
    have hgt : grp s.prop hv (s.prop v0) ≠ [] := List.ne_nil_of_mem (mem_grp.2 ⟨List.mem_of_getElem? hv0, rfl⟩)
    have hok := hI.pcF _ hgt
    rw [← hpos] at hok
    have hget : ∀ j, j < nAcc c s hv (s.prop v0) + 1 → ∃ w, hv[pos + j]? = some w := by
      intro j hj
      have hl : j < (grp s.prop hv (s.prop v0)).length := by have := hlen _ hgt; omega
      refine ⟨(grp s.prop hv (s.prop v0))[j], ?_⟩
      rw [hpos, grp_get hs hl, List.getElem?_eq_getElem hl]
    generalize x.pc pos = pc at hok hpc
    cases hok with
    | start => simp only [next4, hv0]; split <;> simp
    | rd => simp [next4]
    | loop j hj =>
      obtain ⟨w, hw⟩ := hget j (by omega)
      simp only [next4, hw]; split; simp; split <;> simp
    | fixed j hj p hf =>
      obtain ⟨w, hw⟩ := hget j (by omega)
      simp only [next4, hw]; split <;> simp
    | put j hj =>
      obtain ⟨w, hw⟩ := hget j (by omega)
      simp [next4, hw]
    | own j hj =>
      obtain ⟨w, hw⟩ := hget j (by omega)
      simp [next4, hw]
    | put1 => simp [next4]
    | put2 => simp [next4]
    | count => simp [next4]
    | fin => exact absurd rfl hpc
  · rcases hI.pcN pos hu hF with h | h
    · rw [h]; simp only [next4, hv0]; split <;> simp
    · exact absurd h hpc

/-! ### Last loop -/

def past5 : Pc5 → Bool
  | .put2 _ _ => true
  | .rd2 _ => true
  | .fin => true
  | _ => false

/-- state during the last loop -/
structure Inv5 (c : Cfg α) (fx : List Nat) (s : DC) (x : Par.PSt DC Pc5) : Prop where
  cl : x.s.cl = s.cl
  prop : x.s.prop = s.prop
  fv : x.s.fv = s.fv
  cnt : x.s.cnt = s.cnt
  pc : ∀ i h, fx[i]? = some h → x.pc i = .start ∨ (s.cl h ≠ h ∧ (x.pc i = .put1 h (s.cw h) ∨ x.pc i = .rd2 h ∨ x.pc i = .put2 h (s.opp h))) ∨ x.pc i = .fin
  cw : ∀ i h, fx[i]? = some h → x.s.cw h = if s.cl h ≠ h ∧ past5 (x.pc i) then s.cw h - c.nw h else s.cw h
  opp : ∀ i h, fx[i]? = some h → x.s.opp h = if s.cl h ≠ h ∧ x.pc i = .fin then s.opp h - c.nw h else s.opp h
  other : ∀ h, h ∉ fx → x.s.cw h = s.cw h ∧ x.s.opp h = s.opp h

theorem Inv5.step {fx : List Nat} (hnd : fx.Nodup) {s : DC} {x : Par.PSt DC Pc5} {i : Nat} {q : Pc5} {s2 : DC}
    (hI : Inv5 c fx s x) (hx : next5 c fx i (x.pc i) x.s = some (q, s2)) (hi : i < fx.length) : Inv5 c fx s ⟨s2, wr x.pc i q⟩ := by
  obtain ⟨i1, i2, i3, i4, i5, i6, i7, i8⟩ := hI
  obtain ⟨h, hh⟩ : ∃ v, fx[i]? = some v := ⟨_, List.getElem?_eq_getElem hi⟩
  have hinj : ∀ j h', fx[j]? = some h' → j ≠ i → h' ≠ h := by
    rintro j h' hj hne rfl
    obtain ⟨a1, a2⟩ := List.getElem?_eq_some_iff.1 hj
    obtain ⟨b1, b2⟩ := List.getElem?_eq_some_iff.1 hh
    exact hne ((List.Nodup.getElem_inj_iff hnd).1 (a2.trans b2.symm))
  have hmem : h ∈ fx := List.mem_of_getElem? hh
  have fin : ∀ s3 : DC, s3.cl = s.cl → s3.prop = s.prop → s3.fv = s.fv → s3.cnt = s.cnt →
      (q = .start ∨ (s.cl h ≠ h ∧ (q = .put1 h (s.cw h) ∨ q = .rd2 h ∨ q = .put2 h (s.opp h))) ∨ q = .fin) →
      (s3.cw h = if s.cl h ≠ h ∧ past5 q then s.cw h - c.nw h else s.cw h) →
      (s3.opp h = if s.cl h ≠ h ∧ q = .fin then s.opp h - c.nw h else s.opp h) →
      (∀ h', h' ≠ h → s3.cw h' = x.s.cw h' ∧ s3.opp h' = x.s.opp h') → Inv5 c fx s ⟨s3, wr x.pc i q⟩ := by
    intro s3 a1 a2 a3 a4 a5 a6 a7 a8
    refine ⟨a1, a2, a3, a4, fun j h' hj => ?_, fun j h' hj => ?_, fun j h' hj => ?_, fun h' hh' => ?_⟩
    · by_cases e : j = i
      · subst e; rw [hh] at hj; cases hj; simp only [wr_same]; exact a5
      · simp only [wr_other _ _ e]; exact i5 j h' hj
    · by_cases e : j = i
      · subst e; rw [hh] at hj; cases hj; simp only [wr_same]; exact a6
      · simp only [wr_other _ _ e]; rw [(a8 h' (hinj j h' hj e)).1]; exact i6 j h' hj
    · by_cases e : j = i
      · subst e; rw [hh] at hj; cases hj; simp only [wr_same]; exact a7
      · simp only [wr_other _ _ e]; rw [(a8 h' (hinj j h' hj e)).2]; exact i7 j h' hj
    · have : h' ≠ h := by rintro rfl; exact hh' hmem
      have b := a8 h' this
      have d := i8 h' hh'
      exact ⟨b.1.trans d.1, b.2.trans d.2⟩
  have j5 := i5 i h hh
  have j6 := i6 i h hh
  have j7 := i7 i h hh
  rcases j5 with e | ⟨hne, e | e | e⟩ | e <;> simp only [e] at hx j6 j7
  · simp only [next5, hh, i1] at hx
    split at hx
    · next hne =>
      simp only [Option.some.injEq, Prod.mk.injEq] at hx
      obtain ⟨rfl, rfl⟩ := hx
      have h6 : x.s.cw h = s.cw h := by rw [j6]; simp [past5]
      refine fin _ i1 i2 i3 i4 (.inr (.inl ⟨hne, .inl (by rw [h6])⟩)) (by rw [h6]; simp [past5]) (by rw [j7]; simp) (fun _ _ => ⟨rfl, rfl⟩)
    · next hne =>
      simp only [Option.some.injEq, Prod.mk.injEq] at hx
      obtain ⟨rfl, rfl⟩ := hx
      refine fin _ i1 i2 i3 i4 (.inr (.inr rfl)) (by rw [j6]; simp [past5, hne]) (by rw [j7]; simp [hne]) (fun _ _ => ⟨rfl, rfl⟩)
  · simp only [next5, Option.some.injEq, Prod.mk.injEq] at hx
    obtain ⟨rfl, rfl⟩ := hx
    refine fin _ i1 i2 i3 i4 (.inr (.inl ⟨hne, .inr (.inl rfl)⟩)) (by simp [wr_same, hne, past5]) (by simp only; rw [j7]; simp) (fun h' hh' => ⟨wr_other _ _ hh', rfl⟩)
  · simp only [next5, Option.some.injEq, Prod.mk.injEq] at hx
    obtain ⟨rfl, rfl⟩ := hx
    have h7 : x.s.opp h = s.opp h := by rw [j7]; simp
    refine fin _ i1 i2 i3 i4 (.inr (.inl ⟨hne, .inr (.inr (by rw [h7]))⟩)) (by rw [j6]; simp [past5]) (by rw [j7]; simp) (fun _ _ => ⟨rfl, rfl⟩)
  · simp only [next5, Option.some.injEq, Prod.mk.injEq] at hx
    obtain ⟨rfl, rfl⟩ := hx
    refine fin _ i1 i2 i3 i4 (.inr (.inr rfl)) (by simp only; rw [j6]; simp [past5]) (by simp [wr_same, hne, past5]) (fun h' hh' => ⟨rfl, wr_other _ _ hh'⟩)
  · simp [next5] at hx

theorem inv5_init (c : Cfg α) (fx : List Nat) (s : DC) : Inv5 c fx s ⟨s, fun _ => .start⟩ :=
  ⟨rfl, rfl, rfl, rfl, fun _ _ _ => .inl rfl, fun _ _ _ => by simp [past5], fun _ _ _ => by simp, fun _ _ => ⟨rfl, rfl⟩⟩

theorem loop5 {fx : List Nat} (hnd : fx.Nodup) {s s' : DC} (h : Par.For (next5 c fx) (List.range fx.length) .start .fin s s') :
    s'.cl = s.cl ∧ s'.prop = s.prop ∧ s'.fv = s.fv ∧ s'.cnt = s.cnt ∧
    (∀ v, s'.cw v = if v ∈ fx ∧ s.cl v ≠ v then s.cw v - c.nw v else s.cw v) ∧
    (∀ v, s'.opp v = if v ∈ fx ∧ s.cl v ≠ v then s.opp v - c.nw v else s.opp v) := by
  obtain ⟨pc, hI, hf⟩ := Par.For.of_inv (I := Inv5 c fx s) (inv5_init c fx s)
    (fun x u p s' hu hI hx => hI.step hnd hx (List.mem_range.1 hu)) h
  refine ⟨hI.cl, hI.prop, hI.fv, hI.cnt, fun v => ?_, fun v => ?_⟩
  · by_cases hv : v ∈ fx
    · obtain ⟨i, hi, e⟩ := List.mem_iff_getElem.1 hv
      have := hI.cw i v (by rw [List.getElem?_eq_getElem hi, e])
      have hfi := hf i (List.mem_range.2 hi)
      simp only at this hfi
      rw [this]; simp [hfi, hv, past5]
    · rw [if_neg (by simp [hv])]; exact (hI.other v hv).1
  · by_cases hv : v ∈ fx
    · obtain ⟨i, hi, e⟩ := List.mem_iff_getElem.1 hv
      have := hI.opp i v (by rw [List.getElem?_eq_getElem hi, e])
      have hfi := hf i (List.mem_range.2 hi)
      simp only at this hfi
      rw [this]; simp [hfi, hv, past5]
    · rw [if_neg (by simp [hv])]; exact (hI.other v hv).2

end DetC
end Verif
