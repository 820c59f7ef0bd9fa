import Verif.Lemmas.TW2
/-! # 2-way FM: delta gain updates -/
namespace Verif
namespace TwoWay
open DFlow (set set_same set_other set_apply)

variable {ι : Type} {c : Cfg ι}

theorem sum_change {l : List Nat} (hn : l.Nodup) {f g : Nat → Int} {e : Nat} (h : ∀ x, x ≠ e → f x = g x) :
    (l.map g).sum = (l.map f).sum + (if e ∈ l then g e - f e else 0) := by
  induction l with
  | nil => simp
  | cons a l ih =>
    obtain ⟨ha, hl⟩ := List.nodup_cons.1 hn
    have := ih hl
    rw [List.map_cons, List.sum_cons, List.map_cons, List.sum_cons]
    by_cases hae : a = e
    · subst hae
      rw [if_neg ha] at this
      rw [if_pos (by simp)]; omega
    · have hea : ¬ e = a := fun hh => hae hh.symm
      rw [h a hae]
      simp only [List.mem_cons, hea, false_or]
      omega

/-- gain of `v` in block `b`, hyperedge by hyperedge -/
def gsum (H : HG) (f : Nat → Assign) (v b : Nat) : Int := ((H.inc v).map (fun e => contrib H (f e) b (1 - b) e)).sum

theorem gsum_snoc {H : HG} (hw : H.WF) {Φ Φ' : Assign} {D : List Nat} {e v b : Nat} (hv : v ∈ H.nodes) (he : e ∈ H.edges) (hD : e ∉ D) :
    gsum H (mix Φ Φ' (D ++ [e])) v b = gsum H (mix Φ Φ' D) v b + (if v ∈ H.pins e then contrib H Φ' b (1 - b) e - contrib H Φ b (1 - b) e else 0) := by
  have := sum_change (hw.inc_nodup v hv) (f := fun x => contrib H (mix Φ Φ' D x) b (1 - b) x) (g := fun x => contrib H (mix Φ Φ' (D ++ [e]) x) b (1 - b) x)
    (e := e) (fun x hx => by simp only [mix_snoc hx])
  have e1 : mix Φ Φ' D e = Φ := by unfold mix; rw [if_neg hD]
  have e2 : mix Φ Φ' (D ++ [e]) e = Φ' := by unfold mix; rw [if_pos (by simp)]
  have hi : e ∈ H.inc v ↔ v ∈ H.pins e := by rw [hw.inc_iff v hv]; simp [he]
  simp only [e1, e2, hi] at this
  exact this

theorem contrib_congr {H : HG} {Φ Ψ : Assign} {e : Nat} (h : ∀ v ∈ H.pins e, Φ v = Ψ v) (a b : Nat) : contrib H Φ a b e = contrib H Ψ a b e := by
  unfold contrib
  rw [HG.pinsIn_congr h a, HG.pinsIn_congr h b]

theorem gsum_full {H : HG} {Φ : Assign} {hn src : Nat} (hM : Mov H Φ hn src) {v b : Nat} (hv : v ∈ H.nodes) :
    gsum H (mix Φ (Φ.put hn (1 - src)) (H.inc hn)) v b = computeGain H (Φ.put hn (1 - src)) v b (1 - b) := by
  unfold gsum computeGain
  congr 1
  apply List.map_congr_left
  intro e he
  obtain ⟨he', hp⟩ := (hM.wf.inc_iff v hv e).1 he
  unfold mix
  by_cases hh : e ∈ H.inc hn
  · rw [if_pos hh]
  · rw [if_neg hh]
    apply contrib_congr
    intro u hu
    rw [Assign.put_other]
    rintro rfl
    exact hh ((hM.wf.inc_iff u hM.mem e).2 ⟨he', hu⟩)

theorem two_in {H : HG} {Φ : Assign} {e b v x : Nat} (hv : v ∈ H.pins e) (hx : x ∈ H.pins e) (hne : v ≠ x) (h1 : Φ v = some b) (h2 : Φ x = some b) :
    1 < H.pinsIn Φ e b := by
  unfold HG.pinsIn
  rw [List.countP_eq_length_filter]
  have m1 : v ∈ (H.pins e).filter (fun u => decide (Φ u = some b)) := List.mem_filter.2 ⟨hv, by simp [h1]⟩
  have m2 : x ∈ (H.pins e).filter (fun u => decide (Φ u = some b)) := List.mem_filter.2 ⟨hx, by simp [h2]⟩
  generalize (H.pins e).filter (fun u => decide (Φ u = some b)) = l at m1 m2
  match l, m1, m2 with
  | [a], m1, m2 => rw [List.mem_singleton] at m1 m2; exact absurd (m1.trans m2.symm) hne
  | a :: a' :: l, _, _ => simp

theorem one_in {H : HG} {Φ : Assign} {e b x : Nat} (hx : x ∈ H.pins e) (h2 : Φ x = some b) : 0 < H.pinsIn Φ e b := by
  unfold HG.pinsIn
  rw [List.countP_pos_iff]
  exact ⟨x, hx, by simp [h2]⟩

theorem contrib_zero {H : HG} {Φ : Assign} {e b v x y : Nat} (hv : v ∈ H.pins e) (hx : x ∈ H.pins e) (hy : y ∈ H.pins e) (hne : v ≠ x)
    (h1 : Φ v = some b) (h2 : Φ x = some b) (h3 : Φ y = some (1 - b)) : contrib H Φ b (1 - b) e = 0 := by
  have a := two_in hv hx hne h1 h2
  have d := one_in hy h3
  unfold contrib
  rw [if_neg (c := H.pinsIn Φ e (1 - b) = 0) (by omega), if_neg (c := H.pinsIn Φ e b = 1) (by omega)]
  simp

theorem delta_spec {Φ : Assign} {hn src : Nat} (hM : Mov c.H Φ hn src) {s : St} (hΦ : s.Φ = Φ.put hn (1 - src)) {e : Nat} (he : e ∈ c.H.inc hn)
    (hl : (c.H.pins e).length > 1) : ∃ δ : Nat → Int, Bump s (deltaGainUpdate c s e src (1 - src)) (fun v => v ∈ c.H.pins e) δ ∧
      ∀ v ∈ c.H.pins e, v ≠ hn → ∀ b, Φ v = some b → δ v = contrib c.H (Φ.put hn (1 - src)) b (1 - b) e - contrib c.H Φ b (1 - b) e := by
  obtain ⟨he', hp⟩ := (hM.wf.inc_iff hn hM.mem e).1 he
  obtain ⟨k1, k2, k3⟩ := hM.cnt he
  have hpn := hM.wf.pins_nodup e he'
  have hlt := hM.lt
  have hdd : 1 - (1 - src) = src := by omega
  have hsd : src ≠ 1 - src := by omega
  -- the change of the contribution in both cases
  have inS : ∀ v ∈ c.H.pins e, v ≠ hn → Φ v = some src → contrib c.H (Φ.put hn (1 - src)) src (1 - src) e - contrib c.H Φ src (1 - src) e =
      (if c.H.pinsIn (Φ.put hn (1 - src)) e src = 1 then c.H.ew e else 0) + (if c.H.pinsIn (Φ.put hn (1 - src)) e (1 - src) = 1 then c.H.ew e else 0) := by
    intro v hv hne hb
    have := hM.inSrc he hv hb hne
    unfold contrib
    rw [if_pos hl, if_pos hl, k1, if_neg (c := c.H.pinsIn (Φ.put hn (1 - src)) e (1 - src) = 0) (by omega),
      if_neg (c := c.H.pinsIn (Φ.put hn (1 - src)) e src + 1 = 1) (by omega)]
    by_cases q : c.H.pinsIn (Φ.put hn (1 - src)) e (1 - src) = 1
    · rw [if_pos q, if_pos (c := c.H.pinsIn Φ e (1 - src) = 0) (by omega)]; omega
    · rw [if_neg q, if_neg (c := c.H.pinsIn Φ e (1 - src) = 0) (by omega)]; omega
  have inD : ∀ v ∈ c.H.pins e, Φ v = some (1 - src) → contrib c.H (Φ.put hn (1 - src)) (1 - src) src e - contrib c.H Φ (1 - src) src e =
      - (if c.H.pinsIn (Φ.put hn (1 - src)) e src = 0 then c.H.ew e else 0) - (if c.H.pinsIn (Φ.put hn (1 - src)) e (1 - src) = 2 then c.H.ew e else 0) := by
    intro v hv hb
    have := hM.inDst he hv hb
    unfold contrib
    rw [if_pos hl, if_pos hl, k1, if_neg (c := c.H.pinsIn (Φ.put hn (1 - src)) e (1 - src) = 1) (by omega),
      if_neg (c := c.H.pinsIn (Φ.put hn (1 - src)) e src + 1 = 0) (by omega)]
    by_cases q : c.H.pinsIn (Φ.put hn (1 - src)) e (1 - src) = 2
    · rw [if_pos q, if_pos (c := c.H.pinsIn Φ e (1 - src) = 1) (by omega)]
      by_cases q' : c.H.pinsIn (Φ.put hn (1 - src)) e src = 0
      · rw [if_pos q']; omega
      · rw [if_neg q']; omega
    · rw [if_neg q, if_neg (c := c.H.pinsIn Φ e (1 - src) = 1) (by omega)]
      by_cases q' : c.H.pinsIn (Φ.put hn (1 - src)) e src = 0
      · rw [if_pos q']; omega
      · rw [if_neg q']; omega
  -- reduce the second part to the two cases
  have red : ∀ δ : Nat → Int, (∀ v ∈ c.H.pins e, v ≠ hn → Φ v = some src → 0 < c.H.pinsIn (Φ.put hn (1 - src)) e src → δ v =
        (if c.H.pinsIn (Φ.put hn (1 - src)) e src = 1 then c.H.ew e else 0) + (if c.H.pinsIn (Φ.put hn (1 - src)) e (1 - src) = 1 then c.H.ew e else 0)) →
      (∀ v ∈ c.H.pins e, v ≠ hn → Φ v = some (1 - src) → 1 < c.H.pinsIn (Φ.put hn (1 - src)) e (1 - src) → δ v =
        - (if c.H.pinsIn (Φ.put hn (1 - src)) e src = 0 then c.H.ew e else 0) - (if c.H.pinsIn (Φ.put hn (1 - src)) e (1 - src) = 2 then c.H.ew e else 0)) →
      ∀ v ∈ c.H.pins e, v ≠ hn → ∀ b, Φ v = some b → δ v = contrib c.H (Φ.put hn (1 - src)) b (1 - b) e - contrib c.H Φ b (1 - b) e := by
    intro δ h1 h2 v hv hne b hb
    rcases hM.which (hM.wf.pins_mem e he' v hv) with h | h
    · rw [h] at hb; cases hb
      rw [inS v hv hne h]; exact h1 v hv hne h (hM.inSrc he hv h hne)
    · rw [h] at hb; cases hb
      rw [hdd, inD v hv h]; exact h2 v hv hne h (hM.inDst he hv h)
  have hput : ∀ v, v ≠ hn → Φ.put hn (1 - src) v = Φ v := fun v h => Assign.put_other Φ h
  unfold deltaGainUpdate
  rw [hΦ]
  dsimp only
  generalize hf : c.H.pinsIn (Φ.put hn (1 - src)) e src = f at *
  generalize ht : c.H.pinsIn (Φ.put hn (1 - src)) e (1 - src) = t at *
  by_cases h0 : t = 1 ∨ f = 0 ∨ f = 1 ∨ t = 2
  swap
  · rw [if_neg h0]
    refine ⟨fun _ => 0, Bump.zero _ _ (fun _ _ => rfl), red _ ?_ ?_⟩
    · intro v _ _ _ _; rw [if_neg (by omega), if_neg (by omega)]; rfl
    · intro v _ _ _ _; rw [if_neg (by omega), if_neg (by omega)]; rfl
  rw [if_pos h0]
  by_cases h2 : (c.H.pins e).length = 2
  · rw [if_pos h2]
    refine ⟨fun v => (if Φ.put hn (1 - src) v = some src then 2 else -2) * c.H.ew e, fold_bump' hpn ?_, red _ ?_ ?_⟩
    · intro v _ u hu
      rw [hu, hΦ]
      exact updatePin_bump _ _ _
    · intro v _ hne hb hpos
      rw [hput v hne, if_pos hb, if_pos (by omega), if_pos (by omega)]; omega
    · intro v _ hne hb hpos
      rw [hput v hne, if_neg (by rw [hb]; simpa using fun h => hsd h.symm), if_pos (by omega), if_pos (by omega)]; omega
  rw [if_neg h2]
  by_cases h3 : t = 1
  · rw [if_pos h3]
    refine ⟨fun v => c.H.ew e, fold_bump' hpn (fun v _ u _ => updatePin_bump _ _ _), red _ ?_ ?_⟩
    · intro v _ hne hb hpos
      rw [if_neg (by omega), if_pos h3]; omega
    · intro v _ hne hb hpos; omega
  rw [if_neg h3]
  by_cases h4 : f = 0
  · rw [if_pos h4]
    refine ⟨fun v => - c.H.ew e, fold_bump' hpn (fun v _ u _ => updatePin_bump _ _ _), red _ ?_ ?_⟩
    · intro v _ hne hb hpos; omega
    · intro v _ hne hb hpos
      rw [if_pos h4, if_neg (by omega)]; omega
  rw [if_neg h4]
  refine ⟨fun v => if Φ.put hn (1 - src) v = some src then (if f = 1 then c.H.ew e else 0) else (if t = 2 then - c.H.ew e else 0), fold_bump' hpn ?_, red _ ?_ ?_⟩
  · intro v _ u hu
    rw [hu, hΦ]
    by_cases q1 : Φ.put hn (1 - src) v = some src
    · rw [if_pos q1, if_pos q1]
      by_cases q2 : f = 1
      · rw [if_pos q2, if_pos q2]; exact updatePin_bump _ _ _
      · rw [if_neg q2, if_neg q2]; exact Bump.zero _ _ (fun _ _ => rfl)
    · rw [if_neg q1, if_neg q1]
      by_cases q2 : t = 2
      · rw [if_pos q2, if_pos q2]; exact updatePin_bump _ _ _
      · rw [if_neg q2, if_neg q2]; exact Bump.zero _ _ (fun _ _ => rfl)
  · intro v _ hne hb hpos
    rw [hput v hne, if_pos hb, if_neg h3]; omega
  · intro v _ hne hb hpos
    rw [hput v hne, if_neg (by rw [hb]; simpa using fun h => hsd h.symm), if_neg h4]
    by_cases q2 : t = 2
    · rw [if_pos q2, if_pos q2]; omega
    · rw [if_neg q2, if_neg q2]; omega

end TwoWay
end Verif
