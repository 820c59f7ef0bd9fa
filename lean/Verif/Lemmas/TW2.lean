import Verif.Lemmas.TW1
/-! # 2-way FM: border nodes and keys after a move -/
namespace Verif
namespace TwoWay
open DFlow (set set_same set_other set_apply)

variable {ι : Type} {c : Cfg ι}

theorem countP_change {l : List Nat} (hn : l.Nodup) {P Q : Nat → Bool} {e : Nat} (h : ∀ x, x ≠ e → P x = Q x) :
    l.countP P + (if e ∈ l ∧ Q e = true then 1 else 0) = l.countP Q + (if e ∈ l ∧ P e = true then 1 else 0) := by
  induction l with
  | nil => simp
  | cons a l ih =>
    obtain ⟨ha, hl⟩ := List.nodup_cons.1 hn
    have := ih hl
    rw [List.countP_cons, List.countP_cons]
    by_cases hae : a = e
    · subst hae
      have h1 : l.countP P = l.countP Q := by
        apply List.countP_congr
        intro x hx
        rw [h x (fun hh => ha (hh ▸ hx))]
      rw [h1]
      simp only [List.mem_cons, true_or, true_and]
      omega
    · have hea : ¬ e = a := fun hh => hae hh.symm
      rw [h a hae]
      simp only [List.mem_cons, hea, false_or]
      omega

/-- A move of node `hn` from block `src` to `1 - src`. -/
structure Mov (H : HG) (Φ : Assign) (hn src : Nat) : Prop where
  wf : H.WF
  two : Two H Φ
  mem : hn ∈ H.nodes
  src : Φ hn = some src

section
variable {H : HG} {Φ : Assign} {hn src : Nat}

theorem Mov.lt (h : Mov H Φ hn src) : src < 2 := h.two.lt h.mem h.src

theorem Mov.two' (h : Mov H Φ hn src) : Two H (Φ.put hn (1 - src)) := h.two.put hn (by omega)

theorem Mov.cnt (h : Mov H Φ hn src) {e : Nat} (he : e ∈ H.inc hn) :
    H.pinsIn Φ e src = H.pinsIn (Φ.put hn (1 - src)) e src + 1 ∧ H.pinsIn (Φ.put hn (1 - src)) e (1 - src) = H.pinsIn Φ e (1 - src) + 1 ∧
    H.pinsIn (Φ.put hn (1 - src)) e src + H.pinsIn (Φ.put hn (1 - src)) e (1 - src) = (H.pins e).length := by
  obtain ⟨he', hp⟩ := (h.wf.inc_iff hn h.mem e).1 he
  have hl := h.lt
  have hne : src ≠ 1 - src := by omega
  have p1 := HG.pinsIn_put_mem (Φ := Φ) (b := 1 - src) (c := src) (h.wf.pins_nodup e he') hp
  have p2 := HG.pinsIn_put_mem (Φ := Φ) (b := 1 - src) (c := 1 - src) (h.wf.pins_nodup e he') hp
  rw [if_pos h.src, if_neg hne] at p1
  rw [if_neg (by rw [h.src]; simpa using hne), if_pos rfl] at p2
  exact ⟨by omega, by omega, two_pins h.wf h.two' he' hl⟩

theorem Mov.cut (h : Mov H Φ hn src) {e : Nat} (he : e ∈ H.inc hn) :
    (H.lam Φ e > 1 ↔ 1 < H.pinsIn (Φ.put hn (1 - src)) e (1 - src)) ∧ (H.lam (Φ.put hn (1 - src)) e > 1 ↔ 0 < H.pinsIn (Φ.put hn (1 - src)) e src) := by
  obtain ⟨he', hp⟩ := (h.wf.inc_iff hn h.mem e).1 he
  obtain ⟨a, b, d⟩ := h.cnt he
  rw [cut_two h.wf h.two he' h.lt, cut_two h.wf h.two' he' h.lt]
  omega

theorem Mov.inSrc (h : Mov H Φ hn src) {e : Nat} (he : e ∈ H.inc hn) {v : Nat} (hv : v ∈ H.pins e) (hb : Φ v = some src) (hne : v ≠ hn) :
    0 < H.pinsIn (Φ.put hn (1 - src)) e src := by
  unfold HG.pinsIn
  rw [List.countP_pos_iff]
  exact ⟨v, hv, by simp [Assign.put, hne, hb]⟩

theorem Mov.inDst (h : Mov H Φ hn src) {e : Nat} (he : e ∈ H.inc hn) {v : Nat} (hv : v ∈ H.pins e) (hb : Φ v = some (1 - src)) :
    1 < H.pinsIn (Φ.put hn (1 - src)) e (1 - src) := by
  have : 0 < H.pinsIn Φ e (1 - src) := by
    unfold HG.pinsIn
    rw [List.countP_pos_iff]
    exact ⟨v, hv, by simp [hb]⟩
  have := (h.cnt he).2.1
  omega

theorem Mov.which (h : Mov H Φ hn src) {v : Nat} (hv : v ∈ H.nodes) : Φ v = some src ∨ Φ v = some (1 - src) := by
  have hl := h.lt
  have : src = 0 ∨ src = 1 := by omega
  rcases this with rfl | rfl
  · exact h.two v hv
  · exact (h.two v hv).symm

end

/-- partial effect: hyperedges in `D` are updated -/
def mix (Φ Φ' : Assign) (D : List Nat) (e : Nat) : Assign := if e ∈ D then Φ' else Φ

/-- number of cut hyperedges of `v` -/
def ncut (H : HG) (f : Nat → Assign) (v : Nat) : Nat := (H.inc v).countP (fun e => decide (H.lam (f e) e > 1))

/-- invariant of the border updates -/
structure BInv (H : HG) (Φ Φ' : Assign) (src : Nat) (s : St) (D : List Nat) (t : St) : Prop where
  part : t.Φ = Φ'
  vs : t.vs = s.vs
  hs : t.hs = s.hs
  pq : t.pq = s.pq
  en : t.en = s.en
  nc : ∀ v ∈ H.nodes, t.nc v = ncut H (mix Φ Φ' D) v
  remN : t.rem.Nodup
  rem : ∀ v, v ∈ t.rem ↔ v ∈ H.nodes ∧ s.vs v = .active ∧ t.nc v = 0
  remB : ∀ v ∈ t.rem, Φ v = some (1 - src)
  actN : t.act.Nodup
  act : ∀ v, v ∈ t.act ↔ v ∈ H.nodes ∧ s.vs v = .inactive ∧ 0 < t.nc v
  actB : ∀ v ∈ t.act, Φ v = some src

theorem mix_snoc {Φ Φ' : Assign} {D : List Nat} {e x : Nat} (h : x ≠ e) : mix Φ Φ' (D ++ [e]) x = mix Φ Φ' D x := by
  unfold mix
  simp [h]

theorem ncut_snoc {H : HG} (hw : H.WF) {Φ Φ' : Assign} {D : List Nat} {e v : Nat} (hv : v ∈ H.nodes) (he : e ∈ H.edges) (hD : e ∉ D) :
    ncut H (mix Φ Φ' D) v + (if v ∈ H.pins e ∧ H.lam Φ' e > 1 then 1 else 0) = ncut H (mix Φ Φ' (D ++ [e])) v + (if v ∈ H.pins e ∧ H.lam Φ e > 1 then 1 else 0) := by
  have := countP_change (hw.inc_nodup v hv) (P := fun x => decide (H.lam (mix Φ Φ' D x) x > 1)) (Q := fun x => decide (H.lam (mix Φ Φ' (D ++ [e]) x) x > 1))
    (e := e) (fun x hx => by simp only [mix_snoc hx])
  have e1 : mix Φ Φ' D e = Φ := by unfold mix; rw [if_neg hD]
  have e2 : mix Φ Φ' (D ++ [e]) e = Φ' := by unfold mix; rw [if_pos (by simp)]
  simp only [e1, e2, decide_eq_true_eq] at this
  have hi : e ∈ H.inc v ↔ v ∈ H.pins e := by rw [hw.inc_iff v hv]; simp [he]
  simp only [hi] at this
  exact this

theorem border_step {Φ : Assign} {hn src : Nat} (hM : Mov c.H Φ hn src) {s t : St} {D : List Nat} (hsv : s.vs hn = .moved)
    (h : BInv c.H Φ (Φ.put hn (1 - src)) src s D t) {e : Nat} (he : e ∈ c.H.inc hn) (hD : e ∉ D) :
    BInv c.H Φ (Φ.put hn (1 - src)) src s (D ++ [e]) (borderUpdate c src (1 - src) t e) := by
  obtain ⟨he', hp⟩ := (hM.wf.inc_iff hn hM.mem e).1 he
  obtain ⟨k1, k2, k3⟩ := hM.cnt he
  obtain ⟨c1, c2⟩ := hM.cut he
  have hpn := hM.wf.pins_nodup e he'
  have hns := fun v (hv : v ∈ c.H.nodes) => ncut_snoc (Φ := Φ) (Φ' := Φ.put hn (1 - src)) hM.wf hv he' hD
  have same : ((c.H.lam Φ e > 1) ↔ (c.H.lam (Φ.put hn (1 - src)) e > 1)) → BInv c.H Φ (Φ.put hn (1 - src)) src s (D ++ [e]) t := by
    intro hh
    exact ⟨h.part, h.vs, h.hs, h.pq, h.en, fun v hv => by
      rw [h.nc v hv]
      have := hns v hv
      simp only [hh] at this
      omega, h.remN, h.rem, h.remB, h.actN, h.act, h.actB⟩
  unfold borderUpdate
  rw [h.part]
  by_cases hl : (c.H.pins e).length > 1
  swap
  · rw [if_neg hl]
    exact same (by rw [c1, c2]; omega)
  rw [if_pos hl]
  by_cases hf : c.H.pinsIn (Φ.put hn (1 - src)) e src = 0
  · rw [if_pos hf, noncut_fold _ _ hpn]
    have hΦ : ∀ v ∈ c.H.pins e, v ≠ hn → Φ v = some (1 - src) := by
      intro v hv hne
      rcases hM.which (hM.wf.pins_mem e he' v hv) with hb | hb
      · exact absurd (hM.inSrc he hv hb hne) (by omega)
      · exact hb
    have hold : c.H.lam Φ e > 1 := c1.2 (by omega)
    have hnew : ¬ c.H.lam (Φ.put hn (1 - src)) e > 1 := by rw [c2]; omega
    have hpos : ∀ v ∈ c.H.pins e, 0 < t.nc v := by
      intro v hv
      have hvn := hM.wf.pins_mem e he' v hv
      rw [h.nc v hvn]
      have := hns v hvn
      rw [if_neg (fun x => hnew x.2), if_pos ⟨hv, hold⟩] at this
      omega
    refine ⟨h.part, h.vs, h.hs, h.pq, h.en, ?_, ?_, ?_, ?_, h.actN, ?_, h.actB⟩
    · intro v hv
      show (if v ∈ c.H.pins e then t.nc v - 1 else t.nc v) = _
      have := hns v hv
      rw [if_neg (fun x => hnew x.2)] at this
      rw [h.nc v hv]
      by_cases hve : v ∈ c.H.pins e
      · rw [if_pos hve]; rw [if_pos ⟨hve, hold⟩] at this; omega
      · rw [if_neg hve]; rw [if_neg (fun x => hve x.1)] at this; omega
    · apply List.Nodup.append h.remN (hpn.filter _)
      intro v hv hv'
      have h1 := ((h.rem v).1 hv).2.2
      have h2 := hpos v (List.mem_filter.1 hv').1
      omega
    · intro v
      show v ∈ t.rem ++ _ ↔ v ∈ c.H.nodes ∧ s.vs v = .active ∧ (if v ∈ c.H.pins e then t.nc v - 1 else t.nc v) = 0
      rw [List.mem_append, List.mem_filter, h.rem v, h.vs]
      by_cases hve : v ∈ c.H.pins e
      · rw [if_pos hve]
        have h1 := hpos v hve
        have h2 := hM.wf.pins_mem e he' v hve
        simp only [hve, h2, true_and, decide_eq_true_eq]
        constructor
        · rintro (⟨_, h3⟩ | ⟨h3, h4⟩)
          · omega
          · exact ⟨h4, h3⟩
        · rintro ⟨h3, h4⟩; exact Or.inr ⟨h4, h3⟩
      · rw [if_neg hve]; simp [hve]
    · intro v hv
      rcases List.mem_append.1 hv with hv | hv
      · exact h.remB v hv
      · obtain ⟨h1, h2⟩ := List.mem_filter.1 hv
        apply hΦ v h1
        rintro rfl
        rw [h.vs, hsv] at h2
        simp at h2
    · intro v
      show v ∈ t.act ↔ v ∈ c.H.nodes ∧ s.vs v = .inactive ∧ 0 < (if v ∈ c.H.pins e then t.nc v - 1 else t.nc v)
      by_cases hve : v ∈ c.H.pins e
      · rw [if_pos hve]
        have h1 := hpos v hve
        have h2 := hM.wf.pins_mem e he' v hve
        have hno : s.vs v ≠ .inactive := by
          intro hi
          have h3 := (h.act v).2 ⟨h2, hi, h1⟩
          have h4 := h.actB v h3
          have hne : v ≠ hn := by rintro rfl; rw [hsv] at hi; cases hi
          have h5 := hΦ v hve hne
          rw [h4] at h5
          have := hM.lt
          simp only [Option.some.injEq] at h5; omega
        rw [h.act v]
        constructor
        · rintro ⟨_, h3, _⟩; exact absurd h3 hno
        · rintro ⟨_, h3, _⟩; exact absurd h3 hno
      · rw [if_neg hve]; exact h.act v
  · rw [if_neg hf]
    by_cases ht : c.H.pinsIn (Φ.put hn (1 - src)) e (1 - src) = 1
    · rw [if_pos ht, cut_fold _ _ hpn]
      have hΦ : ∀ v ∈ c.H.pins e, Φ v = some src := by
        intro v hv
        rcases hM.which (hM.wf.pins_mem e he' v hv) with hb | hb
        · exact hb
        · exact absurd (hM.inDst he hv hb) (by omega)
      have hold : ¬ c.H.lam Φ e > 1 := by rw [c1]; omega
      have hnew : c.H.lam (Φ.put hn (1 - src)) e > 1 := c2.2 (by omega)
      refine ⟨h.part, h.vs, h.hs, h.pq, h.en, ?_, h.remN, ?_, h.remB, ?_, ?_, ?_⟩
      · intro v hv
        show (if v ∈ c.H.pins e then t.nc v + 1 else t.nc v) = _
        have := hns v hv
        rw [if_neg (c := v ∈ c.H.pins e ∧ c.H.lam Φ e > 1) (fun x => hold x.2)] at this
        rw [h.nc v hv]
        by_cases hve : v ∈ c.H.pins e
        · rw [if_pos hve]; rw [if_pos ⟨hve, hnew⟩] at this; omega
        · rw [if_neg hve]; rw [if_neg (fun x => hve x.1)] at this; omega
      · intro v
        show v ∈ t.rem ↔ v ∈ c.H.nodes ∧ s.vs v = .active ∧ (if v ∈ c.H.pins e then t.nc v + 1 else t.nc v) = 0
        by_cases hve : v ∈ c.H.pins e
        · rw [if_pos hve]
          constructor
          · intro hv
            have h1 := h.remB v hv
            rw [hΦ v hve] at h1
            have := hM.lt
            simp only [Option.some.injEq] at h1; omega
          · rintro ⟨_, _, h3⟩; omega
        · rw [if_neg hve]; exact h.rem v
      · apply List.Nodup.append h.actN (hpn.filter _)
        intro v hv hv'
        have h1 := ((h.act v).1 hv).2.2
        have h2 := (List.mem_filter.1 hv').2
        simp at h2; omega
      · intro v
        show v ∈ t.act ++ _ ↔ v ∈ c.H.nodes ∧ s.vs v = .inactive ∧ 0 < (if v ∈ c.H.pins e then t.nc v + 1 else t.nc v)
        rw [List.mem_append, List.mem_filter, h.act v, h.vs]
        by_cases hve : v ∈ c.H.pins e
        · rw [if_pos hve]
          have h2 := hM.wf.pins_mem e he' v hve
          simp only [hve, h2, true_and, decide_eq_true_eq]
          constructor
          · rintro (⟨h3, _⟩ | ⟨_, h4⟩)
            · exact ⟨h3, by omega⟩
            · exact ⟨h4, by omega⟩
          · rintro ⟨h3, h4⟩
            by_cases hz : t.nc v = 0
            · exact Or.inr ⟨by omega, h3⟩
            · exact Or.inl ⟨h3, by omega⟩
        · rw [if_neg hve]; simp [hve]
      · intro v hv
        rcases List.mem_append.1 hv with hv | hv
        · exact h.actB v hv
        · exact hΦ v (List.mem_filter.1 hv).1
    · rw [if_neg ht]
      exact same (by rw [c1, c2]; omega)

theorem border_fold {Φ : Assign} {hn src : Nat} (hM : Mov c.H Φ hn src) {s : St} (hsv : s.vs hn = .moved) : ∀ (l : List Nat) (D : List Nat) (t : St),
    (D ++ l).Nodup → (∀ e ∈ l, e ∈ c.H.inc hn) → BInv c.H Φ (Φ.put hn (1 - src)) src s D t →
    BInv c.H Φ (Φ.put hn (1 - src)) src s (D ++ l) (l.foldl (borderUpdate c src (1 - src)) t) := by
  intro l
  induction l with
  | nil => intro D t _ _ h; simpa using h
  | cons e l ih =>
    intro D t hnd hl h
    have hD : e ∉ D := by
      intro hh
      exact (List.disjoint_of_nodup_append hnd) hh (by simp)
    have := ih (D ++ [e]) _ (by simpa using hnd) (fun x hx => hl x (List.mem_cons_of_mem _ hx)) (border_step hM hsv h (hl e (by simp)) hD)
    rw [List.foldl_cons]
    simpa using this

/-- the number of cut hyperedges after all updates -/
theorem ncut_full {H : HG} {Φ : Assign} {hn src : Nat} (hM : Mov H Φ hn src) {v : Nat} (hv : v ∈ H.nodes) :
    ncut H (mix Φ (Φ.put hn (1 - src)) (H.inc hn)) v = ncut H (fun _ => Φ.put hn (1 - src)) v := by
  unfold ncut
  apply List.countP_congr
  intro e he
  obtain ⟨he', hp⟩ := (hM.wf.inc_iff v hv e).1 he
  unfold mix
  by_cases hh : e ∈ H.inc hn
  · rw [if_pos hh]
  · rw [if_neg hh, HG.lam_congr (Φ := Φ) (Ψ := Φ.put hn (1 - src))]
    intro u hu
    rw [Assign.put_other]
    rintro rfl
    exact hh ((hM.wf.inc_iff u hM.mem e).2 ⟨he', hu⟩)

end TwoWay
end Verif
