import Verif.Lemmas.DetC6
/-!
# Lemmas: the effect of a round
-/
namespace Verif
namespace DetC
open SMap (wr)
variable {α : Type} {c : Cfg α}

theorem accN_pos (w : Int) (l : List Nat) (h : ∀ x ∈ l, 0 ≤ c.nw x ∧ w + c.nw x ≤ c.maxw) (hs : 0 < (l.map c.nw).sum) : 0 < preW c l (accN c w l) := by
  induction l generalizing w with
  | nil => simp at hs
  | cons a l ih =>
    have ha := h a List.mem_cons_self
    have hacc : ¬ (w + c.nw a > c.maxw) := by omega
    simp only [accN, if_neg hacc, preW, List.take_succ_cons, List.map_cons, List.sum_cons] at hs ⊢
    have hnn : 0 ≤ ((l.take (accN c (w + c.nw a) l)).map c.nw).sum :=
      sum_nonneg' fun x hx => (h x (List.mem_cons_of_mem _ (List.mem_of_mem_take hx))).1
    by_cases h0 : c.nw a = 0
    · have := ih (w + c.nw a) (fun x hx => ⟨(h x (List.mem_cons_of_mem _ hx)).1, by have := (h x (List.mem_cons_of_mem _ hx)).2; omega⟩) (by omega)
      unfold preW at this; omega
    · omega

theorem accN_first (w : Int) (l : List Nat) (hl : l ≠ []) (h : ∀ x ∈ l, w + c.nw x ≤ c.maxw) : 0 < accN c w l := by
  cases l with
  | nil => exact absurd rfl hl
  | cons a l => have := h a List.mem_cons_self; simp only [accN]; rw [if_neg (by omega)]; omega

theorem accN_cap (w : Int) (l : List Nat) (hw : w ≤ c.maxw) : w + preW c l (accN c w l) ≤ c.maxw := by
  induction l generalizing w with
  | nil => simpa [accN, preW] using hw
  | cons a l ih =>
    simp only [accN]
    split
    · simpa [preW] using hw
    · have := ih (w + c.nw a) (by omega)
      simp only [preW, List.take_succ_cons, List.map_cons, List.sum_cons] at this ⊢
      omega

/-- the state between the third loop and `approveNodes` -/
structure Mid (c : Cfg α) (us : List Nat) (s s2 s3 : DC) (hv : List Nat) : Prop where
  prop : s3.prop = s2.prop
  opp : s3.opp = s2.opp
  fvB : ∀ v, (s3.fv.data v).block = (s.fv.data v).block
  fvE : c.hasFixed = false → s3.fv = s.fv
  cl : ∀ u, s3.cl u = if u ∈ us ∧ Ok c s2 u then s2.prop u else s.cl u
  cwOk : ∀ t, (∃ u ∈ us, Ok c s2 u ∧ s2.prop u = t) → s3.cw t = s2.opp t
  cwN : ∀ t, (¬ ∃ u ∈ us, Ok c s2 u ∧ s2.prop u = t) → s3.cw t = s.cw t
  cnt : (s3.cnt : Int) = (us.map (fun u => if Ok c s2 u ∧ s2.opp u = c.nw u then (1 : Int) else 0)).sum
  fixN : s3.fix.Nodup
  fix : ∀ v, v ∈ s3.fix ↔ v ∈ us ∧ s2.prop v ≠ v ∧ s2.opp v ≠ c.nw v
  nd : hv.Nodup
  sorted : hv.Pairwise (comp c s2.prop)
  mem : ∀ v, v ∈ hv ↔ v ∈ us ∧ Bad c s2 v

instance (s : DC) (u : Nat) : Decidable (Ok c s u) := by unfold Ok; infer_instance
instance (s : DC) (u : Nat) : Decidable (Bad c s u) := by unfold Bad; infer_instance

theorem accept_fixed {fv : FVS} {t u : Nat} (h : accept c fv t u = true) (hb : (fv.data t).block = none) : (fv.data u).block = none := by
  unfold accept FVS.isFixed at h
  cases hu : (fv.data u).block <;> simp_all

theorem accept_same {fv : FVS} {t u : Nat} (h : accept c fv t u = true) (hu : (fv.data u).block ≠ none) : (fv.data t).block = (fv.data u).block := by
  unfold accept FVS.isFixed at h
  cases hu' : (fv.data u).block <;> cases ht : (fv.data t).block <;> simp_all

theorem Props.feas {us : List Nat} {s s2 : DC} (hP : Props c us s s2) {u : Nat} (hu : u ∈ us) (hne : s2.prop u ≠ u) :
    s.cw u = c.nw u ∧ c.en u = true ∧ Feas c s.cl s.cw s.fv u (s2.prop u) := by
  rcases hP.prop u hu with h | ⟨h1, h2⟩
  · exact absurd h hne
  · rw [h1]; exact tgt_feas h2

theorem mid_of {us hv : List Nat} {s s2 s3 : DC} (hn : us.Nodup) (hP : Props c us s s2)
    (h3 : Par.For (next3 c) us .start .fin { s2 with cnt := 0, fix := [], heavy := [] } s3) (hp : hv.Perm s3.heavy) (hs : hv.Pairwise (comp c s3.prop)) :
    Mid c us s s2 s3 hv := by
  obtain ⟨a1, a2, a3, a4, a5, a6, a7, a8, a9, a10, a11, a12⟩ := loop3 hn rfl rfl rfl (by
    intro hf u hu hne hb
    have := (hP.feas hu hne).2.2.fixed hf
    simp only [hP.fv] at hb ⊢
    exact accept_fixed this hb) h3
  simp only at a1 a2 a3 a4 a5 a6 a7 a8 a9 a10 a11 a12
  refine ⟨a1, a2, fun v => by rw [a3 v, hP.fv], fun h => by rw [a4 h, hP.fv], fun u => ?_, fun t h => a6 t h, fun t h => by rw [a7 t h, hP.cw], ?_, a9, a10, (hp.nodup_iff).2 a11, a1 ▸ hs, fun v => ?_⟩
  · rw [a5 u, hP.cl]; rfl
  · rw [a8]; rfl
  · rw [hp.mem_iff, a12 v]; rfl

theorem propW_filter {us : List Nat} (p : Nat → Nat) (t : Nat) : propW c us p t = ((us.filter (fun v => decide (p v = t ∧ p v ≠ v))).map c.nw).sum := by
  unfold propW
  induction us with
  | nil => rfl
  | cons a l ih =>
    simp only [List.map_cons, List.sum_cons, List.filter_cons, ih]
    by_cases h : p a = t ∧ p a ≠ a
    · rw [if_pos h, if_pos (by simpa using h)]; simp
    · rw [if_neg h, if_neg (by simpa using h)]; simp

theorem Mid.sortedP {us hv : List Nat} {s s2 s3 : DC} (hM : Mid c us s s2 s3 hv) : hv.Pairwise (fun a b => s3.prop a ≤ s3.prop b) :=
  hM.sorted.imp fun h => by rw [hM.prop]; exact comp_le h

theorem Mid.mem_grp {us hv : List Nat} {s s2 s3 : DC} (hM : Mid c us s s2 s3 hv) {t v : Nat} :
    v ∈ grp s3.prop hv t ↔ v ∈ us ∧ s2.prop v = t ∧ t ≠ v ∧ c.maxw < s2.opp t := by
  rw [DetC.mem_grp, hM.mem, hM.prop]
  unfold Bad
  constructor
  · rintro ⟨⟨h1, h2, h3⟩, rfl⟩; exact ⟨h1, rfl, h2, h3⟩
  · rintro ⟨h1, rfl, h2, h3⟩; exact ⟨⟨h1, h2, h3⟩, rfl⟩

theorem Mid.grp_nd {us hv : List Nat} {s s2 s3 : DC} (hM : Mid c us s s2 s3 hv) (t : Nat) : (grp s3.prop hv t).Nodup := hM.nd.filter _

/-- a too heavy target -/
theorem Mid.heavy {us hv : List Nat} {s s2 s3 : DC} (hn : us.Nodup) (hnn : ∀ v, 0 ≤ c.nw v) (hP : Props c us s s2) (hM : Mid c us s s2 s3 hv) {t : Nat} (ht : grp s3.prop hv t ≠ []) :
    c.maxw < s2.opp t ∧ s3.cw t = s.cw t ∧ s.cw t ≤ c.maxw ∧ s2.opp t = s.cw t + ((grp s3.prop hv t).map c.nw).sum ∧
    ∀ x ∈ grp s3.prop hv t, 0 ≤ c.nw x ∧ s.cw t + c.nw x ≤ c.maxw := by
  obtain ⟨x, hx⟩ := List.exists_mem_of_ne_nil _ ht
  obtain ⟨b1, b2, b3, b4⟩ := hM.mem_grp.1 hx
  have hall : ∀ x ∈ grp s3.prop hv t, 0 ≤ c.nw x ∧ s.cw t + c.nw x ≤ c.maxw := by
    intro x hx
    obtain ⟨b1, b2, b3, b4⟩ := hM.mem_grp.1 hx
    have := (hP.feas b1 (by rw [b2]; exact b3)).2.2.weight
    rw [b2] at this
    exact ⟨hnn x, this⟩
  refine ⟨b4, hM.cwN t ?_, ?_, ?_, hall⟩
  · rintro ⟨u, hu, ⟨_, h⟩, e⟩; rw [e] at h; omega
  · have := hall x hx; omega
  · rw [hP.opp t, propW_filter]
    have hperm : (us.filter (fun v => decide (s2.prop v = t ∧ s2.prop v ≠ v))).Perm (grp s3.prop hv t) := by
      refine (List.perm_ext_iff_of_nodup (hn.filter _) (hM.grp_nd t)).2 fun v => ?_
      rw [hM.mem_grp]
      simp only [List.mem_filter, decide_eq_true_eq]
      constructor
      · rintro ⟨h1, rfl, h3⟩; exact ⟨h1, rfl, h3, b4⟩
      · rintro ⟨h1, rfl, h3, _⟩; exact ⟨h1, rfl, h3⟩
    rw [(hperm.map c.nw).sum_eq]

theorem Mid.hlen {us hv : List Nat} {s s2 s3 : DC} (hn : us.Nodup) (hnn : ∀ v, 0 ≤ c.nw v) (hP : Props c us s s2) (hM : Mid c us s s2 s3 hv) {t : Nat} (ht : grp s3.prop hv t ≠ []) :
    nAcc c s3 hv t < (grp s3.prop hv t).length := by
  obtain ⟨h1, h2, h3, h4, _⟩ := hM.heavy hn hnn hP ht
  unfold nAcc
  rw [h2]
  exact accN_lt _ _ (by omega) h3

theorem Mid.preW_pos {us hv : List Nat} {s s2 s3 : DC} (hn : us.Nodup) (hnn : ∀ v, 0 ≤ c.nw v) (hP : Props c us s s2) (hM : Mid c us s s2 s3 hv) {t : Nat} (ht : grp s3.prop hv t ≠ []) :
    s.cw t < wAcc c s3 hv t (nAcc c s3 hv t) ∧ wAcc c s3 hv t (nAcc c s3 hv t) ≤ c.maxw := by
  obtain ⟨h1, h2, h3, h4, h5⟩ := hM.heavy hn hnn hP ht
  unfold wAcc nAcc
  rw [h2]
  have := accN_pos (s.cw t) _ h5 (by omega)
  have := accN_cap (c := c) (s.cw t) (grp s3.prop hv t) h3
  omega

theorem Mid.hopp {us hv rest : List Nat} {s s2 s3 : DC} (hn : us.Nodup) (hnn : ∀ v, 0 ≤ c.nw v) (hI : RInv c (us ++ rest) s) (hP : Props c us s s2) (hM : Mid c us s s2 s3 hv) :
    ∀ v ∈ hv, grp s3.prop hv v ≠ [] → s3.opp v ≠ c.nw v ∧ wAcc c s3 hv v (nAcc c s3 hv v) ≠ c.nw v := by
  intro v hv' ht
  obtain ⟨h1, h2, h3, h4, h5⟩ := hM.heavy hn hnn hP ht
  have h6 := hM.preW_pos hn hnn hP ht
  have h7 := hI.cw v (List.mem_append_left _ ((hM.mem v).1 hv').1)
  rw [hM.opp]
  omega

/-- the reported number of contracted nodes counts the accepted nodes -/
theorem cntAcc_eq {hv : List Nat} {s : DC} (hs : hv.Pairwise (fun a b => s.prop a ≤ s.prop b)) (hnd : hv.Nodup) :
    cntAcc c s hv = (hv.map (fun v => if Acc c s hv v ∧ s.opp v = c.nw v then (1 : Int) else 0)).sum := by
  have hk : ∀ t, (kAcc c s hv t (nAcc c s hv t) : Int) = (hv.map (fun v => if s.prop v = t ∧ Acc c s hv v ∧ s.opp v = c.nw v then (1 : Int) else 0)).sum := by
    intro t
    have hl : ((grp s.prop hv t).take (nAcc c s hv t)).Nodup := (hnd.filter _).sublist (List.take_sublist _ _)
    have h1 := sum_mem hnd hl (fun v hv' => (mem_grp.1 (List.mem_of_mem_take hv')).1) (fun v => if s.opp v = c.nw v then (1 : Int) else 0)
    have h2 : ∀ l : List Nat, (l.map (fun v => if s.opp v = c.nw v then (1 : Int) else 0)).sum = (l.countP (fun v => decide (s.opp v = c.nw v)) : Int) := by
      intro l
      induction l with
      | nil => rfl
      | cons a l ih =>
        simp only [List.map_cons, List.sum_cons, ih, List.countP_cons]
        by_cases h : s.opp a = c.nw a <;> simp [h]; omega
    rw [kAcc, ← h2, ← h1]
    refine sum_congr fun v hv' => ?_
    by_cases hvt : v ∈ (grp s.prop hv t).take (nAcc c s hv t)
    · have he := (mem_grp.1 (List.mem_of_mem_take hvt)).2
      subst he
      have : Acc c s hv v := hvt
      simp [hvt, this]
    · rw [if_neg hvt, if_neg]
      rintro ⟨rfl, h, _⟩; exact hvt h
  unfold cntAcc
  refine (sum_congr (g := fun pos => (hv.map (fun v => if pos = gst s.prop hv (s.prop v) then (if Acc c s hv v ∧ s.opp v = c.nw v then (1 : Int) else 0) else 0)).sum) ?_).trans ?_
  · intro pos hpos
    obtain ⟨w, hw⟩ : ∃ v, hv[pos]? = some v := ⟨_, List.getElem?_eq_getElem (List.mem_range.1 hpos)⟩
    simp only [hw]
    split
    · next h =>
      rw [hk]
      refine sum_congr fun v hv' => ?_
      by_cases e : s.prop v = s.prop w
      · rw [e, if_pos h]; simp
      · rw [if_neg (by simp [e]), if_neg]
        intro e'
        have hg : grp s.prop hv (s.prop v) ≠ [] := List.ne_nil_of_mem (mem_grp.2 ⟨hv', rfl⟩)
        obtain ⟨z, hz, hz'⟩ := gst_self hs hg
        rw [← e', hw] at hz
        cases hz; exact e hz'.symm
    · next h =>
      rw [sum_zero]
      intro v hv'
      split
      · next e' =>
        have hg : grp s.prop hv (s.prop v) ≠ [] := List.ne_nil_of_mem (mem_grp.2 ⟨hv', rfl⟩)
        obtain ⟨z, hz, hz'⟩ := gst_self hs hg
        rw [← e', hw] at hz
        cases hz
        rw [hz'] at h; exact absurd e' h
      · rfl
  rw [sum_swap]
  refine sum_congr fun v hv' => ?_
  have hg : grp s.prop hv (s.prop v) ≠ [] := List.ne_nil_of_mem (mem_grp.2 ⟨hv', rfl⟩)
  obtain ⟨z, hz, hz'⟩ := gst_self hs hg
  have := sum_mem (us := List.range hv.length) (l := [gst s.prop hv (s.prop v)]) List.nodup_range (List.nodup_singleton _) (by
    intro w hw; simp at hw; subst hw; exact List.mem_range.2 (List.getElem?_eq_some_iff.1 hz).1) (fun _ => if Acc c s hv v ∧ s.opp v = c.nw v then (1 : Int) else 0)
  simpa using this

end DetC
end Verif
