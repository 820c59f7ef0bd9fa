import Verif.Lemmas.DetC5
/-!
# Lemmas: proposals after the first two loops of a round
-/
namespace Verif
namespace DetC
open SMap (wr)
variable {α : Type} {c : Cfg α}

/-! ### Sums over lists -/

theorem sum_mem {us l : List Nat} (hn : us.Nodup) (hl : l.Nodup) (hsub : ∀ v ∈ l, v ∈ us) (f : Nat → Int) :
    (us.map (fun v => if v ∈ l then f v else 0)).sum = (l.map f).sum := by
  induction us generalizing l with
  | nil =>
    have : l = [] := List.eq_nil_iff_forall_not_mem.2 fun v hv => by simpa using hsub v hv
    subst this; rfl
  | cons a us ih =>
    obtain ⟨ha, hn'⟩ := List.nodup_cons.1 hn
    simp only [List.map_cons, List.sum_cons]
    by_cases hal : a ∈ l
    · rw [if_pos hal]
      have := ih hn' (hl.erase a) (fun v hv => by
        have h1 := (List.Nodup.mem_erase_iff hl).1 hv
        have := hsub v h1.2
        simpa [h1.1] using this)
      have h2 : (us.map (fun v => if v ∈ l then f v else 0)) = (us.map (fun v => if v ∈ l.erase a then f v else 0)) := by
        apply List.map_congr_left
        intro v hv
        have : v ≠ a := by rintro rfl; exact ha hv
        simp [List.Nodup.mem_erase_iff hl, this]
      rw [h2, this]
      have := (List.perm_cons_erase hal).map f
      rw [this.sum_eq]; simp
    · rw [if_neg hal, ih hn' hl (fun v hv => by
        have := hsub v hv
        have h1 : v ≠ a := by rintro rfl; exact hal hv
        simpa [h1] using this)]
      simp

theorem sum_swap (l m : List Nat) (g : Nat → Nat → Int) :
    (l.map (fun a => (m.map (fun b => g a b)).sum)).sum = (m.map (fun b => (l.map (fun a => g a b)).sum)).sum := by
  induction l with
  | nil => simp
  | cons a l ih =>
    simp only [List.map_cons, List.sum_cons, ih]
    clear ih
    induction m with
    | nil => simp
    | cons b m ihm => simp only [List.map_cons, List.sum_cons]; omega

theorem sum_nonneg' {us : List Nat} {f : Nat → Int} (h : ∀ x ∈ us, 0 ≤ f x) : 0 ≤ (us.map f).sum := by
  induction us with
  | nil => simp
  | cons a l ih =>
    simp only [List.map_cons, List.sum_cons]
    have := ih fun x hx => h x (List.mem_cons_of_mem _ hx)
    have := h a List.mem_cons_self
    omega

theorem le_sum {us : List Nat} {f : Nat → Int} (h : ∀ x ∈ us, 0 ≤ f x) {u : Nat} (hu : u ∈ us) : f u ≤ (us.map f).sum := by
  induction us with
  | nil => cases hu
  | cons a l ih =>
    simp only [List.map_cons, List.sum_cons]
    have h1 := sum_nonneg' (us := l) fun x hx => h x (List.mem_cons_of_mem _ hx)
    have h2 := h a List.mem_cons_self
    rcases List.mem_cons.1 hu with rfl | hu
    · omega
    · have := ih (fun x hx => h x (List.mem_cons_of_mem _ hx)) hu; omega

theorem sum_congr {us : List Nat} {f g : Nat → Int} (h : ∀ x ∈ us, f x = g x) : (us.map f).sum = (us.map g).sum := by
  rw [List.map_congr_left h]

/-! ### The target of a node -/

/-- labels of the neighbours of `u` -/
def NbLabel (c : Cfg α) (cl : Nat → Nat) (u t : Nat) : Prop :=
  ∃ e ∈ c.inc u, (c.isGraph = true ∧ t = cl (c.etgt e)) ∨ (c.isGraph = false ∧ ∃ v ∈ c.pins e, t = cl v)

theorem mem_addRating {t t' : Nat} {x y : α} {m : List (Nat × α)} (h : (t', y) ∈ addRating c t x m) : t' = t ∨ ∃ z, (t', z) ∈ m := by
  induction m with
  | nil => simp [addRating] at h; exact .inl h.1
  | cons a m ih =>
    obtain ⟨a, b⟩ := a
    simp only [addRating] at h
    split at h
    · rcases List.mem_cons.1 h with h | h
      · cases h; exact .inr ⟨b, List.mem_cons_self⟩
      · exact .inr ⟨y, List.mem_cons_of_mem _ h⟩
    · rcases List.mem_cons.1 h with h | h
      · cases h; exact .inr ⟨_, List.mem_cons_self⟩
      · rcases ih h with h | ⟨z, hz⟩
        · exact .inl h
        · exact .inr ⟨z, List.mem_cons_of_mem _ hz⟩

theorem mem_ratePins {cl : Nat → Nat} {t : Nat} {x y : α} {vs bl : List Nat} {m : List (Nat × α)} (h : (t, y) ∈ ratePins c cl x vs bl m) :
    (∃ v ∈ vs, t = cl v) ∨ ∃ z, (t, z) ∈ m := by
  induction vs generalizing bl m with
  | nil => exact .inr ⟨y, h⟩
  | cons v vs ih =>
    simp only [ratePins] at h
    split at h
    · rcases ih h with ⟨w, hw, e⟩ | h
      · exact .inl ⟨w, List.mem_cons_of_mem _ hw, e⟩
      · exact .inr h
    · rcases ih h with ⟨w, hw, e⟩ | ⟨z, hz⟩
      · exact .inl ⟨w, List.mem_cons_of_mem _ hw, e⟩
      · rcases mem_addRating hz with e | h
        · exact .inl ⟨v, List.mem_cons_self, e⟩
        · exact .inr h

theorem mem_rateEdges {cl : Nat → Nat} {t : Nat} {y : α} (es : List Nat) (m : List (Nat × α)) (h : (t, y) ∈ es.foldl (rateEdge c cl) m) :
    (∃ e ∈ es, (c.isGraph = true ∧ t = cl (c.etgt e)) ∨ (c.isGraph = false ∧ ∃ v ∈ c.pins e, t = cl v)) ∨ ∃ z, (t, z) ∈ m := by
  induction es generalizing m with
  | nil => exact .inr ⟨y, h⟩
  | cons e es ih =>
    rcases ih _ h with ⟨e', he', h⟩ | ⟨z, hz⟩
    · exact .inl ⟨e', List.mem_cons_of_mem _ he', h⟩
    · unfold rateEdge at hz
      split at hz
      · next hg =>
        rcases mem_addRating hz with h | h
        · exact .inl ⟨e, List.mem_cons_self, .inl ⟨hg, h⟩⟩
        · exact .inr h
      · next hg =>
        split at hz
        · rcases mem_ratePins hz with h | h
          · exact .inl ⟨e, List.mem_cons_self, .inr ⟨by simpa using hg, h⟩⟩
          · exact .inr h
        · exact .inr ⟨z, hz⟩

/-- the conditions on a target -/
structure Feas (c : Cfg α) (cl : Nat → Nat) (cw : Nat → Int) (fv : FVS) (u t : Nat) : Prop where
  ne : t ≠ u
  comm : c.comm t = c.comm u
  weight : cw t + c.nw u ≤ c.maxw
  fixed : c.hasFixed = true → accept c fv t u = true
  nb : NbLabel c cl u t

theorem bestTargets_mem {cw : Nat → Int} {fv : FVS} {u : Nat} {P : Nat → Prop} (m : List (Nat × α)) (b : α × List Nat)
    (hb : ∀ t ∈ b.2, P t)
    (hm : ∀ t x, (t, x) ∈ m → t ≠ u → c.comm t = c.comm u → cw t + c.nw u ≤ c.maxw → (c.hasFixed = true → accept c fv t u = true) → P t) :
    ∀ t ∈ (bestTargets c cw fv u m b).2, P t := by
  induction m generalizing b with
  | nil => exact hb
  | cons a m ih =>
    obtain ⟨t, x⟩ := a
    simp only [bestTargets]
    refine ih _ ?_ (fun t x h => hm t x (List.mem_cons_of_mem _ h))
    split
    · next hc =>
      simp only [Bool.and_eq_true, Bool.or_eq_true, Bool.not_eq_true', decide_eq_true_eq] at hc
      obtain ⟨⟨⟨⟨_, h1⟩, h2⟩, h3⟩, h4⟩ := hc
      have hP : P t := hm t x List.mem_cons_self h1 h2 h3 (fun hf => by rcases h4 with h | h; · rw [hf] at h; cases h
                                                                        · exact h)
      split
      · intro t' ht'; simp at ht'; subst ht'; exact hP
      · intro t' ht'
        rcases List.mem_append.1 ht' with h | h
        · exact hb t' h
        · simp at h; subst h; exact hP
    · exact hb

theorem target_feas {cl : Nat → Nat} {cw : Nat → Int} {fv : FVS} {u : Nat} (h : target c cl cw fv u ≠ u) : Feas c cl cw fv u (target c cl cw fv u) := by
  have hall := bestTargets_mem (c := c) (cw := cw) (fv := fv) (u := u) (P := Feas c cl cw fv u) ((c.inc u).foldl (rateEdge c cl) []) (c.zero, []) (by simp)
    (fun t x hm h1 h2 h3 h4 => ⟨h1, h2, h3, h4, by
      rcases mem_rateEdges _ _ hm with h | ⟨z, hz⟩
      · exact h
      · simp at hz⟩)
  unfold target at h ⊢
  generalize (bestTargets c cw fv u ((c.inc u).foldl (rateEdge c cl) []) (c.zero, [])).2 = l at hall h ⊢
  match l, h, hall with
  | [], h, _ => exact absurd rfl h
  | [t], _, hall => exact hall t List.mem_cons_self
  | a :: b :: l, h, hall =>
    simp only at h ⊢
    generalize c.tie u (a :: b :: l).length = i at h ⊢
    rw [List.getD_eq_getElem?_getD] at h ⊢
    cases hg : (a :: b :: l)[i]? with
    | none => rw [hg] at h; simp at h
    | some t => simp only [Option.getD_some]; exact hall t (List.mem_of_getElem? hg)

theorem tgt_feas {s : DC} {u : Nat} (h : tgt c s u ≠ u) : s.cw u = c.nw u ∧ c.en u = true ∧ Feas c s.cl s.cw s.fv u (tgt c s u) := by
  unfold tgt at h ⊢
  split at h
  · next hc => rw [if_pos hc]; exact ⟨hc.1, hc.2, target_feas h⟩
  · exact absurd rfl h

/-! ### Proposals -/

/-- invariant of a pass: `rest` are the nodes that have not been processed -/
structure RInv (c : Cfg α) (rest : List Nat) (s : DC) : Prop where
  opp : ∀ t, s.opp t = s.cw t
  cl : ∀ u ∈ rest, s.cl u = u
  prop : ∀ u ∈ rest, s.prop u = u
  cw : ∀ u ∈ rest, c.nw u ≤ s.cw u
  stale : ∀ v, v ∉ rest → s.prop v ∈ rest → 0 < c.nw v → c.nw (s.prop v) < s.cw (s.prop v)

/-- what the first two loops establish -/
structure Props (c : Cfg α) (us : List Nat) (s s2 : DC) : Prop where
  cl : s2.cl = s.cl
  cw : s2.cw = s.cw
  fv : s2.fv = s.fv
  prop : ∀ u ∈ us, s2.prop u = u ∨ (s2.prop u = tgt c s u ∧ tgt c s u ≠ u)
  propO : ∀ v, v ∉ us → s2.prop v = s.prop v ∨ s2.prop v = v
  opp : ∀ t, s2.opp t = s.cw t + propW c us s2.prop t

/-- the first two loops of a round -/
def Half (c : Cfg α) (us : List Nat) (s s1 s2 : DC) : Prop :=
  Par.For (next1 c) us .start .fin s s1 ∧ if c.swaps then Par.For (next2 c) us .start .fin s1 s2 else s2 = s1

theorem half_props {us rest : List Nat} {s s1 s2 : DC} (hn : (us ++ rest).Nodup) (hnn : ∀ v, 0 ≤ c.nw v) (hI : RInv c (us ++ rest) s)
    (h : Half c us s s1 s2) : Props c us s s2 := by
  have hu : us.Nodup := (List.nodup_append.1 hn).1
  obtain ⟨h1, h2⟩ := h
  obtain ⟨a1, a2, a3, a4, a5, a6⟩ := loop1 hu (fun u h => hI.prop u (List.mem_append_left _ h)) h1
  have hp1 : Props c us s s1 := by
    refine ⟨a1, a2, a3, fun u hu' => ?_, fun v hv => .inl (a5 v hv), fun t => ?_⟩
    · rw [a4 u hu']
      by_cases e : tgt c s u = u
      · exact .inl e
      · exact .inr ⟨rfl, e⟩
    · rw [a6 t, hI.opp t]
      congr 1
      exact sum_congr fun x hx => by rw [a4 x hx]
  by_cases hsw : c.swaps = true
  · rw [if_pos hsw] at h2
    obtain ⟨b1, b2, b3, b4, b5, b6⟩ := loop2 h2
    -- in a swap with an old proposal the other node has no weight
    have hz : ∀ u, Sw us s1.prop u → s1.prop u ∉ us → c.nw (s1.prop u) = 0 := by
      intro u hS hv
      obtain ⟨c1, c2, c3⟩ := hS
      have htu : tgt c s u = s1.prop u := (a4 u c1).symm
      have hne : tgt c s u ≠ u := by omega
      have hcwu := (tgt_feas hne).1
      have hpv : s.prop (s1.prop u) = u := by rw [← a5 _ hv]; exact c3
      have hvr : s1.prop u ∉ us ++ rest := by
        intro hm
        have := hI.prop _ hm
        rw [hpv] at this; omega
      have := hI.stale (s1.prop u) hvr (by rw [hpv]; exact List.mem_append_left _ c1)
      rw [hpv, hcwu] at this
      have := hnn (s1.prop u)
      omega
    have hchg : ∀ x, s2.prop x = s1.prop x ∨ ∃ u, Sw us s1.prop u ∧ x = swT s1.prop s1.opp u ∧ s2.prop x = x ∧ s1.prop x = swS s1.prop s1.opp u := by
      intro x
      by_cases hx : Sw us s1.prop x
      · obtain ⟨c1, c2, c3⟩ := b4 x hx
        obtain ⟨d1, d2, d3⟩ := hx
        rcases swT_cases s1.prop s1.opp x with ⟨e1, e2⟩ | ⟨e1, e2⟩
        · exact .inr ⟨x, ⟨d1, d2, d3⟩, e1.symm, by rw [c1, e1], e2.symm⟩
        · exact .inl (by rw [c1, e1])
      · by_cases hx' : ∃ u, Sw us s1.prop u ∧ s1.prop u = x
        · obtain ⟨u, hS, rfl⟩ := hx'
          obtain ⟨c1, c2, c3⟩ := b4 u hS
          obtain ⟨d1, d2, d3⟩ := hS
          rcases swT_cases s1.prop s1.opp u with ⟨e1, e2⟩ | ⟨e1, e2⟩
          · exact .inl (by rw [c2, e1, d3])
          · exact .inr ⟨u, ⟨d1, d2, d3⟩, e1.symm, by rw [c2, e1], by rw [d3, e2 (by omega)]⟩
        · exact .inl (b5 x hx fun u hS e => hx' ⟨u, hS, e⟩)
    refine ⟨b1.trans a1, b2.trans a2, b3.trans a3, fun u hu' => ?_, fun v hv => ?_, fun t => ?_⟩
    · rcases hchg u with e | ⟨_, _, _, e, _⟩
      · rw [e]; exact hp1.prop u hu'
      · exact .inl e
    · rcases hchg v with e | ⟨_, _, _, e, _⟩
      · rw [e]; exact hp1.propO v hv
      · exact .inr e
    · by_cases hex : ∃ u, Sw us s1.prop u ∧ swS s1.prop s1.opp u = t
      · obtain ⟨u, hS, rfl⟩ := hex
        obtain ⟨c1, c2, c3⟩ := b4 u hS
        have hST : swS s1.prop s1.opp u ≠ swT s1.prop s1.opp u ∧ s2.prop (swT s1.prop s1.opp u) = swT s1.prop s1.opp u ∧
            s1.prop (swT s1.prop s1.opp u) = swS s1.prop s1.opp u := by
          obtain ⟨d1, d2, d3⟩ := hS
          rcases swT_cases s1.prop s1.opp u with ⟨e1, e2⟩ | ⟨e1, e2⟩
          · rw [e1, e2]; exact ⟨by omega, by rw [c1, e1], rfl⟩
          · rw [e1, e2 (by omega)]; exact ⟨by omega, by rw [c2, e1], d3⟩
        rw [c3, hp1.opp]
        have hsame : ∀ x ∈ us, x ≠ swT s1.prop s1.opp u →
            (if s2.prop x = swS s1.prop s1.opp u ∧ s2.prop x ≠ x then c.nw x else 0) = (if s1.prop x = swS s1.prop s1.opp u ∧ s1.prop x ≠ x then c.nw x else 0) := by
          intro x _ hx
          rcases hchg x with e | ⟨u', hS', e1, e2, e3⟩
          · rw [e]
          · rw [if_neg (by simp [e2]), if_neg]
            rintro ⟨f1, f2⟩
            by_cases huu : u = u'
            · subst huu; exact hx e1
            · exact (swS_ne hS hS' huu).1 (f1.symm.trans e3)
        by_cases hT : swT s1.prop s1.opp u ∈ us
        · have := sum_change hu hT hsame
          unfold propW
          rw [this]
          rw [if_pos ⟨hST.2.2, by rw [hST.2.2]; exact hST.1⟩, if_neg (by simp [hST.2.1])]
          omega
        · have : propW c us s2.prop (swS s1.prop s1.opp u) = propW c us s1.prop (swS s1.prop s1.opp u) :=
            sum_congr fun x hx => hsame x hx (fun e => hT (e ▸ hx))
          rw [this]
          have hzero : c.nw (swT s1.prop s1.opp u) = 0 := by
            rcases swT_cases s1.prop s1.opp u with ⟨e1, e2⟩ | ⟨e1, e2⟩
            · rw [e1] at hT; exact absurd hS.1 hT
            · rw [e1] at hT ⊢; exact hz u hS hT
          omega
      · rw [b6 t (fun u hS e => hex ⟨u, hS, e⟩), hp1.opp t]
        congr 1
        refine sum_congr fun x hx => ?_
        rcases hchg x with e | ⟨u', hS', e1, e2, e3⟩
        · rw [e]
        · rw [if_neg (c := s2.prop x = t ∧ s2.prop x ≠ x) (by simp [e2]), if_neg]
          rintro ⟨f1, f2⟩
          exact hex ⟨u', hS', e3.symm.trans f1⟩
  · rw [if_neg hsw] at h2
    subst h2; exact hp1

theorem half_det {us : List Nat} {s r s1 s2 r1 r2 : DC} (hn : us.Nodup) (hp : ∀ u ∈ us, s.prop u = u)
    (ecl : s.cl = r.cl) (ecw : s.cw = r.cw) (eopp : s.opp = r.opp) (eprop : s.prop = r.prop) (efv : s.fv = r.fv)
    (h : Half c us s s1 s2) (h' : Half c us r r1 r2) : s2.prop = r2.prop ∧ s2.opp = r2.opp := by
  have etgt : tgt c r = tgt c s := by funext u; unfold tgt; rw [ecl, ecw, efv]
  obtain ⟨h1, h2⟩ := h
  obtain ⟨h1', h2'⟩ := h'
  obtain ⟨_, _, _, a4, a5, a6⟩ := loop1 hn hp h1
  obtain ⟨_, _, _, a4', a5', a6'⟩ := loop1 hn (fun u hu => eprop ▸ hp u hu) h1'
  rw [etgt] at a4' a6'
  rw [← eprop] at a5'
  rw [← eopp] at a6'
  have e1 : s1.prop = r1.prop := by
    funext v
    by_cases hv : v ∈ us
    · rw [a4 v hv, a4' v hv]
    · rw [a5 v hv, a5' v hv]
  have e2 : s1.opp = r1.opp := by funext t; rw [a6, a6']
  by_cases hsw : c.swaps = true
  · rw [if_pos hsw] at h2 h2'
    obtain ⟨_, _, _, b4, b5, b6⟩ := loop2 h2
    obtain ⟨_, _, _, b4', b5', b6'⟩ := loop2 h2'
    rw [← e1, ← e2] at b4' b6'
    rw [← e1] at b5'
    constructor
    · funext v
      by_cases hx : Sw us s1.prop v
      · rw [(b4 v hx).1, (b4' v hx).1]
      · by_cases hx' : ∃ u, Sw us s1.prop u ∧ s1.prop u = v
        · obtain ⟨u, hS, rfl⟩ := hx'
          rw [(b4 u hS).2.1, (b4' u hS).2.1]
        · have : ∀ u, Sw us s1.prop u → s1.prop u ≠ v := fun u hS e => hx' ⟨u, hS, e⟩
          rw [b5 v hx this, b5' v hx this]
    · funext t
      by_cases hx : ∃ u, Sw us s1.prop u ∧ swS s1.prop s1.opp u = t
      · obtain ⟨u, hS, rfl⟩ := hx
        rw [(b4 u hS).2.2, (b4' u hS).2.2]
      · have : ∀ u, Sw us s1.prop u → swS s1.prop s1.opp u ≠ t := fun u hS e => hx ⟨u, hS, e⟩
        rw [b6 t this, b6' t this]
  · rw [if_neg hsw] at h2 h2'
    subst h2; subst h2'; exact ⟨e1, e2⟩

end DetC
end Verif
