import Verif.Lemmas.Dyn3
import Verif.Lemmas.Dyn5
import Verif.Lemmas.Dyn8
/-!
# Invariant of the incident net lists
-/
namespace Verif
namespace Dyn
open SMap (wr)

/-- the removals of nets at versions below `k`, last one first -/
def vl : Nat → List Op
  | 0 => []
  | k + 1 => Op.ver k :: vl k

theorem vl_length (k : Nat) : (vl k).length = k := by
  induction k with
  | zero => rfl
  | succ k ih => simp [vl, ih]

theorem mem_vl {k j : Nat} : Op.ver j ∈ vl k ↔ j < k := by
  induction k with
  | zero => simp [vl]
  | succ k ih => simp [vl, ih]; omega

theorem contr_vl {k z : Nat} : Op.contr z ∉ vl k := by
  induction k with
  | zero => simp [vl]
  | succ k ih => simp [vl, ih]

/-- number of nets that are left after the removals `ops` -/
def cnt (keep : Op → Nat → Bool) (base : List Nat) (ops : List Op) : Nat :=
  (base.filter (fun e => ops.all (fun o => keep o e))).length

/-- The lists represent the forest: `L` are the nodes in use, `mid v` means that `v` is already split
off, but its nets are not yet restored; `ops x` are the removals executed on the array of `x`. -/
structure INAOK (n : Nat) (L : Nat → Prop) (mg mid : Nat → Bool) (par : Nat → Nat) (kids sg : Nat → List Nat) (ver : Nat → Nat)
    (keep : Op → Nat → Bool) (v0 : Nat → Int) (base : Nat → List Nat) (ops : Nat → List Op) (V : Nat) (s : INA) : Prop where
  nEq : s.n = n
  lv : ∀ x, L x → x < n
  lm : ∀ v, mg v = true → L v ∧ L (par v)
  mm : ∀ v, mid v = true → mg v = false ∧ L v
  ring : ∀ h, L h → mg h = false → mid h = false → RingRep s h ((kids h).flatMap sg)
  part : ∀ h, mid h = true → Part s h ((kids h).flatMap sg)
  tl : ∀ v, mg v = true → s.tl v = lastOf v ((kids v).flatMap sg)
  arr : ∀ x, L x → Arr keep (v0 x) (base x) (s.ent x) (ops x) (s.sz x)
  vr : ∀ x, L x → s.vr x = v0 x + (ops x).length
  dg : ∀ h, L h → mg h = false → s.dg h = ((sg h).map (fun y => (s.sz y : Int))).sum
  top : ∀ h, L h → mg h = false → ops h = if mid h then Op.contr h :: vl V else vl V
  stk : ∀ v, mg v = true → ver v ≤ V ∧ ∃ T, ops (par v) = T ++ vl (ver v) ∧ ops v = T ++ Op.contr v :: vl (ver v) ∧
    s.dg v = ((sg v).map (fun y => (cnt keep (base y) ((ops y).drop T.length) : Int))).sum
  mem : ∀ x, L x → ∀ z, Op.contr z ∈ ops x ↔ (mg z = true ∨ mid z = true) ∧ x ∈ sg z
  vers : ∀ x, L x → ∀ k, Op.ver k ∈ ops x ↔ k < V
  ond : ∀ x, L x → (ops x).Nodup

/-- the active entries have the current version (only while contracting) -/
def Fresh (L : Nat → Prop) (v0 : Nat → Int) (ops : Nat → List Op) (s : INA) : Prop :=
  ∀ x, L x → ∀ p ∈ (s.ent x).take (s.sz x), p.2 = v0 x + (ops x).length

theorem Arr.sz_eq {keep : Op → Nat → Bool} {v0 : Int} {base : List Nat} {l : List (Nat × Int)} {ops : List Op} {sz : Nat}
    (h : Arr keep v0 base l ops sz) : sz = cnt keep base ops := by
  have h1 := h.active.length_eq
  have h2 := h.le
  rw [List.length_map, List.length_take] at h1
  unfold cnt
  omega

theorem Part.frame {s s' : INA} {v : Nat} {r : List Nat} (h : Part s v r) (h1 : ∀ x ∈ v :: r, s'.nx x = s.nx x ∧ s'.pv x = s.pv x ∧ s'.inx x = s.inx x ∧
    s'.ipv x = s.ipv x ∧ s'.hd x = s.hd x) (h2 : ∀ x ∈ r, s'.sz x = s.sz x) : Part s' v r := by
  have hsub : ∀ x ∈ r ++ [v], x ∈ v :: r := by intro x hx; simp at hx ⊢; tauto
  refine ⟨h.nodup, h.ring.congr (fun x hx => (h1 x hx).1) (fun x hx => (h1 x (hsub x hx)).2.1), ?_, ?_, ?_, ?_⟩
  · rw [(h1 v (by simp)).2.2.2.2]; exact h.head
  · intro x hx; rw [(h1 x (by simp [hx])).2.2.2.2]; exact h.inner x hx
  · intro x hx h0
    rw [(h1 x (by simp [hx])).2.2.1, (h1 x (by simp [hx])).2.2.2.1]
    exact h.empty x hx (by rw [← h2 x hx]; exact h0)
  · intro c hc l hl he
    rw [(h1 c (by simp [hc])).2.2.2.1] at he
    rw [(h1 l hl).2.2.1]
    exact h.link c hc l hl he

section
variable {n : Nat} {L : Nat → Prop} {mg mid : Nat → Bool} {par : Nat → Nat} {kids sg : Nat → List Nat} {ver : Nat → Nat}
  {keep keep' : Op → Nat → Bool} {v0 : Nat → Int} {base : Nat → List Nat} {ops : Nat → List Op} {V : Nat} {s : INA}

theorem INAOK.mem_live (h : INAOK n L mg mid par kids sg ver keep v0 base ops V s) (t : Tree n mg par kids sg) {x y : Nat} (hx : L x) (hy : y ∈ sg x) :
    L y := by
  by_cases he : y = x
  · rw [he]; exact hx
  · exact (h.lm y (t.inner_mg hy he)).1

theorem INAOK.incidentEdges (h : INAOK n L mg mid par kids sg ver keep v0 base ops V s) (t : Tree n mg par kids sg) {x : Nat} (hx : L x)
    (hm : mg x = false) (hd : mid x = false) : s.incidentEdges x = some ((sg x).flatMap s.active) := by
  rw [(h.ring x hx hm hd).incidentEdges, ← t.seg x]
  have := t.length_le (h.lv x hx)
  rw [h.nEq]; omega

/-- only the answers for the removals that took place matter -/
theorem INAOK.keep_congr (h : INAOK n L mg mid par kids sg ver keep v0 base ops V s) (t : Tree n mg par kids sg)
    (hk : ∀ x, L x → ∀ o ∈ ops x, ∀ e, keep' o e = keep o e) : INAOK n L mg mid par kids sg ver keep' v0 base ops V s := by
  refine ⟨h.nEq, h.lv, h.lm, h.mm, h.ring, h.part, h.tl, ?_, h.vr, h.dg, h.top, ?_, h.mem, h.vers, h.ond⟩
  · intro x hx
    exact (h.arr x hx).keep_congr (hk x hx)
  · intro v hv
    obtain ⟨h1, T, h2, h3, h4⟩ := h.stk v hv
    refine ⟨h1, T, h2, h3, ?_⟩
    rw [h4]
    congr 1
    refine List.map_congr_left ?_
    intro y hy
    have hly := h.mem_live t (h.lm v hv).1 hy
    unfold cnt
    congr 2
    refine List.filter_congr ?_
    intro e _
    rw [Bool.eq_iff_iff, List.all_eq_true, List.all_eq_true]
    constructor
    · intro hh o ho; rw [hk y hly o (List.mem_of_mem_drop ho)]; exact hh o ho
    · intro hh o ho; rw [← hk y hly o (List.mem_of_mem_drop ho)]; exact hh o ho

/-- only the parents of merged nodes matter -/
theorem INAOK.par_congr {par' ver' : Nat → Nat} (h : INAOK n L mg mid par kids sg ver keep v0 base ops V s)
    (hp : ∀ v, mg v = true → par' v = par v ∧ ver' v = ver v) : INAOK n L mg mid par' kids sg ver' keep v0 base ops V s := by
  refine ⟨h.nEq, h.lv, ?_, h.mm, h.ring, h.part, h.tl, h.arr, h.vr, h.dg, h.top, ?_, h.mem, h.vers, h.ond⟩
  · intro v hv; rw [(hp v hv).1]; exact h.lm v hv
  · intro v hv; rw [(hp v hv).1, (hp v hv).2]; exact h.stk v hv

theorem rest_eq {n' : Nat} {mg' : Nat → Bool} {par' : Nat → Nat} {kids' sg' : Nat → List Nat} (t : Tree n mg par kids sg) (t' : Tree n' mg' par' kids' sg')
    {x : Nat} {l : List Nat} (hx : sg' x = sg x ++ l) : (kids' x).flatMap sg' = (kids x).flatMap sg ++ l := by
  have h1 := t'.seg x
  rw [hx] at h1
  have h2 := t.seg x
  rw [h2, List.cons_append] at h1
  exact (List.cons.inj h1).2.symm

theorem sum_sub_map (l : List Nat) (f g : Nat → Int) : (l.map f).sum - (l.map (fun x => f x - g x)).sum = (l.map g).sum := by
  induction l with
  | nil => rfl
  | cons a l ih => simp only [List.map_cons, List.sum_cons]; omega

/-- `contract` -/
theorem INAOK.contract (h : INAOK n L mg (fun _ => false) par kids sg ver keep v0 base ops V s) (t : Tree n mg par kids sg) (hf : Fresh L v0 ops s)
    {u v : Nat} (hu : L u) (hv : L v) (hmu : mg u = false) (hmv : mg v = false) (huv : u ≠ v) (hp : par v = u) (hver : ver v = V)
    {flag : Nat → Bool} (hfl : ∀ e ∈ (sg v).flatMap s.active, flag e = !keep (Op.contr v) e) :
    ∃ s', s.contract u v flag = some s' ∧
      INAOK n L (wr mg v true) (fun _ => false) par (wr kids u (kids u ++ [v])) (wr sg u (sg u ++ sg v)) ver keep v0 base
        (fun x => if x ∈ sg v then Op.contr v :: ops x else ops x) V s' ∧
      Fresh L v0 (fun x => if x ∈ sg v then Op.contr v :: ops x else ops x) s' ∧ ∀ x, x ∉ sg v → s'.active x = s.active x := by
  have hun := h.lv u hu
  have hvn := h.lv v hv
  have t' := t.merge hun hvn hmu hmv huv hp
  have hru := h.ring u hu hmu rfl
  have hrv := h.ring v hv hmv rfl
  have segv : sg v = v :: (kids v).flatMap sg := t.seg v
  have segu : sg u = u :: (kids u).flatMap sg := t.seg u
  have hlen : ((kids v).flatMap sg).length ≤ s.n := by
    have := t.length_le hvn
    rw [h.nEq]; omega
  obtain ⟨s1, hs1, hr1, hR, hI⟩ := hrv.removeNets hlen flag
  rw [← segv] at hR hI
  have hdis : ∀ x ∈ sg u, x ∉ sg v := by
    intro x hx hx'
    exact huv (t.dis u hun v hvn hmu hmv x hx hx')
  have huv' : u ∉ sg v := hdis u (t.self u)
  -- rings other than the one of `v` are unchanged
  have frame1 : ∀ g, L g → mg g = false → g ≠ v → RingRep s1 g ((kids g).flatMap sg) := by
    intro g hg hmg hgv
    have hd : ∀ x ∈ sg g, x ∉ sg v := by
      intro x hx hx'
      exact hgv (t.dis g (h.lv g hg) v hvn hmg hmv x hx hx')
    refine (h.ring g hg hmg rfl).frame ?_ ?_
    · intro x hx
      rw [← t.seg g] at hx
      have := hI x (hd x hx)
      rw [hR.nx, hR.pv, hR.hd]
      exact ⟨rfl, rfl, this.1, this.2, rfl⟩
    · intro x hx
      refine hR.szOut x (hd x ?_)
      rw [t.seg g]; exact List.mem_cons_of_mem _ hx
  have hru1 := frame1 u hu hmu huv
  have hd1 : ∀ x ∈ u :: (kids u).flatMap sg, x ∉ v :: (kids v).flatMap sg := by
    rw [← segu, ← segv]; exact hdis
  have hra := hru1.append hr1 hd1
  obtain ⟨a1, a2, a3, a4, a5, a6, a7⟩ := append_fields s1 u v
  refine ⟨{ s1.append u v with dg := wr (s1.append u v).dg u ((s1.append u v).dg u + (s1.append u v).dg v) }, ?_, ?_, ?_, ?_⟩
  · unfold INA.contract; rw [hs1]
  · have hsz : ∀ x, (s1.append u v).sz x = s1.sz x := fun x => by rw [a2]
    have hArr : ∀ x, x ∈ sg v → Arr keep (v0 x) (base x) (s1.ent x) (Op.contr v :: ops x) (s1.sz x) := by
      intro x hx
      have hlx := h.mem_live t hv hx
      rw [hR.entIn x hx, hR.szIn x hx]
      refine ((h.arr x hlx).remove (hf x hlx) ?_).1
      intro e he
      exact hfl e (List.mem_flatMap.2 ⟨x, hx, he⟩)
    have hdgv : s1.dg v = ((sg v).map (fun y => (s1.sz y : Int))).sum := by
      rw [hR.dgIn, h.dg v hv hmv, sum_sub_map (sg v) (fun y => (s.sz y : Int)) (fun y => ((s.rmd flag y).2 : Int))]
      congr 1
      refine List.map_congr_left ?_
      intro x hx
      rw [hR.szIn x hx]
    have hopsv : ∀ x, x ∉ sg v → (if x ∈ sg v then Op.contr v :: ops x else ops x) = ops x := fun x hx => if_neg hx
    have hpar_in : ∀ w, mg w = true → w ≠ v → (w ∈ sg v ↔ par w ∈ sg v) := by
      intro w hw hwv
      constructor
      · intro hwin
        by_contra hnp
        exact hnp (t.head_of hvn hmv (t.lt w hw).2 (t.par_mem hw) hwin)
      · intro hpin; exact t.sub hpin (t.par_mem hw)
    refine ⟨?_, h.lv, ?_, by simp, ?_, by simp, ?_, ?_, ?_, ?_, ?_, ?_, ?_, ?_, ?_⟩
    · show (s1.append u v).n = n
      rw [a5, hR.nEq, h.nEq]
    · intro w hw
      by_cases hwv : w = v
      · subst hwv; exact ⟨hv, by rw [hp]; exact hu⟩
      · rw [wr_other _ _ hwv] at hw; exact h.lm w hw
    · intro g hg hmg _
      have hgv : g ≠ v := by rintro rfl; rw [wr_same] at hmg; cases hmg
      rw [wr_other _ _ hgv] at hmg
      by_cases hgu : g = u
      · subst hgu
        have e : ((wr kids g (kids g ++ [v])) g).flatMap (wr sg g (sg g ++ sg v)) = (kids g).flatMap sg ++ v :: (kids v).flatMap sg := by
          rw [rest_eq t t' (wr_same _ _ _), segv]
        rw [e]
        exact hra.frame (fun x _ => ⟨rfl, rfl, rfl, rfl, rfl⟩) (fun x _ => rfl)
      · have e : ((wr kids u (kids u ++ [v])) g).flatMap (wr sg u (sg u ++ sg v)) = (kids g).flatMap sg := by
          rw [rest_eq t t' (l := []) (by rw [wr_other _ _ hgu]; simp), List.append_nil]
        rw [e]
        refine (frame1 g hg hmg hgv).frame ?_ ?_
        · intro x hx
          rw [← t.seg g] at hx
          refine append_frame hru1 hr1 ?_ ?_
          · rw [← segu]; intro hx'; exact hgu (t.dis g (h.lv g hg) u hun hmg hmu x hx hx')
          · rw [← segv]; intro hx'; exact hgv (t.dis g (h.lv g hg) v hvn hmg hmv x hx hx')
        · intro x _; exact hsz x
    · intro w hw
      show (s1.append u v).tl w = _
      rw [a6]
      by_cases hwv : w = v
      · subst hwv
        rw [wr_same, hr1.ring.last.2, rest_eq t t' (l := []) (by rw [wr_other _ _ (Ne.symm huv)]; simp), List.append_nil]
      · rw [wr_other _ _ hwv] at hw
        have hwu : w ≠ u := by rintro rfl; rw [hmu] at hw; cases hw
        rw [wr_other _ _ hwv, hR.tl, h.tl w hw, rest_eq t t' (l := []) (by rw [wr_other _ _ hwu]; simp), List.append_nil]
    · intro x hx
      show Arr keep (v0 x) (base x) ((s1.append u v).ent x) _ ((s1.append u v).sz x)
      rw [a1, a2]
      by_cases hxv : x ∈ sg v
      · rw [if_pos hxv]; exact hArr x hxv
      · rw [if_neg hxv, hR.entOut x hxv, hR.szOut x hxv]; exact h.arr x hx
    · intro x hx
      show (s1.append u v).vr x = _
      rw [a3]
      by_cases hxv : x ∈ sg v
      · rw [if_pos hxv, hR.vrIn x hxv, h.vr x hx, List.length_cons]
        push_cast; omega
      · rw [if_neg hxv, hR.vrOut x hxv]; exact h.vr x hx
    · intro g hg hmg
      have hgv : g ≠ v := by rintro rfl; rw [wr_same] at hmg; cases hmg
      rw [wr_other _ _ hgv] at hmg
      show wr (s1.append u v).dg u ((s1.append u v).dg u + (s1.append u v).dg v) g = ((wr sg u (sg u ++ sg v) g).map (fun y => ((s1.append u v).sz y : Int))).sum
      rw [a2, a4]
      by_cases hgu : g = u
      · subst hgu
        rw [wr_same, wr_same, List.map_append, List.sum_append, hdgv, hR.dgOut g huv, h.dg g hg hmg]
        congr 2
        refine List.map_congr_left ?_
        intro y hy
        rw [hR.szOut y (hdis y hy)]
      · rw [wr_other _ _ hgu, wr_other _ _ hgu, hR.dgOut g hgv, h.dg g hg hmg]
        congr 1
        refine List.map_congr_left ?_
        intro y hy
        rw [hR.szOut y (fun hy' => hgv (t.dis g (h.lv g hg) v hvn hmg hmv y hy hy'))]
    · intro g hg hmg
      have hgv : g ≠ v := by rintro rfl; rw [wr_same] at hmg; cases hmg
      rw [wr_other _ _ hgv] at hmg
      have hgn : g ∉ sg v := fun hh => hgv (t.dis g (h.lv g hg) v hvn hmg hmv g (t.self g) hh)
      rw [if_neg hgn]
      exact h.top g hg hmg
    · intro w hw
      show ver w ≤ V ∧ ∃ T, _ ∧ _ ∧ wr (s1.append u v).dg u ((s1.append u v).dg u + (s1.append u v).dg v) w = _
      rw [a4]
      by_cases hwv : w = v
      · subst hwv
        refine ⟨by omega, [], ?_, ?_, ?_⟩
        · rw [hp, if_neg huv', List.nil_append, hver]
          exact h.top u hu hmu
        · rw [if_pos (t.self w), List.nil_append, hver]
          congr 1
          exact h.top w hv hmv
        · rw [wr_other _ _ (Ne.symm huv), wr_other _ _ (Ne.symm huv), hdgv]
          congr 1
          refine List.map_congr_left ?_
          intro y hy
          rw [if_pos hy, List.length_nil, List.drop_zero, (hArr y hy).sz_eq]
      · rw [wr_other _ _ hwv] at hw
        have hwu : w ≠ u := by rintro rfl; rw [hmu] at hw; cases hw
        obtain ⟨h1, T, h2, h3, h4⟩ := h.stk w hw
        rw [wr_other _ _ hwu, wr_other _ _ hwu, hR.dgOut w hwv, h4]
        refine ⟨h1, ?_⟩
        by_cases hin : w ∈ sg v
        · have hpin := (hpar_in w hw hwv).1 hin
          refine ⟨Op.contr v :: T, ?_, ?_, ?_⟩
          · rw [if_pos hpin, h2, List.cons_append]
          · rw [if_pos hin, h3, List.cons_append]
          · congr 1
            refine List.map_congr_left ?_
            intro y hy
            rw [if_pos (t.sub hin hy), List.length_cons, List.drop_succ_cons]
        · have hpin : par w ∉ sg v := fun hh => hin ((hpar_in w hw hwv).2 hh)
          refine ⟨T, ?_, ?_, ?_⟩
          · rw [if_neg hpin, h2]
          · rw [if_neg hin, h3]
          · congr 1
            refine List.map_congr_left ?_
            intro y hy
            have hyv : y ∉ sg v := fun hh => hin (t.head_of hvn hmv (t.lt w hw).1 hy hh)
            rw [if_neg hyv]
    · intro x hx z
      have hold := h.mem x hx z
      simp only [Bool.false_eq_true, or_false] at hold ⊢
      by_cases hzv : z = v
      · subst hzv
        rw [wr_same, wr_other _ _ (Ne.symm huv)]
        have hno : Op.contr z ∉ ops x := fun hh => by
          have := (hold.1 hh).1
          rw [hmv] at this; cases this
        by_cases hxv : x ∈ sg z
        · simp [hxv]
        · simp [hxv, hno]
      · rw [wr_other _ _ hzv]
        have e1 : Op.contr z ∈ (if x ∈ sg v then Op.contr v :: ops x else ops x) ↔ Op.contr z ∈ ops x := by
          split
          · rw [List.mem_cons]
            constructor
            · rintro (hh | hh)
              · injection hh with hh; exact absurd hh hzv
              · exact hh
            · exact Or.inr
          · rfl
        rw [e1, hold]
        by_cases hzu : z = u
        · subst hzu; simp [hmu]
        · rw [wr_other _ _ hzu]
    · intro x hx k
      rw [← h.vers x hx k]
      split <;> simp
    · intro x hx
      split
      · rename_i hxv
        rw [List.nodup_cons]
        refine ⟨?_, h.ond x hx⟩
        intro hh
        have := ((h.mem x hx v).1 hh).1
        simp [hmv] at this
      · exact h.ond x hx
  · intro x hx p hpp
    have hpp' : p ∈ ((s1.append u v).ent x).take ((s1.append u v).sz x) := hpp
    rw [a1, a2] at hpp'
    dsimp only
    by_cases hxv : x ∈ sg v
    · rw [if_pos hxv]
      rw [hR.entIn x hxv, hR.szIn x hxv] at hpp'
      have := ((h.arr x hx).remove (hf x hx) (o := Op.contr v) (nv := s.vr x + 1) (flag := flag) ?_).2.1 p hpp'
      · rw [this, h.vr x hx, List.length_cons]; push_cast; omega
      · intro e he
        exact hfl e (List.mem_flatMap.2 ⟨x, hxv, he⟩)
    · rw [if_neg hxv]
      rw [hR.entOut x hxv, hR.szOut x hxv] at hpp'
      exact hf x hx p hpp'
  · intro x hx
    show (((s1.append u v).ent x).take ((s1.append u v).sz x)).map Prod.fst = _
    rw [a1, a2, hR.entOut x hx, hR.szOut x hx]
    rfl

end
end Dyn
end Verif
