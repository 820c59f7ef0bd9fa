import Verif.Lemmas.DetC9
import Verif.Spec.Clustering
import Mathlib.Data.List.Dedup
import Mathlib.Data.Finset.Card
import Mathlib.Data.Finset.Dedup
import Mathlib.Data.Finset.Image
/-!
# Lemmas: invariants of a clustering pass
-/
namespace Verif
namespace DetC
open SMap (wr)
variable {α : Type} {c : Cfg α}

theorem rinv_start (c : Cfg α) (fv : FVS) (rest : List Nat) : RInv c rest (start c fv) := by
  refine ⟨fun _ => rfl, fun _ _ => rfl, fun _ _ => rfl, fun _ _ => Int.le_refl _, fun v hv h => absurd h hv⟩

theorem rounds_induction {I : List Nat → Nat → DC → Prop} (hnn : ∀ v, 0 ≤ c.nw v)
    (hstep : ∀ us rest num s s' s2 mv, (us ++ rest).Nodup → RInv c (us ++ rest) s → I (us ++ rest) num s → Rd c us s s2 s' mv → I rest (num - s'.cnt) s')
    {L : List (List Nat)} {x y : Nat × DC} (h : Rounds c L x y) (hn : L.flatten.Nodup) (hI : RInv c L.flatten x.2) (h0 : I L.flatten x.1 x.2) :
    ∃ rest, RInv c rest y.2 ∧ I rest y.1 y.2 := by
  induction h with
  | nil x => exact ⟨_, hI, h0⟩
  | stop us L num s h => exact ⟨_, hI, h0⟩
  | round us L num s s' x h hr ht ih =>
    rw [List.flatten_cons] at hn hI h0
    obtain ⟨s2, mv, hrd⟩ := hr.rd hn hnn hI
    exact ih (List.nodup_append.1 hn).2.1 (hrd.rinv hn hnn hI) (hstep us _ num s s' s2 mv hn hI h0 hrd)

theorem rounds_det (hnn : ∀ v, 0 ≤ c.nw v) (hf : c.hasFixed = false) {L : List (List Nat)} {x y : Nat × DC} (h : Rounds c L x y) :
    ∀ {x' y' : Nat × DC}, Rounds c L x' y' → L.flatten.Nodup → RInv c L.flatten x.2 → x.1 = x'.1 → Same x.2 x'.2 → y.1 = y'.1 ∧ Same y.2 y'.2 := by
  induction h with
  | nil x => intro x' y' h' _ _ e hS; cases h'; exact ⟨e, hS⟩
  | stop us L num s h =>
    intro x' y' h' _ _ e hS
    cases h' with
    | stop => exact ⟨e, hS⟩
    | round _ _ num' s' s'' _ h' => simp only at e; omega
  | round us L num s s' x h hr ht ih =>
    intro x' y' h' hn hI e hS
    rw [List.flatten_cons] at hn hI
    cases h' with
    | stop _ _ _ _ h' => simp only at e; omega
    | round _ _ num' r r' _ h' hr' ht' =>
      simp only at e
      obtain ⟨hS', ec⟩ := round_det hn hnn hI hS hf hr hr'
      obtain ⟨s2, mv, hrd⟩ := hr.rd hn hnn hI
      exact ih ht' (List.nodup_append.1 hn).2.1 (hrd.rinv hn hnn hI) (by simp only [e, ec]) hS'

theorem rounds_exists (hnn : ∀ v, 0 ≤ c.nw v) (L : List (List Nat)) (num : Nat) (s : DC) (hn : L.flatten.Nodup) (hI : RInv c L.flatten s) : ∃ y, Rounds c L (num, s) y := by
  induction L generalizing num s with
  | nil => exact ⟨_, .nil _⟩
  | cons us L ih =>
    by_cases h : num ≤ c.limit
    · exact ⟨_, .stop us L num s h⟩
    · rw [List.flatten_cons] at hn hI
      obtain ⟨s', hr⟩ := round_exists hn hnn hI
      obtain ⟨s2, mv, hrd⟩ := hr.rd hn hnn hI
      obtain ⟨y, hy⟩ := ih (num - s'.cnt) s' (List.nodup_append.1 hn).2.1 (hrd.rinv hn hnn hI)
      exact ⟨y, .round us L num s s' y (by omega) hr hy⟩

/-! ### Invariants -/

theorem labelWeight_eq (nodes : List Nat) (nw : Nat → Int) (cl : Nat → Nat) (t : Nat) :
    labelWeight nodes nw cl t = (nodes.map (fun v => if cl v = t then nw v else 0)).sum := by
  unfold labelWeight
  induction nodes with
  | nil => rfl
  | cons a l ih =>
    simp only [List.filter_cons, List.map_cons, List.sum_cons]
    by_cases h : cl a = t
    · simp only [h, decide_true, if_true, List.map_cons, List.sum_cons, ih]
    · simp only [h, decide_false, if_false, Bool.false_eq_true, ih]; omega

/-- no proposals for `t`: nobody joins, and its weight is as before -/
theorem Rd.none {us : List Nat} {s s2 s' : DC} {mv : Nat → Prop} (h : Rd c us s s2 s' mv) {t : Nat} (ht : ¬ ∃ v, mv v ∧ s2.prop v = t) :
    joinW c us s2.prop mv t = 0 ∧ s2.opp t = s.cw t ∧ ∀ x ∈ us, s2.prop x = t → x = t := by
  classical
  have h3 : ∀ x ∈ us, s2.prop x = t → x = t := by
    intro x hx e
    by_contra hne
    have := (h.acc x hx (by rw [e]; exact fun e' => hne e'.symm)).1
    rw [e] at this
    exact ht this
  refine ⟨sum_zero fun x _ => by rw [if_neg]; exact fun hm => ht ⟨x, hm⟩, ?_, h3⟩
  rw [h.pr.opp t]
  have : propW c us s2.prop t = 0 := sum_zero fun x hx => by
    rw [if_neg]; rintro ⟨e1, e2⟩; exact e2 (e1.trans (h3 x hx e1).symm)
  omega

/-- weights of clusters are bounded -/
def Bnd (c : Cfg α) (s : DC) : Prop := ∀ t, s.cw t ≤ c.maxw ∨ (s.cw t = c.nw t ∧ ∀ v, s.cl v = t → v = t)

theorem Bnd.step (hnn : ∀ v, 0 ≤ c.nw v) {us : List Nat} {s s2 s' : DC} {mv : Nat → Prop} (h : Rd c us s s2 s' mv) (hB : Bnd c s) : Bnd c s' := by
  classical
  intro t
  by_cases hex : ∃ v, mv v ∧ s2.prop v = t
  · obtain ⟨v, hv, e⟩ := hex
    left
    have := h.cap v hv
    rw [e] at this
    rw [h.cw t]
    have := hnn t
    split <;> omega
  · obtain ⟨h1, h2, h3⟩ := h.none hex
    rcases hB t with hb | ⟨hb, hb'⟩
    · left; rw [h.cw t, h1]; have := hnn t; split <;> omega
    · right
      refine ⟨?_, fun v hv => ?_⟩
      · rw [h.cw t, h1, if_neg (fun hm => hm.2 (h2.trans hb))]; omega
      · by_cases hm : mv v
        · rw [h.cl v hm] at hv; exact absurd ⟨v, hm, hv⟩ hex
        · rw [h.clN v hm] at hv; exact hb' v hv

theorem Bnd.start (c : Cfg α) (fv : FVS) : Bnd c (start c fv) := fun _ => .inr ⟨rfl, fun _ h => h⟩

open Classical in
theorem Rd.labelWeight {us rest : List Nat} {s s2 s' : DC} {mv : Nat → Prop} (h : Rd c us s s2 s' mv) (hn : (us ++ rest).Nodup) (hI : RInv c (us ++ rest) s)
    (hr : ∀ u ∈ us ++ rest, u < c.n) (t : Nat) :
    labelWeight (List.range c.n) c.nw s'.cl t = labelWeight (List.range c.n) c.nw s.cl t + joinW c us s2.prop mv t - (if mv t then c.nw t else 0) := by
  have hu : us.Nodup := (List.nodup_append.1 hn).1
  rw [labelWeight_eq, labelWeight_eq]
  have hj : joinW c us s2.prop mv t = ((List.range c.n).map (fun v => if mv v ∧ s2.prop v = t then c.nw v else 0)).sum := by
    unfold joinW
    rw [← sum_mem List.nodup_range hu (fun v hv => List.mem_range.2 (hr v (List.mem_append_left _ hv)))]
    refine sum_congr fun v _ => ?_
    by_cases hv : v ∈ us
    · rw [if_pos hv]
    · rw [if_neg hv, if_neg (fun hm => hv (h.mvU v hm.1).1)]
  have hl : (if mv t then c.nw t else 0) = ((List.range c.n).map (fun v => if mv v ∧ v = t then c.nw v else 0)).sum := by
    by_cases hm : mv t
    · have ht := hr t (List.mem_append_left _ (h.mvU t hm).1)
      rw [if_pos hm]
      have := sum_mem (us := List.range c.n) (l := [t]) List.nodup_range (List.nodup_singleton _) (by simpa using ht) c.nw
      simp only [List.map_cons, List.map_nil, List.sum_cons, List.sum_nil, Int.add_zero] at this
      rw [← this]
      refine sum_congr fun v _ => ?_
      by_cases e : v = t
      · subst e; simp [hm]
      · simp [e]
    · rw [if_neg hm, sum_zero]
      intro v _
      rw [if_neg]; rintro ⟨h1, rfl⟩; exact hm h1
  rw [hj, hl]
  have hadd : ∀ (l : List Nat) (f g k : Nat → Int), (l.map f).sum + (l.map g).sum - (l.map k).sum = (l.map (fun v => f v + g v - k v)).sum := by
    intro l f g k
    induction l with
    | nil => rfl
    | cons a l ih => simp only [List.map_cons, List.sum_cons]; omega
  rw [hadd]
  refine sum_congr fun v _ => ?_
  by_cases hm : mv v
  · rw [h.cl v hm, hI.cl v (List.mem_append_left _ (h.mvU v hm).1)]
    simp only [hm, true_and]
    omega
  · rw [h.clN v hm]; simp [hm]

/-- positive weights: maintained weights are exact, and the number of clusters is `num` -/
structure Exact (c : Cfg α) (num : Nat) (s : DC) : Prop where
  cw : ∀ v < c.n, s.cw (s.cl v) = labelWeight (List.range c.n) c.nw s.cl (s.cl v)
  num : num = numClusters (List.range c.n) s.cl

theorem numClusters_eq (n : Nat) (cl : Nat → Nat) : numClusters (List.range n) cl = ((Finset.range n).image cl).card := by
  unfold numClusters
  rw [← List.card_toFinset]
  congr 1

open Classical in
theorem Exact.step (hpos : ∀ v, 0 < c.nw v) (hpins : ∀ u < c.n, ∀ e ∈ c.inc u, c.etgt e < c.n ∧ ∀ v ∈ c.pins e, v < c.n)
    {us rest : List Nat} {num : Nat} {s s2 s' : DC} {mv : Nat → Prop} (hn : (us ++ rest).Nodup) (hI : RInv c (us ++ rest) s) (hr : ∀ u ∈ us ++ rest, u < c.n)
    (h : Rd c us s s2 s' mv) (hE : Exact c num s) : Exact c (num - s'.cnt) s' := by
  have hnn : ∀ v, 0 ≤ c.nw v := fun v => Int.le_of_lt (hpos v)
  have hu : us.Nodup := (List.nodup_append.1 hn).1
  have hmvn : ∀ v, mv v → v < c.n := fun v hm => hr v (List.mem_append_left _ (h.mvU v hm).1)
  -- targets are labels
  have hold : ∀ v, mv v → ∃ w < c.n, s.cl w = s2.prop v := by
    intro v hm
    obtain ⟨h1, h2⟩ := h.mvU v hm
    obtain ⟨_, _, hF⟩ := h.pr.feas h1 h2
    obtain ⟨e, he, h' | h'⟩ := hF.nb
    · exact ⟨_, (hpins v (hmvn v hm) e he).1, h'.2.symm⟩
    · obtain ⟨w, hw, e'⟩ := h'.2; exact ⟨w, (hpins v (hmvn v hm) e he).2 w hw, e'.symm⟩
  have hold' : ∀ v < c.n, ∃ w < c.n, s.cl w = s'.cl v := by
    intro v hv
    by_cases hm : mv v
    · rw [h.cl v hm]; exact hold v hm
    · exact ⟨v, hv, (h.clN v hm).symm⟩
  -- a cluster whose node leaves without being joined is empty
  have hem : ∀ t, mv t → s2.opp t = c.nw t → ∀ v < c.n, s'.cl v ≠ t := by
    intro t hm ho v hv e
    have hcwt := (h.pr.feas (h.mvU t hm).1 (h.mvU t hm).2).1
    have hz : propW c us s2.prop t = 0 := by have := h.pr.opp t; omega
    have hno : ¬ ∃ v, mv v ∧ s2.prop v = t := by
      rintro ⟨x, hx, ex⟩
      obtain ⟨h1, h2⟩ := h.mvU x hx
      have := le_sum (us := us) (f := fun v => if s2.prop v = t ∧ s2.prop v ≠ v then c.nw v else 0) (fun v _ => by have := hnn v; split <;> omega) h1
      rw [if_pos ⟨ex, h2⟩] at this
      have := hpos x
      unfold propW at hz; omega
    have hvm : ¬ mv v := fun hm' => hno ⟨v, hm', by rw [← h.cl v hm', e]⟩
    have hvt : v ≠ t := by rintro rfl; exact hvm hm
    have hct : s.cl t = t := hI.cl t (List.mem_append_left _ (h.mvU t hm).1)
    have hcv : s.cl v = t := by rw [← h.clN v hvm, e]
    have h1 := hE.cw t (hmvn t hm)
    rw [hct, labelWeight_eq, hcwt] at h1
    have h2 := sum_mem (us := List.range c.n) (l := [t, v]) List.nodup_range (by simp; exact fun e => hvt e.symm) (by
      intro w hw; simp at hw; rcases hw with rfl | rfl
      · exact List.mem_range.2 (hmvn _ hm)
      · exact List.mem_range.2 hv) c.nw
    have h3 : ((List.range c.n).map (fun w => if w ∈ [t, v] then c.nw w else 0)).sum ≤ ((List.range c.n).map (fun w => if s.cl w = t then c.nw w else 0)).sum := by
      have hmono : ∀ (l : List Nat) (f g : Nat → Int), (∀ x ∈ l, f x ≤ g x) → (l.map f).sum ≤ (l.map g).sum := by
        intro l f g hfg
        induction l with
        | nil => simp
        | cons a l ih =>
          simp only [List.map_cons, List.sum_cons]
          have := ih fun x hx => hfg x (List.mem_cons_of_mem _ hx)
          have := hfg a List.mem_cons_self
          omega
      refine hmono _ _ _ fun w _ => ?_
      by_cases hw : w ∈ [t, v]
      · have : s.cl w = t := by simp at hw; rcases hw with rfl | rfl <;> assumption
        rw [if_pos hw, if_pos this]
      · rw [if_neg hw]; have := hnn w; split <;> omega
    rw [h2] at h3
    simp only [List.map_cons, List.map_nil, List.sum_cons, List.sum_nil] at h3
    have := hpos v
    omega
  -- a cluster that is joined is not empty
  have hjn : ∀ t, mv t → s2.opp t ≠ c.nw t → ∃ v, mv v ∧ s2.prop v = t := by
    intro t hm ho
    by_contra hno
    have hcwt := (h.pr.feas (h.mvU t hm).1 (h.mvU t hm).2).1
    exact ho ((h.none hno).2.1.trans hcwt)
  refine ⟨fun v hv => ?_, ?_⟩
  · obtain ⟨w, hw, e⟩ := hold' v hv
    have h1 := hE.cw w hw
    rw [e] at h1
    rw [h.labelWeight hn hI hr, h.cw, h1]
    by_cases hm : mv (s'.cl v)
    · have : s2.opp (s'.cl v) ≠ c.nw (s'.cl v) := fun ho => hem _ hm ho v hv rfl
      simp [hm, this]
    · simp [hm]
  · have hcnt : s'.cnt = (us.filter (fun v => decide (mv v ∧ s2.opp v = c.nw v))).length := by
      have h1 := h.cnt
      have h2 : ∀ l : List Nat, (l.map (fun v => if mv v ∧ s2.opp v = c.nw v then (1 : Int) else 0)).sum = ((l.filter (fun v => decide (mv v ∧ s2.opp v = c.nw v))).length : Int) := by
        intro l
        induction l with
        | nil => rfl
        | cons a l ih =>
          simp only [List.map_cons, List.sum_cons, ih, List.filter_cons]
          by_cases hp : mv a ∧ s2.opp a = c.nw a
          · rw [if_pos hp, if_pos (by simpa using hp)]; simp; omega
          · rw [if_neg hp, if_neg (by simpa using hp)]; omega
      rw [h2] at h1; omega
    have hcard : (us.filter (fun v => decide (mv v ∧ s2.opp v = c.nw v))).length = (us.filter (fun v => decide (mv v ∧ s2.opp v = c.nw v))).toFinset.card :=
      (List.toFinset_card_of_nodup (hu.filter _)).symm
    rw [hE.num, numClusters_eq, numClusters_eq, hcnt, hcard]
    have hsub : (us.filter (fun v => decide (mv v ∧ s2.opp v = c.nw v))).toFinset ⊆ (Finset.range c.n).image s.cl := by
      intro t ht
      simp only [List.mem_toFinset, List.mem_filter, decide_eq_true_eq] at ht
      exact Finset.mem_image.2 ⟨t, Finset.mem_range.2 (hmvn t ht.2.1), hI.cl t (List.mem_append_left _ ht.1)⟩
    rw [← Finset.card_sdiff_of_subset hsub]
    congr 1
    ext t
    simp only [Finset.mem_sdiff, Finset.mem_image, Finset.mem_range, List.mem_toFinset, List.mem_filter, decide_eq_true_eq]
    constructor
    · rintro ⟨⟨w, hw, e⟩, hne⟩
      by_cases hm : mv w
      · have hwt : w = t := by rw [← e]; exact (hI.cl w (List.mem_append_left _ (h.mvU w hm).1)).symm
        subst hwt
        obtain ⟨x, hx, ex⟩ := hjn w hm (fun ho => hne ⟨(h.mvU w hm).1, hm, ho⟩)
        exact ⟨x, hmvn x hx, by rw [h.cl x hx, ex]⟩
      · exact ⟨w, hw, by rw [h.clN w hm, e]⟩
    · rintro ⟨v, hv, rfl⟩
      exact ⟨hold' v hv, fun hx => hem _ hx.2.1 hx.2.2 v hv rfl⟩

theorem Exact.start (c : Cfg α) (fv : FVS) : Exact c c.n (start c fv) := by
  refine ⟨fun v hv => ?_, ?_⟩
  · rw [labelWeight_eq]
    have := sum_mem (us := List.range c.n) (l := [v]) List.nodup_range (List.nodup_singleton _) (by simpa using hv) c.nw
    simp only [List.map_cons, List.map_nil, List.sum_cons, List.sum_nil, Int.add_zero] at this
    show c.nw v = _
    rw [← this]
    refine sum_congr fun w _ => ?_
    simp only [List.mem_singleton, DetC.start]
    rfl
  · rw [numClusters_eq]
    simp [DetC.start]

end DetC
end Verif
