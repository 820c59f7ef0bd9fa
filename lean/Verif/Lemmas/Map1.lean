import Verif.Model.Mapping
import Verif.Lemmas.DFlow1
import Mathlib.Logic.Equiv.Basic
/-! # Lemmas: swap gains are exact -/
namespace Verif
namespace OneMap
open DFlow (set set_same set_other set_apply)

theorem markAll_apply : ∀ (l : List Nat) (mk : Nat → Bool) (e : Nat), markAll l mk e = (mk e || decide (e ∈ l))
  | [], mk, e => by simp [markAll]
  | a :: l, mk, e => by
    show markAll l (set mk a true) e = _
    rw [markAll_apply l, set_apply]
    by_cases h : e = a
    · subst h; simp
    · rw [if_neg h]
      simp [h]

theorem gainV_spec (f : Nat → Int) : ∀ (l : List Nat) (g : Int) (mk : Nat → Bool), l.Nodup →
    gainV f l (g, mk) = (g + (l.map (fun e => if mk e then 0 else f e)).sum, fun e => mk e && !decide (e ∈ l))
  | [], g, mk, _ => by simp [gainV]
  | a :: l, g, mk, h => by
    have hn : a ∉ l := (List.nodup_cons.mp h).1
    show gainV f l (if mk a then (g, set mk a false) else (g + f a, mk)) = _
    by_cases hm : mk a = true
    · rw [if_pos hm, gainV_spec f l _ _ (List.nodup_cons.mp h).2]
      refine Prod.ext ?_ ?_
      · show _ = g + (List.map _ (a :: l)).sum
        rw [List.map_cons, List.sum_cons, if_pos hm, zero_add]
        have : l.map (fun e => if set mk a false e = true then 0 else f e) = l.map (fun e => if mk e = true then 0 else f e) := by
          apply List.map_congr_left
          intro e he
          rw [set_apply, if_neg (c := e = a) (by rintro rfl; exact hn he)]
        rw [this]
      · funext e
        show (set mk a false e && _) = _
        rw [set_apply]
        by_cases he : e = a
        · subst he; simp
        · rw [if_neg he]; simp [he]
    · rw [if_neg hm, gainV_spec f l _ _ (List.nodup_cons.mp h).2]
      refine Prod.ext ?_ ?_
      · show _ = g + (List.map _ (a :: l)).sum
        rw [List.map_cons, List.sum_cons, if_neg hm]
        show g + f a + _ = g + (f a + _)
        omega
      · funext e
        show (mk e && _) = _
        by_cases he : e = a
        · subst he
          have : mk e = false := by simpa using hm
          simp [this]
        · simp [he]

theorem gainU_spec (f : Nat → Int) : ∀ (l : List Nat) (g : Int) (mk : Nat → Bool), l.Nodup →
    gainU f l (g, mk) = (g + (l.map (fun e => if mk e then f e else 0)).sum, fun e => mk e && !decide (e ∈ l))
  | [], g, mk, _ => by simp [gainU]
  | a :: l, g, mk, h => by
    have hn : a ∉ l := (List.nodup_cons.mp h).1
    show gainU f l (if mk a then (g + f a, set mk a false) else (g, mk)) = _
    by_cases hm : mk a = true
    · rw [if_pos hm, gainU_spec f l _ _ (List.nodup_cons.mp h).2]
      refine Prod.ext ?_ ?_
      · show _ = g + (List.map _ (a :: l)).sum
        rw [List.map_cons, List.sum_cons, if_pos hm]
        have : l.map (fun e => if set mk a false e = true then f e else 0) = l.map (fun e => if mk e = true then f e else 0) := by
          apply List.map_congr_left
          intro e he
          rw [set_apply, if_neg (c := e = a) (by rintro rfl; exact hn he)]
        rw [this]
        show g + f a + _ = g + (f a + _)
        omega
      · funext e
        show (set mk a false e && _) = _
        rw [set_apply]
        by_cases he : e = a
        · subst he; simp
        · rw [if_neg he]; simp [he]
    · rw [if_neg hm, gainU_spec f l _ _ (List.nodup_cons.mp h).2]
      refine Prod.ext ?_ ?_
      · show _ = g + (List.map _ (a :: l)).sum
        rw [List.map_cons, List.sum_cons, if_neg hm, zero_add]
      · funext e
        show (mk e && _) = _
        by_cases he : e = a
        · subst he
          have : mk e = false := by simpa using hm
          simp [this]
        · simp [he]

theorem mem_blocksOf {H : HG} {Φ : Assign} {e b : Nat} : b ∈ H.blocksOf Φ e ↔ ∃ x ∈ H.pins e, Φ x = some b := by
  unfold HG.blocksOf
  rw [List.mem_toFinset, List.mem_filterMap]

theorem vertexSwap_apply {Φ : Assign} {u v bu bv : Nat} (hu : Φ u = some bu) (hv : Φ v = some bv) (x : Nat) :
    vertexSwap Φ u v x = Φ (Equiv.swap u v x) := by
  unfold vertexSwap
  rw [hu, hv]
  show (if x = v then some bu else if x = u then some bv else Φ x) = _
  rw [Equiv.swap_apply_def]
  by_cases h1 : x = u
  · subst h1
    rw [if_pos rfl]
    by_cases h2 : x = v
    · subst h2; rw [if_pos rfl, ← hu]; simp
    · rw [if_neg h2, if_pos rfl, hv]
  · rw [if_neg h1, if_neg h1]
    by_cases h2 : x = v
    · rw [if_pos h2, if_pos h2, hu]
    · rw [if_neg h2, if_neg h2]

theorem vertexSwap_invol (Φ : Assign) (u v : Nat) : vertexSwap (vertexSwap Φ u v) u v = Φ := by
  cases hu : Φ u with
  | none => simp [vertexSwap, hu]
  | some bu =>
    cases hv : Φ v with
    | none => simp [vertexSwap, hu, hv]
    | some bv =>
      have h1 := vertexSwap_apply hu hv
      have e1 : vertexSwap Φ u v u = some bv := by rw [h1, Equiv.swap_apply_left, hv]
      have e2 : vertexSwap Φ u v v = some bu := by rw [h1, Equiv.swap_apply_right, hu]
      funext x
      rw [vertexSwap_apply e1 e2, h1, Equiv.swap_apply_self]

/-- the nodes have pairwise different blocks -/
structure OneToOne (H : HG) (Φ : Assign) : Prop where
  some : ∀ v ∈ H.nodes, ∃ b, Φ v = some b
  inj : ∀ v ∈ H.nodes, ∀ w ∈ H.nodes, Φ v = Φ w → v = w

theorem map_swap_perm {l : List Nat} (hn : l.Nodup) {u v : Nat} (hu : u ∈ l) (hv : v ∈ l) : (l.map (Equiv.swap u v)).Perm l := by
  rw [List.perm_ext_iff_of_nodup (hn.map (Equiv.injective _)) hn]
  intro x
  rw [List.mem_map]
  constructor
  · rintro ⟨y, hy, rfl⟩
    rw [Equiv.swap_apply_def]
    split_ifs
    exacts [hv, hu, hy]
  · intro hx
    refine ⟨Equiv.swap u v x, ?_, Equiv.swap_apply_self u v x⟩
    rw [Equiv.swap_apply_def]
    split_ifs
    exacts [hv, hu, hx]

theorem swap_perm {H : HG} (hn : H.nodes.Nodup) {Φ : Assign} {u v bu bv : Nat} (hu : Φ u = some bu) (hv : Φ v = some bv)
    (hum : u ∈ H.nodes) (hvm : v ∈ H.nodes) : (H.nodes.map (vertexSwap Φ u v)).Perm (H.nodes.map Φ) := by
  have : H.nodes.map (vertexSwap Φ u v) = (H.nodes.map (Equiv.swap u v)).map Φ := by
    rw [List.map_map]
    exact List.map_congr_left (fun x _ => vertexSwap_apply hu hv x)
  rw [this]
  exact (map_swap_perm hn hum hvm).map Φ

theorem OneToOne.perm {H : HG} (hn : H.nodes.Nodup) {Φ Φ' : Assign} (h : OneToOne H Φ) (hp : (H.nodes.map Φ').Perm (H.nodes.map Φ)) : OneToOne H Φ' where
  some := fun v hv => by
    have : Φ' v ∈ H.nodes.map Φ := hp.subset (List.mem_map_of_mem hv)
    obtain ⟨w, hw, hb⟩ := List.mem_map.mp this
    obtain ⟨b, hb'⟩ := h.some w hw
    exact ⟨b, by rw [← hb, hb']⟩
  inj := by
    have h1 : (H.nodes.map Φ).Nodup := List.Nodup.map_on (fun x hx y hy hxy => h.inj x hx y hy hxy) hn
    have h2 : (H.nodes.map Φ').Nodup := hp.nodup_iff.mpr h1
    intro v hv w hw hvw
    exact List.inj_on_of_nodup_map h2 hv hw hvw

theorem swap_blocks {H : HG} (hw : H.WF) {Φ : Assign} (hO : OneToOne H Φ) {u v bu bv : Nat} (hu : Φ u = some bu) (hv : Φ v = some bv) (hne : u ≠ v)
    (hum : u ∈ H.nodes) (hvm : v ∈ H.nodes) {e : Nat} (he : e ∈ H.edges) :
    H.blocksOf (vertexSwap Φ u v) e =
      if u ∈ H.pins e then (if v ∈ H.pins e then H.blocksOf Φ e else insert bv ((H.blocksOf Φ e).erase bu))
      else (if v ∈ H.pins e then insert bu ((H.blocksOf Φ e).erase bv) else H.blocksOf Φ e) := by
  have key : ∀ u v bu bv, Φ u = some bu → Φ v = some bv → u ≠ v → u ∈ H.nodes → v ∈ H.nodes → u ∈ H.pins e → v ∉ H.pins e →
      H.blocksOf (vertexSwap Φ u v) e = insert bv ((H.blocksOf Φ e).erase bu) := by
    intro u v bu bv hu hv hne hum hvm h1 h2
    ext b
    rw [mem_blocksOf, Finset.mem_insert, Finset.mem_erase, mem_blocksOf]
    constructor
    · rintro ⟨x, hx, hb⟩
      rw [vertexSwap_apply hu hv, Equiv.swap_apply_def] at hb
      by_cases hxu : x = u
      · rw [if_pos hxu, hv] at hb
        left; injection hb with hb; exact hb.symm
      · have hxv : x ≠ v := by rintro rfl; exact h2 hx
        rw [if_neg hxu, if_neg hxv] at hb
        right
        refine ⟨?_, x, hx, hb⟩
        rintro rfl
        exact hxu (hO.inj x (hw.pins_mem e he x hx) u hum (hb.trans hu.symm))
    · rintro (rfl | ⟨hb, x, hx, hxb⟩)
      · exact ⟨u, h1, by rw [vertexSwap_apply hu hv, Equiv.swap_apply_left, hv]⟩
      · have hxu : x ≠ u := by rintro rfl; rw [hu] at hxb; injection hxb with hxb; exact hb hxb.symm
        have hxv : x ≠ v := by rintro rfl; exact h2 hx
        exact ⟨x, hx, by rw [vertexSwap_apply hu hv, Equiv.swap_apply_def, if_neg hxu, if_neg hxv, hxb]⟩
  have hcomm : vertexSwap Φ u v = vertexSwap Φ v u := by
    funext x
    rw [vertexSwap_apply hu hv, vertexSwap_apply hv hu, Equiv.swap_comm]
  by_cases h1 : u ∈ H.pins e
  · rw [if_pos h1]
    by_cases h2 : v ∈ H.pins e
    · rw [if_pos h2]
      ext b
      rw [mem_blocksOf, mem_blocksOf]
      have hmem : ∀ x ∈ H.pins e, Equiv.swap u v x ∈ H.pins e := by
        intro x hx
        rw [Equiv.swap_apply_def]
        split_ifs
        exacts [h2, h1, hx]
      constructor
      · rintro ⟨x, hx, hb⟩
        rw [vertexSwap_apply hu hv] at hb
        exact ⟨_, hmem x hx, hb⟩
      · rintro ⟨x, hx, hb⟩
        exact ⟨_, hmem x hx, by rw [vertexSwap_apply hu hv, Equiv.swap_apply_self]; exact hb⟩
    · rw [if_neg h2]
      exact key u v bu bv hu hv hne hum hvm h1 h2
  · rw [if_neg h1]
    by_cases h2 : v ∈ H.pins e
    · rw [if_pos h2, hcomm]
      exact key v u bv bu hv hu (Ne.symm hne) hvm hum h2 h1
    · rw [if_neg h2]
      ext b
      rw [mem_blocksOf, mem_blocksOf]
      refine exists_congr (fun x => and_congr_right (fun hx => ?_))
      have hxu : x ≠ u := by rintro rfl; exact h1 hx
      have hxv : x ≠ v := by rintro rfl; exact h2 hx
      rw [vertexSwap_apply hu hv, Equiv.swap_apply_def, if_neg hxu, if_neg hxv]

theorem sum_sub_map {α : Type} (f g : α → Int) : ∀ l : List α, (l.map f).sum - (l.map g).sum = (l.map (fun x => f x - g x)).sum
  | [] => by simp
  | a :: l => by
    rw [List.map_cons, List.map_cons, List.map_cons, List.sum_cons, List.sum_cons, List.sum_cons, ← sum_sub_map f g l]; omega

theorem sum_add_map {α : Type} (f g : α → Int) : ∀ l : List α, (l.map f).sum + (l.map g).sum = (l.map (fun x => f x + g x)).sum
  | [] => by simp
  | a :: l => by
    rw [List.map_cons, List.map_cons, List.map_cons, List.sum_cons, List.sum_cons, List.sum_cons, ← sum_add_map f g l]; omega

/-- The gain of a swap is the exact decrease of the Steiner tree metric, and all marks are cleared again. -/
theorem swapGain_eq {c : Cfg} (hw : c.H.WF) {Φ : Assign} (hO : OneToOne c.H Φ) {u v : Nat} (hne : u ≠ v) (hum : u ∈ c.H.nodes) (hvm : v ∈ c.H.nodes) :
    swapGain c Φ (fun _ => false) u v = (c.H.steiner c.dist Φ - c.H.steiner c.dist (vertexSwap Φ u v), fun _ => false) := by
  obtain ⟨bu, hu⟩ := hO.some u hum
  obtain ⟨bv, hv⟩ := hO.some v hvm
  unfold swapGain
  rw [hu, hv]
  dsimp only
  rw [gainV_spec _ _ _ _ (hw.inc_nodup v hvm), gainU_spec _ _ _ _ (hw.inc_nodup u hum)]
  refine Prod.ext ?_ ?_
  · dsimp only
    unfold HG.steiner
    rw [sum_sub_map]
    have hV := GainComp.sum_change hw hvm (f := fun e => if v ∈ c.H.pins e ∧ u ∉ c.H.pins e then exch c.dist (c.H.blocksOf Φ e) (c.H.ew e) bv bu else 0) (g := fun _ => 0)
      (fun e _ h => by rw [if_neg (fun hh => h hh.1)])
    have hU := GainComp.sum_change hw hum (f := fun e => if u ∈ c.H.pins e ∧ v ∉ c.H.pins e then exch c.dist (c.H.blocksOf Φ e) (c.H.ew e) bu bv else 0) (g := fun _ => 0)
      (fun e _ h => by rw [if_neg (fun hh => h hh.1)])
    have hz : (c.H.edges.map (fun _ => (0 : Int))).sum = 0 := by simp
    rw [hz, sub_zero] at hV hU
    have e1 : ((c.H.inc v).map (fun e => if markAll (c.H.inc u) (fun _ => false) e = true then 0 else exch c.dist (c.H.blocksOf Φ e) (c.H.ew e) bv bu)).sum =
        ((c.H.inc v).map (fun e => (if v ∈ c.H.pins e ∧ u ∉ c.H.pins e then exch c.dist (c.H.blocksOf Φ e) (c.H.ew e) bv bu else 0) - 0)).sum := by
      congr 1
      apply List.map_congr_left
      intro e he
      have hev := (hw.inc_iff v hvm e).mp he
      rw [markAll_apply, sub_zero]
      by_cases hp : u ∈ c.H.pins e
      · rw [if_pos (by simpa using (hw.inc_iff u hum e).mpr ⟨hev.1, hp⟩), if_neg (fun h => h.2 hp)]
      · rw [if_neg (by simpa using fun h => hp ((hw.inc_iff u hum e).mp h).2), if_pos ⟨hev.2, hp⟩]
    have e2 : ((c.H.inc u).map (fun e => if (markAll (c.H.inc u) (fun _ => false) e && !decide (e ∈ c.H.inc v)) = true then exch c.dist (c.H.blocksOf Φ e) (c.H.ew e) bu bv else 0)).sum =
        ((c.H.inc u).map (fun e => (if u ∈ c.H.pins e ∧ v ∉ c.H.pins e then exch c.dist (c.H.blocksOf Φ e) (c.H.ew e) bu bv else 0) - 0)).sum := by
      congr 1
      apply List.map_congr_left
      intro e he
      have heu := (hw.inc_iff u hum e).mp he
      rw [markAll_apply, sub_zero]
      by_cases hp : v ∈ c.H.pins e
      · rw [if_neg (by simpa using fun _ => (hw.inc_iff v hvm e).mpr ⟨heu.1, hp⟩), if_neg (fun h => h.2 hp)]
      · rw [if_pos (by simpa using ⟨he, fun h => hp ((hw.inc_iff v hvm e).mp h).2⟩), if_pos ⟨heu.2, hp⟩]
    rw [e1, e2, ← hV, ← hU, zero_add, sum_add_map]
    congr 1
    apply List.map_congr_left
    intro e he
    rw [swap_blocks hw hO hu hv hne hum hvm he]
    unfold exch
    by_cases h1 : u ∈ c.H.pins e <;> by_cases h2 : v ∈ c.H.pins e <;> simp [h1, h2, sub_mul]
  · funext e
    dsimp only
    rw [markAll_apply]
    by_cases h : e ∈ c.H.inc u <;> simp [h]

end OneMap
end Verif
