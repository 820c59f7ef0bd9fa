import Verif.Lemmas.Map4
import Verif.Props.C15_C16
import Mathlib.Order.WithBot
import Mathlib.Data.Prod.Lex
import Mathlib.Data.Int.Order.Basic
/-! # Lemmas: choice of the best mapping, contraction of the blocks -/
namespace Verif
namespace OneMap
open Contract

variable {c : GCfg} {α : Type} [LinearOrder α]

/-! ### candidates -/

/-- a one-to-one mapping onto the processors that respects fixed nodes -/
structure CandOk (c : GCfg) (Φ : Assign) : Prop where
  total : ∀ v ∈ c.H.nodes, ∃ b < c.k, Φ v = some b
  inj : ∀ v ∈ c.H.nodes, ∀ w ∈ c.H.nodes, Φ v = Φ w → v = w
  fix : ∀ v ∈ c.H.nodes, c.fixed v = true → Φ v = some (c.fixedBlock v)
  out : ∀ v, v ∉ c.H.nodes → Φ v = none

theorem candidate_spec (hw : c.H.WF) (hd : ∀ S, 0 ≤ c.dist S) (he : ∀ e ∈ c.H.edges, 0 ≤ c.H.ew e) (hk : c.H.nodes.length = c.k) (hpk : PickOk c) (hF : FixOk c)
    (ls : Bool) {seed : Nat} (hs : seed ∈ c.H.nodes) (hS : SeedOk c seed) :
    ∃ Φ N, (∀ n ≥ N, candidate c ls n seed = some Φ) ∧ CandOk c Φ := by
  obtain ⟨Φ, N, h1, h2, h3, h4, h5⟩ := greedy_spec hw hk hpk hF hs hS
  have hinj : ∀ v ∈ c.H.nodes, ∀ w ∈ c.H.nodes, Φ v = Φ w → v = w := by
    intro v hv w _ hvw
    obtain ⟨b, -, hb⟩ := h2 v hv
    exact h3 v w b hb (hvw ▸ hb)
  cases ls with
  | false =>
    refine ⟨Φ, N, fun n hn => ?_, ⟨h2, hinj, h4, h5⟩⟩
    unfold candidate
    rw [h1 n hn]; rfl
  | true =>
    have hO : OneToOne c.H Φ := ⟨fun v hv => by obtain ⟨b, -, hb⟩ := h2 v hv; exact ⟨b, hb⟩, hinj⟩
    obtain ⟨Φ', N', i1, i2, i3⟩ := improveLoop_spec (c := c.toCfg) hw hd he Φ 0 hO
    have hO' := hO.perm hw.nodes_nodup i2.perm
    refine ⟨Φ', max N N', fun n hn => ?_, ⟨?_, hO'.inj, ?_, ?_⟩⟩
    · unfold candidate
      rw [h1 n (le_trans (le_max_left _ _) hn)]
      exact i1 n (le_trans (le_max_right _ _) hn)
    · intro v hv
      have : Φ' v ∈ c.H.nodes.map Φ := i2.perm.subset (List.mem_map_of_mem hv)
      obtain ⟨w, hw', hwv⟩ := List.mem_map.mp this
      obtain ⟨b, hb, hb'⟩ := h2 w hw'
      exact ⟨b, hb, by rw [← hwv, hb']⟩
    · intro v hv hf
      rw [i2.keep v (Or.inl hf)]; exact h4 v hv hf
    · intro v hv
      rw [i2.keep v (Or.inr hv)]; exact h5 v hv

theorem candidates_spec (hw : c.H.WF) (hd : ∀ S, 0 ≤ c.dist S) (he : ∀ e ∈ c.H.edges, 0 ≤ c.H.ew e) (hk : c.H.nodes.length = c.k) (hpk : PickOk c) (hF : FixOk c)
    (ls : Bool) (hS : ∀ v ∈ c.H.nodes, SeedOk c v) (order : List Nat) (ho : ∀ v ∈ order, v ∈ c.H.nodes) :
    ∃ (f : Nat → Assign) (N : Nat), ∀ v ∈ order, CandOk c (f v) ∧ ∀ n ≥ N, candidate c ls n v = some (f v) := by
  have : ∀ v, ∃ Φ N, v ∈ c.H.nodes → (∀ n ≥ N, candidate c ls n v = some Φ) ∧ CandOk c Φ := by
    intro v
    by_cases hv : v ∈ c.H.nodes
    · obtain ⟨Φ, N, h⟩ := candidate_spec hw hd he hk hpk hF ls hv (hS v hv)
      exact ⟨Φ, N, fun _ => h⟩
    · exact ⟨fun _ => none, 0, fun h => absurd h hv⟩
  choose f Nf hf using this
  refine ⟨f, (order.map Nf).sum, fun v hv => ⟨(hf v (ho v hv)).2, fun n hn => (hf v (ho v hv)).1 n ?_⟩⟩
  refine le_trans ?_ hn
  exact List.le_sum_of_mem (List.mem_map_of_mem hv)

theorem search_eq {imb : Assign → α} {eps : α} {ls : Bool} {fuel : Nat} {f : Nat → Assign} : ∀ {order : List Nat} (b : Best α), (∀ v ∈ order, candidate c ls fuel v = some (f v)) →
    order.foldl (searchStep c imb eps ls fuel) (some b) = some (order.foldl (fun b v => commit c.toCfg imb eps b v (f v)) b)
  | [], _, _ => rfl
  | a :: l, b, h => by
    rw [List.foldl_cons, List.foldl_cons]
    have : searchStep c imb eps ls fuel (some b) a = some (commit c.toCfg imb eps b a (f a)) := by
      unfold searchStep
      rw [h a List.mem_cons_self]
    rw [this]
    exact search_eq _ (fun v hv => h v (List.mem_cons_of_mem _ hv))

/-! ### the best mapping -/

/-- the entry for a seed node -/
def entry (c : Cfg) (imb : Assign → α) (f : Nat → Assign) (v : Nat) : Best α := { obj := c.H.steiner c.dist (f v), imb := imb (f v), hn := some v, map := f v }

theorem best_mem (cc : Cfg) {imb : Assign → α} {eps : α} {f : Nat → Assign} : ∀ (order : List Nat) (b : Best α),
    order.foldl (fun b v => commit cc imb eps b v (f v)) b = b ∨ ∃ v ∈ order, order.foldl (fun b v => commit cc imb eps b v (f v)) b = entry cc imb f v
  | [], b => Or.inl rfl
  | a :: l, b => by
    rw [List.foldl_cons]
    rcases best_mem cc (imb := imb) (eps := eps) (f := f) l (commit cc imb eps b a (f a)) with h | ⟨v, hv, h⟩
    · rw [h]
      unfold commit
      by_cases ht : takes eps b (cc.H.steiner cc.dist (f a)) (imb (f a)) a = true
      · rw [if_pos ht]; exact Or.inr ⟨a, List.mem_cons_self, rfl⟩
      · rw [if_neg ht]; exact Or.inl rfl
    · exact Or.inr ⟨v, List.mem_cons_of_mem _ hv, h⟩

/-- nothing is better if all mappings have the same infeasible imbalance -/
theorem best_stuck (cc : Cfg) {imb : Assign → α} {eps : α} {f : Nat → Assign} : ∀ (order : List Nat), (∀ v ∈ order, imb (f v) = imb (identity cc)) → eps < imb (identity cc) →
    order.foldl (fun b v => commit cc imb eps b v (f v)) (bestInit cc imb) = bestInit cc imb
  | [], _, _ => rfl
  | a :: l, h, he => by
    rw [List.foldl_cons]
    have : commit cc imb eps (bestInit cc imb) a (f a) = bestInit cc imb := by
      unfold commit
      rw [if_neg]
      unfold takes bestInit
      rw [h a List.mem_cons_self]
      simp [not_le.mpr he]
    rw [this]
    exact best_stuck cc l (fun v hv => h v (List.mem_cons_of_mem _ hv)) he

/-- objective, imbalance, larger id -/
def key (b : Best α) : Int ×ₗ (α ×ₗ (WithTop Nat)ᵒᵈ) :=
  toLex (b.obj, toLex (b.imb, OrderDual.toDual (match b.hn with
    | none => (⊤ : WithTop Nat)
    | some h => (h : WithTop Nat))))

theorem takes_iff (cc : Cfg) {imb : Assign → α} {eps : α} {f : Nat → Assign} {b : Best α} (hb : b.imb ≤ eps) (v : Nat) :
    takes eps b (cc.H.steiner cc.dist (f v)) (imb (f v)) v = true ↔ imb (f v) ≤ eps ∧ key (entry cc imb f v) < key b := by
  have hk : key (entry cc imb f v) < key b ↔ cc.H.steiner cc.dist (f v) < b.obj ∨ (cc.H.steiner cc.dist (f v) = b.obj ∧
      (imb (f v) < b.imb ∨ (imb (f v) = b.imb ∧ ∃ h, b.hn = some h ∧ h < v))) := by
    unfold key entry
    rw [Prod.Lex.toLex_lt_toLex, Prod.Lex.toLex_lt_toLex, OrderDual.toDual_lt_toDual]
    cases hh : b.hn with
    | none => simp
    | some h => simp
  rw [hk]
  unfold takes
  have hm : (match b.hn with
      | none => false
      | some h => decide (h < v)) = true ↔ ∃ h, b.hn = some h ∧ h < v := by
    cases b.hn <;> simp
  simp only [Bool.or_eq_true, Bool.and_eq_true, decide_eq_true_eq, Bool.not_eq_true', decide_eq_false_iff_not, not_le]
  have hnb : ¬ eps < b.imb := not_lt.mpr hb
  constructor
  · rintro ((((⟨h1, h2 | h2⟩ | ⟨h1, h2⟩) | ⟨-, h2⟩) | ⟨-, h2⟩) | ⟨⟨h1, h2⟩, h3⟩)
    · exact ⟨h2, Or.inl h1⟩
    · exact ⟨le_trans (le_of_lt h2) hb, Or.inl h1⟩
    · exact ⟨le_trans (le_of_lt h2) hb, Or.inr ⟨h1, Or.inl h2⟩⟩
    · exact absurd h2 hnb
    · exact absurd h2 hnb
    · exact ⟨h2 ▸ hb, Or.inr ⟨h1, Or.inr ⟨h2, hm.mp h3⟩⟩⟩
  · rintro ⟨h0, h1 | ⟨h1, h2 | ⟨h2, h3⟩⟩⟩
    · exact Or.inl (Or.inl (Or.inl (Or.inl ⟨h1, Or.inl h0⟩)))
    · exact Or.inl (Or.inl (Or.inl (Or.inr ⟨h1, h2⟩)))
    · exact Or.inr ⟨⟨h1, h2⟩, hm.mpr h3⟩

theorem best_min (cc : Cfg) {imb : Assign → α} {eps : α} {f : Nat → Assign} : ∀ (order : List Nat) (b : Best α), b.imb ≤ eps →
    key (order.foldl (fun b v => commit cc imb eps b v (f v)) b) ≤ key b ∧ (order.foldl (fun b v => commit cc imb eps b v (f v)) b).imb ≤ eps ∧
    ∀ v ∈ order, imb (f v) ≤ eps → key (order.foldl (fun b v => commit cc imb eps b v (f v)) b) ≤ key (entry cc imb f v)
  | [], b, hb => ⟨le_refl _, hb, by simp⟩
  | a :: l, b, hb => by
    rw [List.foldl_cons]
    by_cases ht : takes eps b (cc.H.steiner cc.dist (f a)) (imb (f a)) a = true
    · have e1 : commit cc imb eps b a (f a) = entry cc imb f a := by unfold commit; rw [if_pos ht]; rfl
      rw [e1]
      obtain ⟨t1, t2⟩ := (takes_iff cc hb a).mp ht
      obtain ⟨i1, i2, i3⟩ := best_min cc (imb := imb) (eps := eps) (f := f) l (entry cc imb f a) t1
      refine ⟨le_trans i1 (le_of_lt t2), i2, fun v hv hvf => ?_⟩
      rcases List.mem_cons.mp hv with rfl | hv
      · exact i1
      · exact i3 v hv hvf
    · have e1 : commit cc imb eps b a (f a) = b := by unfold commit; rw [if_neg ht]
      rw [e1]
      obtain ⟨i1, i2, i3⟩ := best_min cc (imb := imb) (eps := eps) (f := f) l b hb
      refine ⟨i1, i2, fun v hv hvf => ?_⟩
      rcases List.mem_cons.mp hv with rfl | hv
      · refine le_trans i1 ?_
        by_contra hh
        exact ht ((takes_iff cc hb v).mpr ⟨hvf, not_le.mp hh⟩)
      · exact i3 v hv hvf

theorem key_hn {a b : Best α} (h : key a = key b) : a.obj = b.obj ∧ a.imb = b.imb ∧ a.hn = b.hn := by
  unfold key at h
  have h := toLex.injective h
  rw [Prod.mk.injEq] at h
  have h' := toLex.injective h.2
  rw [Prod.mk.injEq] at h'
  refine ⟨h.1, h'.1, ?_⟩
  have h3 := OrderDual.toDual.injective h'.2
  cases ha : a.hn <;> cases hb : b.hn <;> rw [ha, hb] at h3 <;> simp at h3 ⊢
  exact h3

theorem best_order (cc : Cfg) {imb : Assign → α} {eps : α} {f : Nat → Assign} {o₁ o₂ : List Nat} (h : o₁.Perm o₂) (hb : imb (identity cc) ≤ eps) :
    o₁.foldl (fun b v => commit cc imb eps b v (f v)) (bestInit cc imb) = o₂.foldl (fun b v => commit cc imb eps b v (f v)) (bestInit cc imb) := by
  obtain ⟨a1, a2, a3⟩ := best_min cc (imb := imb) (eps := eps) (f := f) o₁ (bestInit cc imb) hb
  obtain ⟨b1, b2, b3⟩ := best_min cc (imb := imb) (eps := eps) (f := f) o₂ (bestInit cc imb) hb
  have am := best_mem cc (imb := imb) (eps := eps) (f := f) o₁ (bestInit cc imb)
  have bm := best_mem cc (imb := imb) (eps := eps) (f := f) o₂ (bestInit cc imb)
  generalize o₁.foldl (fun b v => commit cc imb eps b v (f v)) (bestInit cc imb) = r₁ at *
  generalize o₂.foldl (fun b v => commit cc imb eps b v (f v)) (bestInit cc imb) = r₂ at *
  have le12 : key r₁ ≤ key r₂ := by
    rcases bm with e | ⟨v, hv, e⟩
    · rw [e]; exact a1
    · rw [e]; exact a3 v (h.symm.subset hv) (by rw [e] at b2; exact b2)
  have le21 : key r₂ ≤ key r₁ := by
    rcases am with e | ⟨v, hv, e⟩
    · rw [e]; exact b1
    · rw [e]; exact b3 v (h.subset hv) (by rw [e] at a2; exact a2)
  have hh := (key_hn (le_antisymm le12 le21)).2.2
  rcases am with e | ⟨v, hv, e⟩ <;> rcases bm with e' | ⟨w, hw, e'⟩ <;> rw [e, e'] at hh ⊢
  · cases hh
  · cases hh
  · have : v = w := by injection hh
    rw [this]

/-! ### contraction of the blocks -/

theorem psum_blocks {x : Nat → Nat} {k : Nat} (h1 : ∀ i < k, x i = 1) (h0 : ∀ i, k ≤ i → x i = 0) : ∀ i, psum x i = min i k
  | 0 => by simp [psum]
  | i + 1 => by
    rw [psum_succ, psum_blocks h1 h0 i]
    by_cases h : i < k
    · rw [h1 i h]; omega
    · rw [h0 i (by omega)]; omega

/-- the coarse node of a node is its block -/
theorem coarse_block {H : SHG} {part : Nat → Nat} {s : CSched} {buf : CBuf} {k : Nat} (hkn : k ≤ H.n) (hpk : ∀ v ∈ H.nodes, part v < k)
    (hne : ∀ b < k, ∃ v ∈ H.nodes, part v = b) (hs : Schedules H part s) :
    (∀ v ∈ H.nodes, (contract H part s buf).2 v = part v) ∧ (contract H part s buf).1.n = k := by
  have hm : s.mark.Perm H.nodes := hs.mark
  have h1 : ∀ i < k, mapping part s.mark i = 1 := by
    intro i hi
    rw [mapping_spec]
    obtain ⟨v, hv, hvi⟩ := hne i hi
    rw [if_pos ⟨v, hm.symm.subset hv, hvi⟩]
  have h0 : ∀ i, k ≤ i → mapping part s.mark i = 0 := by
    intro i hi
    rw [mapping_spec, if_neg]
    rintro ⟨v, hv, hvi⟩
    have := hpk v (hm.subset hv)
    omega
  constructor
  · intro v hv
    have hv' : H.hnEnabled v = true := (mem_nodes.mp hv).2
    show (if H.hnEnabled v then psum (mapping part s.mark) (part v) else kInvalid) = part v
    rw [if_pos hv', psum_blocks h1 h0]
    have := hpk v hv
    omega
  · show psum (mapping part s.mark) H.n = k
    rw [psum_blocks h1 h0]; omega

theorem steiner_project {H H' : SHG} {com cid rep : Nat → Nat} (hR : H.Rep) (h : ContractResult H com H' cid rep)
    (hpn : ∀ e ∈ H.edges, ∀ v ∈ H.pins e, v ∈ H.nodes) {dist : Finset Nat → Int} (hd : ∀ S, S.card ≤ 1 → dist S = 0) (Φ : Assign) :
    H'.toHG.steiner dist Φ = H.toHG.steiner dist (fun v => Φ (cid v)) := by
  have hb : ∀ e ∈ H.edges, H.toHG.blocksOf (fun v => Φ (cid v)) e = ((cpins H cid e).filterMap Φ).toFinset := by
    intro e he
    ext b
    simp only [HG.blocksOf, List.mem_toFinset, List.mem_filterMap]
    constructor
    · rintro ⟨v, hv, hb⟩
      exact ⟨cid v, (mem_cpins hR h.coarse he).2 ⟨v, hv, hpn e he v hv, rfl⟩, hb⟩
    · rintro ⟨c, hc, hb⟩
      obtain ⟨v, hv, _, rfl⟩ := (mem_cpins hR h.coarse he).1 hc
      exact ⟨v, hv, hb⟩
  have := objective_eq h (fun l => dist ((l.filterMap Φ).toFinset)) (fun e _ hle => hd _ (by
    have := lamOf_le Φ (cpins H cid e)
    unfold lamOf at this
    omega))
  unfold HG.steiner
  refine Eq.trans ?_ (this.symm.trans ?_)
  · rfl
  · congr 1
    apply List.map_congr_left
    intro e he
    rw [hb e he]; rfl

theorem coarse_ew {H H' : SHG} {com cid rep : Nat → Nat} (h : ContractResult H com H' cid rep) (he : ∀ e ∈ H.edges, 0 ≤ H.heWeight e) :
    ∀ e ∈ H'.toHG.edges, 0 ≤ H'.toHG.ew e := by
  intro e hm
  have hm : e ∈ H'.edges := hm
  rw [h.edges] at hm
  show 0 ≤ H'.heWeight e
  rw [h.ew e (List.mem_range.mp hm)]
  apply List.sum_nonneg
  intro x hx
  obtain ⟨y, hy, rfl⟩ := List.mem_map.mp hx
  obtain ⟨hy1, hy2⟩ := List.mem_filter.mp hy
  rw [Bool.and_eq_true] at hy2
  exact he y (mem_edges.mpr ⟨List.mem_range.mp hy1, (cand_iff.mp hy2.1).1⟩)

end OneMap
end Verif
