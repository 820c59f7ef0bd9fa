import Verif.Lemmas.Dyn18
import Mathlib.Algebra.BigOperators.Ring.Finset
/-!
# Objective functions are preserved by contractions
-/
namespace Verif
namespace Dyn
open SMap (wr)

variable {s0 : DH} {mx : Int} {s s' : St} {G : Gh}

/-- `ρ` does not distinguish a contracted node from the node it was contracted onto -/
def Const (s0 : DH) (s : St) (ρ : Nat → Nat) : Prop := ∀ v, s0.live v → s.h.en v = false → ρ (s.h.par v) = ρ v

theorem netSum_congr {h h' : DH} {ρ : Nat → Nat} {f : Finset Nat → Int} (h1 : h'.m = h.m) (h2 : h'.een = h.een) (h3 : h'.ew = h.ew)
    (h4 : ∀ e < h.m, h.een e = true → ((h'.edgePins e).map ρ).toFinset = ((h.edgePins e).map ρ).toFinset) : netSum h' ρ f = netSum h ρ f := by
  unfold netSum
  rw [h1, h2, h3]
  refine Finset.sum_congr rfl ?_
  intro e he
  rw [Finset.mem_filter, Finset.mem_range] at he
  rw [h4 e he.1 he.2]

theorem netSum_edge {h : DH} {ρ : Nat → Nat} {f : Finset Nat → Int} {u v e k : Nat} {l' : List Nat} {b : Bool} (huv : u ≠ v)
    (hle : h.size e ≤ (h.pins e).length) (hnd : (h.edgePins e).Nodup) (hv : v ∈ h.edgePins e)
    (hc : contractHE u v (h.pins e) (h.size e) = some (l', k, b)) (hρ : ρ u = ρ v) : netSum (h.setEdge e l' k) ρ f = netSum h ρ f := by
  refine netSum_congr rfl rfl rfl ?_
  intro e' _ _
  by_cases he : e' = e
  · subst he
    have hp : (h.setEdge e' l' k).edgePins e' = l'.take k := by
      unfold DH.edgePins DH.setEdge
      show (wr h.pins e' l' e').take (wr h.size e' k e') = _
      rw [wr_same, wr_same]
    rw [hp]
    obtain ⟨l2, k2, b2, h1, _, hb, ht, hf⟩ := contractHE_spec huv hle hnd hv
    rw [hc] at h1
    injection h1 with h1
    injection h1 with h1 h2
    injection h2 with h2 h3
    subst h1 h2 h3
    ext y
    rw [List.mem_toFinset, List.mem_toFinset, List.mem_map, List.mem_map]
    cases hbb : b with
    | true =>
      obtain ⟨_, h2, _⟩ := ht hbb
      have hu := hb.1 hbb
      constructor
      · rintro ⟨x, hx, rfl⟩; exact ⟨x, ((h2 x).1 hx).1, rfl⟩
      · rintro ⟨x, hx, rfl⟩
        by_cases hxv : x = v
        · subst hxv; exact ⟨u, (h2 u).2 ⟨hu, huv⟩, hρ⟩
        · exact ⟨x, (h2 x).2 ⟨hx, hxv⟩, rfl⟩
    | false =>
      obtain ⟨_, h2, _⟩ := hf hbb
      constructor
      · rintro ⟨x, hx, rfl⟩
        rcases (h2 x).1 hx with h | h
        · subst h; exact ⟨v, hv, hρ.symm⟩
        · exact ⟨x, h.1, rfl⟩
      · rintro ⟨x, hx, rfl⟩
        by_cases hxv : x = v
        · subst hxv; exact ⟨u, (h2 u).2 (Or.inl rfl), hρ⟩
        · exact ⟨x, (h2 x).2 (Or.inr ⟨hx, hxv⟩), rfl⟩
  · have hp : (h.setEdge e l' k).edgePins e' = h.edgePins e' := by
      unfold DH.edgePins DH.setEdge
      show (wr h.pins e l' e').take (wr h.size e k e') = _
      rw [wr_other _ _ he, wr_other _ _ he]
    rw [hp]

/-- the pin that is contracted is a pin of the net -/
theorem Inv.edge_pin (hc : Clean s0) (hI : Inv s0 mx s G) {u v e : Nat} (hr : RunOK s.h G u v) (hm : G.mg v = false)
    {sh : Nat → Bool} {todo : List Nat} (htodo : TodoOK s.h G v sh todo) (he : e ∈ todo) :
    s.h.size e ≤ (s.h.pins e).length ∧ (s.h.edgePins e).Nodup ∧ v ∈ s.h.edgePins e := by
  obtain ⟨n1, n2, n3⟩ := Inv.nets_run hc hI hr hm
  obtain ⟨hin, hrem⟩ := (n2 e).1 (htodo.sub e he)
  have hlogv : ¬ (G.one v e = true ∨ G.two v e = true) := by
    rw [htodo.log e]; rintro ⟨_, h⟩; exact h he
  have hused : s0.used e := by
    rcases hin with h | ⟨w, _, _, h⟩
    · exact h.1
    · exact (hI.e.logU w e (Or.inr h)).1
  have hp := hI.e.pins e hused
  refine ⟨hp.le, hp.tnd, (hp.tmem v).2 ⟨hin, ?_, ?_⟩⟩
  · rw [bool_false_iff]; exact fun h => hlogv (Or.inl h)
  · rw [bool_false_iff]; exact fun h => hlogv (Or.inr h)

theorem Const.tstep (hI : Inv s0 mx s G) {i : Nat} (h : TStep mx i s s') {ρ : Nat → Nat} (hρ : Const s0 s' ρ) : Const s0 s ρ := by
  have same : s'.h.par = s.h.par → s'.h.en = s.h.en → Const s0 s ρ := by
    intro h1 h2 v hv he
    have := hρ v hv (by rw [h2]; exact he)
    rwa [h1] at this
  have upd : ∀ (v u : Nat), s.h.en v = true → s'.h.en = s.h.en → s'.h.par = wr s.h.par v u → Const s0 s ρ := by
    intro v u ev h1 h2 x hx he
    have := hρ x hx (by rw [h1]; exact he)
    rwa [h2, wr_other _ _ (by rintro rfl; rw [ev] at he; cases he)] at this
  cases h with
  | register w v hi hw hv hwv ew ev hp hr => exact upd v w ev rfl rfl
  | tooHeavy u v hi ev hp hw => exact upd v v ev rfl rfl
  | refused u v hi ev hp h0 hw => exact upd v v ev rfl rfl
  | start u v hi ev hp hw hf =>
    intro x hx he
    refine hρ x hx ?_
    show wr s.h.en v false x = false
    rcases wr_cases s.h.en v false x with ⟨_, h⟩ | ⟨_, h⟩
    · exact h
    · rw [h]; exact he
  | lookEnd => exact same rfl rfl
  | lookGo => exact same rfl rfl
  | pending => exact same rfl rfl
  | load => exact same rfl rfl
  | edge => exact same rfl rfl
  | defer => exact same rfl rfl
  | iterEnd => exact same rfl rfl
  | lateEdge => exact same rfl rfl
  | merge => exact same rfl rfl
  | tick => exact same rfl rfl
  | unreg => exact same rfl rfl

theorem netSum_tstep (hc : Clean s0) (hI : Inv s0 mx s G) {i : Nat} (h : TStep mx i s s') {ρ : Nat → Nat} (hρ : Const s0 s ρ) (f : Finset Nat → Int) :
    netSum s'.h ρ f = netSum s.h ρ f := by
  cases h with
  | edge u v st j sh failed l e l' k b hi hl he hcon =>
    have hok := hI.thr i
    rw [hi] at hok
    obtain ⟨hr, hm, ht, hst, htodo⟩ := hok
    obtain ⟨n1, n2, n3⟩ := Inv.nets_run hc hI hr hm
    rw [n3] at hl
    injection hl with hl
    subst hl
    have hmem : e ∈ failed ++ (G.nets s.h.ina v).drop j := by
      obtain ⟨hj, he⟩ := List.getElem?_eq_some_iff.1 he
      rw [List.drop_eq_getElem_cons hj, he]; simp
    obtain ⟨a1, a2, a3⟩ := Inv.edge_pin hc hI hr hm htodo hmem
    refine netSum_edge hr.ne a1 a2 a3 hcon ?_
    have := hρ v (hI.runs hr).1 hr.en
    rwa [hr.par] at this
  | lateEdge u v st sh e failed l' k b hi hcon =>
    have hok := hI.thr i
    rw [hi] at hok
    obtain ⟨hr, hm, ht, hst, htodo⟩ := hok
    obtain ⟨a1, a2, a3⟩ := Inv.edge_pin hc hI hr hm htodo (List.mem_cons_self)
    refine netSum_edge hr.ne a1 a2 a3 hcon ?_
    have := hρ v (hI.runs hr).1 hr.en
    rwa [hr.par] at this
  | register => rfl
  | tooHeavy => rfl
  | refused => rfl
  | start => rfl
  | lookEnd => rfl
  | lookGo => rfl
  | pending => rfl
  | load => rfl
  | defer => rfl
  | iterEnd => rfl
  | merge => rfl
  | tick => rfl
  | unreg => rfl

/-- what a removed net contributes through its representative -/
def viaRep (ew : Nat → Int) (g : Nat → Int) : Nat × Option Nat → Int
  | (_, none) => 0
  | (e, some r) => ew e * g r

theorem added_sum (ew : Nat → Int) (g : Nat → Int) (S : Finset Nat) (R : RemovedNets) (hR : ∀ e r, (e, some r) ∈ R → r ∈ S) :
    ∑ r ∈ S, addedWeight ew R r * g r = (R.map (viaRep ew g)).sum := by
  induction R with
  | nil =>
    refine (Finset.sum_eq_zero ?_)
    intro r _
    show (0 : Int) * _ = 0
    rw [Int.zero_mul]
  | cons p R ih =>
    have ih' := ih (fun e r h => hR e r (List.mem_cons_of_mem _ h))
    obtain ⟨e, o⟩ := p
    rw [List.map_cons, List.sum_cons, ← ih']
    cases o with
    | none =>
      show _ = 0 + _
      rw [Int.zero_add]
      refine Finset.sum_congr rfl ?_
      intro r _
      have : addedWeight ew ((e, none) :: R) r = addedWeight ew R r := by
        unfold addedWeight
        rw [List.filter_cons_of_neg (by simp)]
      rw [this]
    | some q =>
      have hq := hR e q (by simp)
      have hadd : ∀ r, addedWeight ew ((e, some q) :: R) r = (if r = q then ew e else 0) + addedWeight ew R r := by
        intro r
        unfold addedWeight
        by_cases hr : r = q
        · subst hr
          rw [List.filter_cons_of_pos (by simp), if_pos rfl, List.map_cons, List.sum_cons]
        · rw [List.filter_cons_of_neg (by simp; exact fun h => hr h.symm), if_neg hr, Int.zero_add]
      have : ∀ r ∈ S, addedWeight ew ((e, some q) :: R) r * g r = (if r = q then ew e * g r else 0) + addedWeight ew R r * g r := by
        intro r _
        rw [hadd, Int.add_mul]
        congr 1
        split
        · rfl
        · exact Int.zero_mul _
      rw [Finset.sum_congr rfl this, Finset.sum_add_distrib]
      congr 1
      rw [Finset.sum_ite_eq' S q (fun r => ew e * g r), if_pos hq]
      rfl

open Classical in
theorem netSum_remove (hc : Clean s0) (hI : Inv s0 mx s G) {R : RemovedNets} {ord : List Nat} {h' : DH} (hR : RemovalOK s.h R)
    (hs : s.h.removeNetsStep R ord = some h') (ρ : Nat → Nat) (f : Finset Nat → Int) (hf : ∀ S : Finset Nat, S.card ≤ 1 → f S = 0) :
    netSum h' ρ f = netSum s.h ρ f := by
  unfold DH.removeNetsStep at hs
  split at hs
  · cases hs
  rename_i a _
  injection hs with hs
  subst hs
  have hpin : ∀ e, s.h.een e = true → e < s.h.m → (((if decide (e < s.h.m) && s.h.een e && decide (1 < s.h.size e) then
      (s.h.edgePins e).mergeSort (fun a b => decide (a ≤ b)) ++ (s.h.pins e).drop (s.h.size e) else s.h.pins e).take (s.h.size e)).map ρ).toFinset =
      ((s.h.edgePins e).map ρ).toFinset := by
    intro e he hm
    have hu : s0.used e := ⟨by rw [← hI.t.mEq]; exact hm, ((hI.n.enabled e).1 he).1⟩
    split
    · have hlen : ((s.h.edgePins e).mergeSort (fun a b => decide (a ≤ b))).length = s.h.size e := by
        rw [List.length_mergeSort]
        unfold DH.edgePins
        rw [List.length_take]; have := (hI.e.pins e hu).le; omega
      rw [List.take_left' hlen]
      exact List.toFinset_eq_of_perm _ _ ((List.mergeSort_perm _ _).map ρ)
    · rfl
  set g : Nat → Int := fun e => f ((s.h.edgePins e).map ρ).toFinset with hg
  have e1 : netSum s.h ρ f = ∑ e ∈ (Finset.range s.h.m).filter (fun e => s.h.een e = true), s.h.ew e * g e := by
    unfold netSum
    rfl
  set S : Finset Nat := (Finset.range s.h.m).filter (fun e => (s.h.een e && !(R.map Prod.fst).contains e) = true) with hS
  have e2 : netSum { s.h with
      een := fun e => s.h.een e && !(R.map Prod.fst).contains e
      ew := fun e => s.h.ew e + addedWeight s.h.ew R e
      pins := fun e => if decide (e < s.h.m) && s.h.een e && decide (1 < s.h.size e) then (s.h.edgePins e).mergeSort (fun a b => decide (a ≤ b)) ++ (s.h.pins e).drop (s.h.size e) else s.h.pins e
      ina := a
      V := s.h.V + 1
      removed := R :: s.h.removed } ρ f = ∑ e ∈ S, (s.h.ew e + addedWeight s.h.ew R e) * g e := by
    unfold netSum
    refine Finset.sum_congr (by ext e; simp [hS]) ?_
    intro e he
    rw [Finset.mem_filter, Finset.mem_range] at he
    have he1 : s.h.een e = true := (Bool.and_eq_true _ _ ▸ he.2).1
    have := hpin e he1 he.1
    congr 1
    rw [hg]
    exact congrArg f this
  rw [e1, e2]
  have hE : (Finset.range s.h.m).filter (fun e => s.h.een e = true) = S ∪ (R.map Prod.fst).toFinset := by
    ext e
    rw [Finset.mem_union, hS, Finset.mem_filter, Finset.mem_filter, Finset.mem_range, List.mem_toFinset]
    constructor
    · rintro ⟨h1, h2⟩
      by_cases h : e ∈ R.map Prod.fst
      · exact Or.inr h
      · left
        refine ⟨h1, ?_⟩
        rw [h2]
        have : (R.map Prod.fst).contains e = false := by
          rw [bool_false_iff, List.contains_iff_mem]; exact h
        rw [this]; rfl
    · rintro (⟨h1, h2⟩ | h)
      · exact ⟨h1, (Bool.and_eq_true _ _ ▸ h2).1⟩
      · obtain ⟨p, hp, rfl⟩ := List.mem_map.1 h
        exact hR.enabled p hp
  have hdis : Disjoint S (R.map Prod.fst).toFinset := by
    rw [Finset.disjoint_left]
    intro e he h
    rw [hS, Finset.mem_filter] at he
    rw [List.mem_toFinset, ← List.contains_iff_mem] at h
    rw [h] at he
    simp at he
  rw [hE, Finset.sum_union hdis]
  have e3 : ∑ e ∈ S, (s.h.ew e + addedWeight s.h.ew R e) * g e = ∑ e ∈ S, s.h.ew e * g e + ∑ e ∈ S, addedWeight s.h.ew R e * g e := by
    rw [← Finset.sum_add_distrib]
    refine Finset.sum_congr rfl ?_
    intro e _
    rw [Int.add_mul]
  rw [e3]
  congr 1
  rw [added_sum s.h.ew g S R, List.sum_toFinset _ hR.nodup, List.map_map]
  · congr 1
    refine List.map_congr_left ?_
    rintro ⟨e, o⟩ hp
    show viaRep s.h.ew g (e, o) = s.h.ew e * g e
    cases o with
    | none =>
      show 0 = _
      have := ((hR.single e).1 hp).2.2
      have hz : g e = 0 := by
        refine hf _ ?_
        refine Nat.le_trans (List.toFinset_card_le _) ?_
        rw [List.length_map]
        unfold DH.edgePins
        rw [List.length_take]
        omega
      rw [hz, Int.mul_zero]
    | some r =>
      show s.h.ew e * g r = s.h.ew e * g e
      have hpm := (hR.parallel e r hp).2.2.2
      have : g e = g r := congrArg f (List.toFinset_eq_of_perm _ _ (hpm.map ρ))
      rw [this]
  · intro e r hp
    obtain ⟨h1, h2, h3, _⟩ := hR.parallel e r hp
    rw [hS, Finset.mem_filter, Finset.mem_range]
    refine ⟨h1, ?_⟩
    rw [h2]
    have : (R.map Prod.fst).contains r = false := by
      rw [bool_false_iff, List.contains_iff_mem]; exact h3
    rw [this]; rfl

theorem netSum_steps (hc : Clean s0) {ref : Nat → Nat → Bool} (h : Steps mx ⟨s0, fun _ => .idle, ref⟩ s') (ρ : Nat → Nat) (hρ : Const s0 s' ρ) (f : Finset Nat → Int)
    (hf : ∀ S : Finset Nat, S.card ≤ 1 → f S = 0) : netSum s'.h ρ f = netSum s0 ρ f := by
  generalize hs1 : (⟨s0, fun _ => .idle, ref⟩ : St) = s1 at h
  induction h with
  | refl => subst hs1; rfl
  | tail s2 s3 h h' ih =>
    subst hs1
    obtain ⟨G, hI⟩ := Inv.reach hc h
    cases h' with
    | thread i _ _ h' =>
      rw [netSum_tstep hc hI h' (Const.tstep hI h' hρ)]
      exact ih (Const.tstep hI h' hρ)
    | remove _ R ord h' hi ha hR ho hs =>
      rw [netSum_remove hc hI hR hs ρ f hf]
      refine ih ?_
      unfold DH.removeNetsStep at hs
      split at hs
      · cases hs
      injection hs with hs
      subst hs
      exact hρ

end Dyn
end Verif
