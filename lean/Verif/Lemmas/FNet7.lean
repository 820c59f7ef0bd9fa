import Verif.Lemmas.FNet6
/-! The deterministic parallel construction builds the same network for every schedule, part 2; the other parallel construction. -/
namespace Verif
namespace FNet
open DFlow (set set_same set_other set_apply)

variable {c : NCfg} {r : Region}

/-- capacity of the nets with pins `q` -/
def capOf (M : Nets) (q : List Nat) : Int := (M.map (fun p => if p.2 = q then p.1 else 0)).sum

def optCap (q : List Nat) : Option (Int × List Nat) → Int
  | none => 0
  | some p => if p.2 = q then p.1 else 0

theorem capOf_mergeInto (M : Nets) (x : Int × List Nat) (q : List Nat) : capOf (mergeInto M x) q = capOf M q + optCap q (some x) := by
  induction M with
  | nil => simp [mergeInto, capOf, optCap]
  | cons p l ih =>
    by_cases h : p.2 = x.2
    · rw [show mergeInto (p :: l) x = (p.1 + x.1, p.2) :: l from if_pos h]
      simp only [capOf, optCap, List.map_cons, List.sum_cons, ← h]
      by_cases hc : p.2 = q
      · simp only [if_pos hc]; omega
      · simp only [if_neg hc]; omega
    · rw [show mergeInto (p :: l) x = p :: mergeInto l x from if_neg h]
      simp only [capOf, List.map_cons, List.sum_cons] at ih ⊢
      omega

theorem capOf_fold (l : List Entry) (q : List Nat) : ∀ M : Nets, capOf (l.foldl (fun M x => mergeOpt M x.net) M) q = capOf M q + (l.map (fun x => optCap q x.net)).sum := by
  induction l with
  | nil => intro M; simp
  | cons x l ih =>
    intro M
    rw [List.foldl_cons, ih, List.map_cons, List.sum_cons]
    have : capOf (mergeOpt M x.net) q = capOf M q + optCap q x.net := by
      cases x.net with
      | none => simp [mergeOpt, optCap]
      | some y => exact capOf_mergeInto M y q
    omega

theorem fold_nodup (l : List Entry) : ∀ M : Nets, (M.map Prod.snd).Nodup → ((l.foldl (fun M x => mergeOpt M x.net) M).map Prod.snd).Nodup := by
  induction l with
  | nil => intro M h; exact h
  | cons x l ih => intro M h; exact ih _ (mergeOpt_nodup h)

theorem capOf_mem {M : Nets} (hn : (M.map Prod.snd).Nodup) {p : Int × List Nat} (hp : p ∈ M) : capOf M p.2 = p.1 := by
  induction M with
  | nil => cases hp
  | cons a l ih =>
    rw [List.map_cons, List.nodup_cons] at hn
    simp only [capOf, List.map_cons, List.sum_cons]
    rcases List.mem_cons.1 hp with rfl | hp
    · rw [if_pos rfl]
      have : (l.map (fun a => if a.2 = p.2 then a.1 else 0)).sum = 0 := by
        apply List.sum_eq_zero
        intro z hz
        obtain ⟨y, hy, rfl⟩ := List.mem_map.1 hz
        rw [if_neg (fun hh => hn.1 (List.mem_map.2 ⟨y, hy, hh⟩))]
      omega
    · rw [if_neg (fun hh => hn.1 (List.mem_map.2 ⟨p, hp, hh.symm⟩))]
      have := ih hn.2 hp
      unfold capOf at this
      omega

/-- total capacity of the entries with pins `q` -/
def entCap (l : List Entry) (q : List Nat) : Int := (l.map (fun x => optCap q x.net)).sum

theorem mergeAll_cap (l : List Entry) : ∀ p ∈ mergeAll l, p.1 = entCap l p.2 := by
  intro p hp
  have h := capOf_mem (fold_nodup l [] (by simp)) hp
  have h2 := capOf_fold l p.2 []
  unfold entCap
  simp only [capOf, List.map_nil, List.sum_nil, Int.zero_add] at h2 h
  unfold mergeAll at *
  rw [← h, ← h2]

theorem nets_ext {f : List Nat → Int} {M M' : Nets} (h : M.map Prod.snd = M'.map Prod.snd) (h1 : ∀ p ∈ M, p.1 = f p.2) (h2 : ∀ p ∈ M', p.1 = f p.2) : M = M' := by
  have key : ∀ N : Nets, (∀ p ∈ N, p.1 = f p.2) → N = (N.map Prod.snd).map (fun q => (f q, q)) := by
    intro N hN
    rw [List.map_map]
    conv_lhs => rw [← List.map_id N]
    apply List.map_congr_left
    intro p hp
    show p = (f p.2, p.2)
    rw [← hN p hp]
  rw [key M h1, key M' h2, h]

/-- the net of the entry with number `i` -/
def entAt (l : List Entry) (i : Nat) : Option (Int × List Nat) := (l[i]?).bind Entry.net

/-- the entry with number `i` is the first one with its pins -/
def firstAt (l : List Entry) (i : Nat) : Prop := ∀ j, j < i → ∀ q, entAt l j = some q → ∀ p, entAt l i = some p → q.2 ≠ p.2

open Classical in
noncomputable def firsts (l : List Entry) : List (List Nat) :=
  (List.range l.length).filterMap (fun i => if firstAt l i then (entAt l i).map Prod.snd else none)

theorem entAt_append {l : List Entry} {x : Entry} {i : Nat} (h : i < l.length) : entAt (l ++ [x]) i = entAt l i := by
  unfold entAt; rw [List.getElem?_append_left h]

theorem entAt_last {l : List Entry} {x : Entry} : entAt (l ++ [x]) l.length = x.net := by
  unfold entAt; rw [List.getElem?_append_right (Nat.le_refl _)]; simp

theorem mem_merged (l : List Entry) (q : List Nat) : q ∈ (mergeAll l).map Prod.snd ↔ ∃ j, j < l.length ∧ (entAt l j).map Prod.snd = some q := by
  induction l using List.reverseRecOn with
  | nil => simp [mergeAll]
  | append_singleton l x ih =>
    have hm : mergeAll (l ++ [x]) = mergeOpt (mergeAll l) x.net := by unfold mergeAll; rw [List.foldl_append]; rfl
    have hr : (∃ j, j < (l ++ [x]).length ∧ (entAt (l ++ [x]) j).map Prod.snd = some q) ↔
        (∃ j, j < l.length ∧ (entAt l j).map Prod.snd = some q) ∨ x.net.map Prod.snd = some q := by
      constructor
      · rintro ⟨j, hj, e⟩
        rw [List.length_append, List.length_singleton] at hj
        by_cases h : j < l.length
        · rw [entAt_append h] at e; exact Or.inl ⟨j, h, e⟩
        · have : j = l.length := by omega
          rw [this, entAt_last] at e; exact Or.inr e
      · rintro (⟨j, hj, e⟩ | e)
        · exact ⟨j, by simp; omega, by rw [entAt_append hj]; exact e⟩
        · exact ⟨l.length, by simp, by rw [entAt_last]; exact e⟩
    rw [hr, hm, ← ih]
    cases hx : x.net with
    | none => simp [mergeOpt]
    | some y =>
      simp only [mergeOpt, mergeInto_snd, Option.map_some, Option.some.injEq]
      by_cases h : y.2 ∈ (mergeAll l).map Prod.snd
      · rw [if_pos h]
        exact ⟨Or.inl, fun hh => hh.elim id (fun e => e ▸ h)⟩
      · rw [if_neg h, List.mem_append, List.mem_singleton]
        exact or_congr Iff.rfl eq_comm

open Classical in
theorem mergeAll_snd (l : List Entry) : (mergeAll l).map Prod.snd = firsts l := by
  induction l using List.reverseRecOn with
  | nil => simp [mergeAll, firsts]
  | append_singleton l x ih =>
    have hm : mergeAll (l ++ [x]) = mergeOpt (mergeAll l) x.net := by unfold mergeAll; rw [List.foldl_append]; rfl
    have hf : firsts (l ++ [x]) = firsts l ++ (if firstAt (l ++ [x]) l.length then (x.net.map Prod.snd).toList else []) := by
      unfold firsts
      rw [List.length_append, List.length_singleton, List.range_succ, List.filterMap_append]
      congr 1
      · apply List.filterMap_congr
        intro i hi
        rw [List.mem_range] at hi
        rw [entAt_append hi]
        have : firstAt (l ++ [x]) i ↔ firstAt l i := by
          unfold firstAt
          constructor
          · intro h j hj q hq p hp
            exact h j hj q (by rw [entAt_append (by omega)]; exact hq) p (by rw [entAt_append hi]; exact hp)
          · intro h j hj q hq p hp
            rw [entAt_append (by omega)] at hq
            rw [entAt_append hi] at hp
            exact h j hj q hq p hp
        by_cases hh : firstAt l i
        · rw [if_pos hh, if_pos (this.2 hh)]
        · rw [if_neg hh, if_neg (fun h => hh (this.1 h))]
      · simp only [List.filterMap_cons, List.filterMap_nil, entAt_last]
        by_cases h : firstAt (l ++ [x]) l.length
        · rw [if_pos h, if_pos h]
          cases x.net <;> rfl
        · rw [if_neg h, if_neg h]
    rw [hf, hm, ← ih]
    cases hx : x.net with
    | none => simp [mergeOpt]
    | some y =>
      simp only [mergeOpt, mergeInto_snd, Option.map_some, Option.toList_some]
      have hiff : firstAt (l ++ [x]) l.length ↔ y.2 ∉ (mergeAll l).map Prod.snd := by
        rw [mem_merged]
        unfold firstAt
        rw [entAt_last, hx]
        constructor
        · rintro h ⟨j, hj, e⟩
          obtain ⟨q, hq, e⟩ := Option.map_eq_some_iff.1 e
          exact h j hj q (by rw [entAt_append hj]; exact hq) y rfl e
        · intro h j hj q hq p hp e
          rw [entAt_append hj] at hq
          cases hp
          exact h ⟨j, hj, by rw [hq]; simp [e]⟩
      by_cases h : y.2 ∈ (mergeAll l).map Prod.snd
      · rw [if_pos h, if_neg (fun hh => hiff.1 hh h)]; simp
      · rw [if_neg h, if_pos (hiff.2 h)]

/-- **every schedule of the deterministic construction gives the merged network** -/
theorem constructDet_eq (c : NCfg) (ents : List Entry) {nm : Nat} (hnm : 0 < nm) {ins bks : List Nat}
    (hins : ins.Perm ((List.range ents.length).filter (fun i => (entAt ents i).isSome))) (hbks : bks.Perm (List.range nm)) :
    constructDet c ents nm ins bks = mergeAll ents := by
  obtain ⟨t0, ht0⟩ : ∃ t0 : Tmp, t0 = ⟨fun i => ((entAt ents i).map Prod.fst).getD 0, fun i => ((entAt ents i).map Prod.snd).getD [], fun i => (entAt ents i).isSome⟩ := ⟨_, rfl⟩
  obtain ⟨t, ht⟩ : ∃ t : Tmp, t = bks.foldl (fun t b => dedupLoop (((ins.map (fun i => (⟨i, hashOf c (t0.pins i), (t0.pins i).length⟩ : Hashed))).filter
    (fun x => decide (x.hash % nm = b))).insertionSort hashedLe) t) t0 := ⟨_, rfl⟩
  have hdef : constructDet c ents nm ins bks = (List.range ents.length).filterMap (fun i => if t.valid i then some (t.w i, t.pins i) else none) := by
    rw [ht, ht0]; rfl
  rw [hdef]
  have hlt : ∀ i, (entAt ents i).isSome = true → i < ents.length := by
    intro i hi
    unfold entAt at hi
    by_contra hh
    rw [List.getElem?_eq_none (by omega)] at hi
    cases hi
  have hmi : ∀ i, i ∈ ins ↔ (entAt ents i).isSome = true := by
    intro i
    rw [hins.mem_iff, List.mem_filter, List.mem_range]
    exact ⟨fun h => h.2, fun h => ⟨hlt i h, h⟩⟩
  have hnd : ins.Nodup := hins.nodup_iff.2 (List.nodup_range.filter _)
  have hall : ∀ x, x % nm ∈ bks := fun x => hbks.mem_iff.2 (List.mem_range.2 (Nat.mod_lt _ hnm))
  obtain ⟨h1, h2, h3, h4⟩ := dedupBuckets (hf := hashOf c) (t0 := t0) (nm := nm) hnd (fun i => by rw [hmi i, ht0]) _ rfl bks (hbks.nodup_iff.2 List.nodup_range)
  rw [← ht] at h1 h2 h3 h4
  have hpins : ∀ {i p}, entAt ents i = some p → t0.pins i = p.2 ∧ t0.w i = p.1 := by
    intro i p hp
    rw [ht0]; simp [hp]
  have hvalid : ∀ i, t.valid i = true ↔ (entAt ents i).isSome = true ∧ firstAt ents i := by
    intro i
    by_cases hi : i ∈ ins
    · rw [h3 i hi (hall _)]
      have hs := (hmi i).1 hi
      obtain ⟨p, hp⟩ := Option.isSome_iff_exists.1 hs
      constructor
      · intro h
        refine ⟨hs, ?_⟩
        intro j hj q hq p' hp' e
        have := h j ((hmi j).2 (by rw [hq]; rfl)) (by rw [(hpins hq).1, (hpins hp').1, e])
        omega
      · rintro ⟨_, h⟩ j hj e
        obtain ⟨q, hq⟩ := Option.isSome_iff_exists.1 ((hmi j).1 hj)
        by_contra hlt
        exact h j (by omega) q hq p hp (by rw [← (hpins hq).1, ← (hpins hp).1, e])
    · rw [(h2 i (Or.inl hi)).2]
      have : ¬ (entAt ents i).isSome = true := fun hh => hi ((hmi i).2 hh)
      have h0 : t0.valid i = (entAt ents i).isSome := by rw [ht0]
      rw [h0]
      tauto
  have hw : ∀ i, t.valid i = true → t.w i = entCap ents (t0.pins i) := by
    intro i hv
    have hi : i ∈ ins := by
      by_contra hi
      rw [(h2 i (Or.inl hi)).2] at hv
      rw [ht0] at hv
      exact hi ((hmi i).2 hv)
    rw [h4 i hi (hall _) hv]
    generalize t0.pins i = q
    unfold sameSum entCap
    rw [List.map_map]
    have e1 : ins.map ((fun y : Hashed => if t0.pins y.he = q then t0.w y.he else 0) ∘ fun i => ⟨i, hashOf c (t0.pins i), (t0.pins i).length⟩) =
        ins.map (fun j => optCap q (entAt ents j)) := by
      apply List.map_congr_left
      intro j hj
      obtain ⟨p, hp⟩ := Option.isSome_iff_exists.1 ((hmi j).1 hj)
      simp only [Function.comp, (hpins hp).1, (hpins hp).2, hp, optCap]
    rw [e1, (hins.map _).sum_eq]
    have e2 : ∀ l : List Nat, ((l.filter (fun i => (entAt ents i).isSome)).map (fun j => optCap q (entAt ents j))).sum = (l.map (fun j => optCap q (entAt ents j))).sum := by
      intro l
      induction l with
      | nil => rfl
      | cons a l ih =>
        rw [List.filter_cons, List.map_cons, List.sum_cons, ← ih]
        cases ha : entAt ents a with
        | none => simp [optCap]
        | some p => simp [ha]
    rw [e2]
    have e3 : (List.range ents.length).map (fun j => optCap q (entAt ents j)) = ents.map (fun x => optCap q x.net) := by
      apply List.ext_getElem
      · simp
      · intro n hn1 hn2
        simp only [List.length_map, List.length_range] at hn1
        simp [entAt, hn1]
    rw [e3]
  apply nets_ext (f := entCap ents)
  · rw [mergeAll_snd, List.map_filterMap]
    unfold firsts
    apply List.filterMap_congr
    intro i _
    by_cases hv : t.valid i = true
    · obtain ⟨hs, hf⟩ := (hvalid i).1 hv
      obtain ⟨p, hp⟩ := Option.isSome_iff_exists.1 hs
      rw [if_pos hv, if_pos hf, hp, h1, (hpins hp).1]; rfl
    · rw [if_neg hv]
      by_cases hf : firstAt ents i
      · rw [if_pos hf]
        cases hp : entAt ents i with
        | none => rfl
        | some p => exact absurd ((hvalid i).2 ⟨by rw [hp]; rfl, hf⟩) hv
      · rw [if_neg hf]; rfl
  · intro p hp
    obtain ⟨i, _, hi⟩ := List.mem_filterMap.1 hp
    by_cases hv : t.valid i = true
    · rw [if_pos hv] at hi
      cases hi
      rw [h1]; exact hw i hv
    · rw [if_neg hv] at hi; cases hi
  · exact mergeAll_cap ents

/-! ### The other parallel construction -/

theorem netCut_modify (S : Nat → Bool) {nets : Nets} {t : Nat} {cap : Int} {pins : List Nat} (h : (nets[t]?).map Prod.snd = some pins) :
    netCut S (nets.modify t (fun p => (p.1 + cap, p.2))) = netCut S nets + netVal S (some (cap, pins)) := by
  induction nets generalizing t with
  | nil => simp at h
  | cons a l ih =>
    cases t with
    | zero =>
      simp only [List.getElem?_cons_zero, Option.map_some, Option.some.injEq] at h
      subst h
      rw [List.modify_zero_cons]
      simp only [netCut, netVal, List.map_cons, List.sum_cons]
      by_cases hc : isCut S a.2 = true
      · simp only [if_pos hc]; omega
      · simp only [if_neg hc]; omega
    | succ t =>
      rw [List.getElem?_cons_succ] at h
      have := ih h
      rw [List.modify_succ_cons]
      simp only [netCut, List.map_cons, List.sum_cons] at this ⊢
      omega

theorem parExec_netCut (S : Nat → Bool) (l : List (Entry × Option Nat)) : ∀ {nets nets' : Nets}, parExec nets l = some nets' →
    netCut S nets' = netCut S nets + (l.map (fun a => netVal S a.1.net)).sum := by
  induction l with
  | nil => intro nets nets' h; cases h; simp
  | cons a l ih =>
    intro nets nets' h
    rw [parExec] at h
    cases hs : parStep nets a.1 a.2 with
    | none => rw [hs] at h; cases h
    | some n1 =>
      rw [hs] at h
      rw [ih h, List.map_cons, List.sum_cons]
      have : netCut S n1 = netCut S nets + netVal S a.1.net := by
        unfold parStep at hs
        cases hx : a.1.net with
        | none =>
          cases hf : a.2 with
          | none => rw [hx, hf] at hs; cases hs; simp [netVal]
          | some t => rw [hx, hf] at hs; cases hs
        | some p =>
          cases hf : a.2 with
          | none =>
            rw [hx, hf] at hs
            simp only [Option.some.injEq] at hs
            subst hs
            simp [netCut, netVal]
          | some t =>
            rw [hx, hf] at hs
            simp only [] at hs
            by_cases hc : (nets[t]?).map Prod.snd = some p.2
            · rw [if_pos hc] at hs
              cases hs
              exact netCut_modify S hc
            · rw [if_neg hc] at hs; cases hs
      omega

end FNet
end Verif
