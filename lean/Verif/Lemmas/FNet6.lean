import Verif.Lemmas.FNet5
/-! The deterministic parallel construction builds the same network for every schedule. -/
namespace Verif
namespace FNet
open DFlow (set set_same set_other set_apply)

variable {c : NCfg} {r : Region}

/-! ### Deduplication of one bucket -/

/-- total weight of the hyperedges with pins `q` -/
def sameSum (t : Tmp) (l : List Hashed) (q : List Nat) : Int := (l.map (fun y => if t.pins y.he = q then t.w y.he else 0)).sum

theorem dedupInner_spec {hf : List Nat → Nat} {t : Tmp} {lhs : Nat} (l : List Hashed) (hs : l.Pairwise hashedLe) (hh : ∀ x ∈ l, x.hash = hf (t.pins x.he))
    (hge : ∀ x ∈ l, hf (t.pins lhs) ≤ x.hash) : ∀ (w : Int) (v : Nat → Bool),
    (dedupInner t lhs (hf (t.pins lhs)) l w v).1 = w + sameSum t l (t.pins lhs) ∧
    ∀ i, (dedupInner t lhs (hf (t.pins lhs)) l w v).2 i = if ∃ y ∈ l, y.he = i ∧ t.pins i = t.pins lhs then false else v i := by
  induction l with
  | nil => intro w v; simp [dedupInner, sameSum]
  | cons x l ih =>
    intro w v
    rw [List.pairwise_cons] at hs
    have ih' := ih hs.2 (fun y hy => hh y (List.mem_cons_of_mem _ hy)) (fun y hy => hge y (List.mem_cons_of_mem _ hy))
    simp only [dedupInner]
    by_cases h1 : hf (t.pins lhs) = x.hash
    · rw [if_pos h1]
      by_cases h2 : t.pins lhs = t.pins x.he
      · rw [if_pos h2]
        obtain ⟨a, b⟩ := ih' (w + t.w x.he) (set v x.he false)
        refine ⟨?_, ?_⟩
        · rw [a]; simp only [sameSum, List.map_cons, List.sum_cons, if_pos h2.symm]; omega
        · intro i
          rw [b]
          by_cases h3 : ∃ y ∈ l, y.he = i ∧ t.pins i = t.pins lhs
          · rw [if_pos h3, if_pos]
            obtain ⟨y, hy, e⟩ := h3
            exact ⟨y, List.mem_cons_of_mem _ hy, e⟩
          · rw [if_neg h3, set_apply]
            by_cases h4 : i = x.he
            · rw [if_pos h4, if_pos]
              exact ⟨x, List.mem_cons_self, h4.symm, by rw [h4, h2]⟩
            · rw [if_neg h4, if_neg]
              rintro ⟨y, hy, e1, e2⟩
              rcases List.mem_cons.1 hy with rfl | hy
              · exact h4 e1.symm
              · exact h3 ⟨y, hy, e1, e2⟩
      · rw [if_neg h2]
        obtain ⟨a, b⟩ := ih' w v
        refine ⟨?_, ?_⟩
        · rw [a]; simp only [sameSum, List.map_cons, List.sum_cons, if_neg (Ne.symm h2)]; omega
        · intro i
          rw [b]
          apply if_congr _ rfl rfl
          constructor
          · rintro ⟨y, hy, e⟩; exact ⟨y, List.mem_cons_of_mem _ hy, e⟩
          · rintro ⟨y, hy, e1, e2⟩
            rcases List.mem_cons.1 hy with rfl | hy
            · exact absurd (by rw [e1, e2]) h2
            · exact ⟨y, hy, e1, e2⟩
    · rw [if_neg h1]
      have hno : ∀ y ∈ x :: l, t.pins y.he ≠ t.pins lhs := by
        intro y hy hp
        have hx := hge x List.mem_cons_self
        have e1 := hh y hy
        rw [hp] at e1
        rcases List.mem_cons.1 hy with rfl | hy
        · exact h1 e1.symm
        · have := hs.1 y hy
          unfold hashedLe at this
          omega
      refine ⟨?_, ?_⟩
      · have : sameSum t (x :: l) (t.pins lhs) = 0 := by
          unfold sameSum
          apply List.sum_eq_zero
          intro z hz
          obtain ⟨y, hy, rfl⟩ := List.mem_map.1 hz
          rw [if_neg (hno y hy)]
        rw [this]; simp
      · intro i
        rw [if_neg]
        rintro ⟨y, hy, e1, e2⟩
        exact hno y hy (by rw [e1, e2])

theorem dedupLoop_spec {hf : List Nat → Nat} (l : List Hashed) : ∀ {t : Tmp}, l.Pairwise hashedLe → (l.map Hashed.he).Nodup →
    (∀ x ∈ l, x.hash = hf (t.pins x.he) ∧ x.size = (t.pins x.he).length) →
    (∀ x ∈ l, ∀ y ∈ l, t.pins x.he = t.pins y.he → t.valid x.he = t.valid y.he) →
    (dedupLoop l t).pins = t.pins ∧
    (∀ i, i ∉ l.map Hashed.he → (dedupLoop l t).w i = t.w i ∧ (dedupLoop l t).valid i = t.valid i) ∧
    (∀ x ∈ l, ((dedupLoop l t).valid x.he = true ↔ t.valid x.he = true ∧ ∀ y ∈ l, t.pins y.he = t.pins x.he → x.he ≤ y.he)) ∧
    (∀ x ∈ l, (dedupLoop l t).valid x.he = true → (dedupLoop l t).w x.he = sameSum t l (t.pins x.he)) := by
  induction l with
  | nil => intro t _ _ _ _; simp [dedupLoop]
  | cons x l ih =>
    intro t hs hn hh hv
    rw [List.pairwise_cons] at hs
    rw [List.map_cons, List.nodup_cons] at hn
    have hle : ∀ y ∈ l, t.pins y.he = t.pins x.he → x.he ≤ y.he := by
      intro y hy hp
      have := hs.1 y hy
      have h1 := hh x List.mem_cons_self
      have h2 := hh y (List.mem_cons_of_mem _ hy)
      rw [hp, ← h1.1, ← h1.2] at h2
      unfold hashedLe at this
      omega
    have hne : ∀ y ∈ l, y.he ≠ x.he := fun y hy e => hn.1 (List.mem_map.2 ⟨y, hy, e⟩)
    have hx := hh x List.mem_cons_self
    simp only [dedupLoop]
    by_cases hvx : t.valid x.he = true
    · rw [if_pos hvx]
      have hin := dedupInner_spec (hf := hf) (t := t) (lhs := x.he) l hs.2 (fun y hy => (hh y (List.mem_cons_of_mem _ hy)).1)
        (fun y hy => by
          have := hs.1 y hy
          unfold hashedLe at this
          rw [← hx.1]; omega) (t.w x.he) t.valid
      rw [← hx.1] at hin
      generalize dedupInner t x.he x.hash l (t.w x.he) t.valid = p at hin
      obtain ⟨hw, hval⟩ := hin
      have hvl : ∀ y ∈ l, p.2 y.he = if t.pins y.he = t.pins x.he then false else t.valid y.he := by
        intro y hy
        rw [hval]
        apply if_congr _ rfl rfl
        exact ⟨fun ⟨_, _, _, e⟩ => e, fun e => ⟨y, hy, rfl, e⟩⟩
      have hvo : ∀ i, i ∉ l.map Hashed.he → p.2 i = t.valid i := by
        intro i hi
        rw [hval, if_neg]
        rintro ⟨y, hy, e, _⟩
        exact hi (List.mem_map.2 ⟨y, hy, e⟩)
      obtain ⟨i1, i2, i3, i4⟩ := ih (t := { t with w := set t.w x.he p.1, valid := p.2 }) hs.2 hn.2 (fun y hy => hh y (List.mem_cons_of_mem _ hy))
        (fun y hy z hz hp => by
          dsimp only at hp ⊢
          rw [hvl y hy, hvl z hz, hp, hv y (List.mem_cons_of_mem _ hy) z (List.mem_cons_of_mem _ hz) hp])
      generalize dedupLoop l { t with w := set t.w x.he p.1, valid := p.2 } = t' at *
      dsimp only at i1 i2 i3 i4
      have hxo := i2 x.he hn.1
      rw [set_same, hvo _ hn.1] at hxo
      have hsum : ∀ q, sameSum { t with w := set t.w x.he p.1, valid := p.2 } l q = sameSum t l q := by
        intro q
        unfold sameSum
        congr 1
        apply List.map_congr_left
        intro y hy
        dsimp only
        rw [set_other _ _ (hne y hy)]
      refine ⟨i1, ?_, ?_, ?_⟩
      · intro i hi
        rw [List.map_cons, List.mem_cons, not_or] at hi
        have := i2 i hi.2
        rw [set_other _ _ hi.1, hvo _ hi.2] at this
        exact this
      · intro y hy
        rcases List.mem_cons.1 hy with rfl | hy
        · rw [hxo.2, hvx]
          simp only [true_iff, true_and]
          intro z hz hp
          rcases List.mem_cons.1 hz with rfl | hz
          · exact Nat.le_refl _
          · exact hle z hz hp
        · rw [i3 y hy, hvl y hy]
          by_cases hc : t.pins y.he = t.pins x.he
          · rw [if_pos hc]
            simp only [Bool.false_eq_true, false_and, false_iff, not_and]
            intro _ hall
            have h1 := hall x List.mem_cons_self hc.symm
            have h2 := hle y hy hc
            exact hne y hy (by omega)
          · rw [if_neg hc]
            apply and_congr Iff.rfl
            constructor
            · intro hall z hz hp
              rcases List.mem_cons.1 hz with rfl | hz
              · exact absurd hp.symm hc
              · exact hall z hz hp
            · intro hall z hz; exact hall z (List.mem_cons_of_mem _ hz)
      · intro y hy hval'
        rcases List.mem_cons.1 hy with rfl | hy
        · rw [hxo.1, hw]
          simp [sameSum]
        · have hnc : ¬ t.pins y.he = t.pins x.he := by
            intro hc
            have := ((i3 y hy).1 hval').1
            rw [hvl y hy, if_pos hc] at this; cases this
          rw [i4 y hy hval', hsum]
          simp only [sameSum, List.map_cons, List.sum_cons, if_neg (Ne.symm hnc)]
          omega
    · rw [if_neg hvx]
      obtain ⟨i1, i2, i3, i4⟩ := ih (t := t) hs.2 hn.2 (fun y hy => hh y (List.mem_cons_of_mem _ hy))
        (fun y hy z hz hp => hv y (List.mem_cons_of_mem _ hy) z (List.mem_cons_of_mem _ hz) hp)
      generalize dedupLoop l t = t' at *
      have hxo := i2 x.he hn.1
      refine ⟨i1, fun i hi => i2 i (fun hh => hi (List.mem_cons_of_mem _ hh)), ?_, ?_⟩
      · intro y hy
        rcases List.mem_cons.1 hy with rfl | hy'
        · rw [hxo.2]; simp [hvx]
        · clear hy
          rw [i3 y hy']
          constructor
          · rintro ⟨a, hall⟩
            refine ⟨a, fun z hz hp => ?_⟩
            rcases List.mem_cons.1 hz with rfl | hz
            · exact absurd ((hv _ List.mem_cons_self y (List.mem_cons_of_mem _ hy') hp).trans a) hvx
            · exact hall z hz hp
          · rintro ⟨a, hall⟩; exact ⟨a, fun z hz => hall z (List.mem_cons_of_mem _ hz)⟩
      · intro y hy hval
        rcases List.mem_cons.1 hy with rfl | hy
        · rw [hxo.2] at hval; exact absurd hval hvx
        · have hnc : ¬ t.pins x.he = t.pins y.he := by
            intro hc
            have := ((i3 y hy).1 hval).1
            exact hvx ((hv _ List.mem_cons_self y (List.mem_cons_of_mem _ hy) hc).trans this)
          rw [i4 y hy hval]
          simp only [sameSum, List.map_cons, List.sum_cons, if_neg hnc]
          omega

instance : Std.Total hashedLe := ⟨by unfold hashedLe; intro a b; omega⟩
instance : IsTrans Hashed hashedLe := ⟨by unfold hashedLe; intro a b d; omega⟩

theorem sameSum_perm (t : Tmp) {l l' : List Hashed} (h : l.Perm l') (q : List Nat) : sameSum t l q = sameSum t l' q := (h.map _).sum_eq

/-! ### All buckets -/

theorem dedupBuckets {hf : List Nat → Nat} {t0 : Tmp} {ins : List Nat} {nm : Nat} (hn : ins.Nodup) (hv0 : ∀ i, t0.valid i = true ↔ i ∈ ins)
    (hashed : List Hashed) (hhd : hashed = ins.map (fun i => ⟨i, hf (t0.pins i), (t0.pins i).length⟩)) (bks : List Nat) (hb : bks.Nodup) :
    let t := bks.foldl (fun t b => dedupLoop ((hashed.filter (fun x => decide (x.hash % nm = b))).insertionSort hashedLe) t) t0
    t.pins = t0.pins ∧
    (∀ i, i ∉ ins ∨ hf (t0.pins i) % nm ∉ bks → t.w i = t0.w i ∧ t.valid i = t0.valid i) ∧
    (∀ i ∈ ins, hf (t0.pins i) % nm ∈ bks → (t.valid i = true ↔ ∀ j ∈ ins, t0.pins j = t0.pins i → i ≤ j)) ∧
    (∀ i ∈ ins, hf (t0.pins i) % nm ∈ bks → t.valid i = true → t.w i = sameSum t0 hashed (t0.pins i)) := by
  induction bks using List.reverseRecOn with
  | nil => simp
  | append_singleton bks b ih =>
    obtain ⟨hb1, hb2, hb3⟩ := List.nodup_append.1 hb
    have ih := ih hb1
    intro t
    have ht : t = dedupLoop ((hashed.filter (fun x => decide (x.hash % nm = b))).insertionSort hashedLe)
      (bks.foldl (fun t b => dedupLoop ((hashed.filter (fun x => decide (x.hash % nm = b))).insertionSort hashedLe) t) t0) := by
      show (bks ++ [b]).foldl _ t0 = _
      rw [List.foldl_append]; rfl
    clear_value t
    simp only [] at ih
    generalize bks.foldl (fun t b => dedupLoop ((hashed.filter (fun x => decide (x.hash % nm = b))).insertionSort hashedLe) t) t0 = t1 at ih ht
    obtain ⟨h1, h2, h3, h4⟩ := ih
    set B := (hashed.filter (fun x => decide (x.hash % nm = b))).insertionSort hashedLe with hB
    have hmem : ∀ x, x ∈ B ↔ ∃ i ∈ ins, hf (t0.pins i) % nm = b ∧ x = ⟨i, hf (t0.pins i), (t0.pins i).length⟩ := by
      intro x
      rw [hB, List.mem_insertionSort, List.mem_filter, hhd, List.mem_map, decide_eq_true_eq]
      constructor
      · rintro ⟨⟨i, hi, rfl⟩, hx⟩; exact ⟨i, hi, hx, rfl⟩
      · rintro ⟨i, hi, hx, rfl⟩; exact ⟨⟨i, hi, rfl⟩, hx⟩
    have hheB : ∀ i, i ∈ B.map Hashed.he ↔ i ∈ ins ∧ hf (t0.pins i) % nm = b := by
      intro i
      rw [List.mem_map]
      constructor
      · rintro ⟨x, hx, rfl⟩
        obtain ⟨j, hj, e, rfl⟩ := (hmem x).1 hx
        exact ⟨hj, e⟩
      · rintro ⟨hi, e⟩
        exact ⟨_, (hmem _).2 ⟨i, hi, e, rfl⟩, rfl⟩
    have hbn : ∀ {i}, hf (t0.pins i) % nm = b → hf (t0.pins i) % nm ∉ bks := fun e hh => hb3 _ hh b (List.mem_singleton.2 rfl) e
    have hval1 : ∀ x ∈ B, t1.valid x.he = true := by
      intro x hx
      obtain ⟨j, hj, e, rfl⟩ := (hmem x).1 hx
      rw [(h2 j (Or.inr (hbn e))).2]
      exact (hv0 j).2 hj
    have hnd : (B.map Hashed.he).Nodup := by
      have hp : (B.map Hashed.he).Perm ((hashed.filter (fun x => decide (x.hash % nm = b))).map Hashed.he) := (List.perm_insertionSort _ _).map _
      refine hp.nodup_iff.2 ?_
      have : ((hashed.filter (fun x => decide (x.hash % nm = b))).map Hashed.he).Sublist (hashed.map Hashed.he) := List.filter_sublist.map _
      refine this.nodup ?_
      rw [hhd, List.map_map]
      simpa [Function.comp_def] using hn
    obtain ⟨i1, i2, i3, i4⟩ := dedupLoop_spec (hf := hf) B (t := t1) (List.pairwise_insertionSort _ _) hnd
      (fun x hx => by obtain ⟨j, hj, e, rfl⟩ := (hmem x).1 hx; rw [h1]; exact ⟨rfl, rfl⟩)
      (fun x hx y hy _ => by rw [hval1 x hx, hval1 y hy])
    rw [← ht] at i1 i2 i3 i4
    rw [h1] at i1 i3 i4
    refine ⟨i1, ?_, ?_, ?_⟩
    · intro i hi
      rw [List.mem_append, not_or, List.mem_singleton] at hi
      have hnB : i ∉ B.map Hashed.he := by rw [hheB]; tauto
      obtain ⟨a, a'⟩ := i2 i hnB
      obtain ⟨b', b''⟩ := h2 i (by tauto)
      exact ⟨a.trans b', a'.trans b''⟩
    · intro i hi hm
      by_cases e : hf (t0.pins i) % nm = b
      · have hx := (hmem _).2 ⟨i, hi, e, rfl⟩
        have := i3 _ hx
        dsimp only at this
        rw [this]
        have hv1 := hval1 _ hx
        dsimp only at hv1
        rw [hv1]
        simp only [true_and]
        constructor
        · intro hall j hj hp
          exact hall _ ((hmem _).2 ⟨j, hj, by rw [hp]; exact e, rfl⟩) hp
        · intro hall y hy hp
          obtain ⟨j, hj, e', rfl⟩ := (hmem y).1 hy
          exact hall j hj hp
      · have hm' : hf (t0.pins i) % nm ∈ bks := by simpa [e] using hm
        rw [(i2 i (by rw [hheB]; tauto)).2]
        exact h3 i hi hm'
    · intro i hi hm hvi
      by_cases e : hf (t0.pins i) % nm = b
      · have hx := (hmem _).2 ⟨i, hi, e, rfl⟩
        have := i4 _ hx hvi
        dsimp only at this
        rw [this, hB, sameSum_perm _ (List.perm_insertionSort _ _)]
        -- weights of this bucket are unchanged, others do not have these pins
        unfold sameSum
        have hfl : ∀ l : List Nat, (∀ i ∈ l, i ∈ ins) →
            (((l.map (fun i => (⟨i, hf (t0.pins i), (t0.pins i).length⟩ : Hashed))).filter (fun x => decide (x.hash % nm = b))).map
              (fun y => if t1.pins y.he = t0.pins i then t1.w y.he else 0)).sum =
            ((l.map (fun i => (⟨i, hf (t0.pins i), (t0.pins i).length⟩ : Hashed))).map (fun y => if t0.pins y.he = t0.pins i then t0.w y.he else 0)).sum := by
          intro l
          induction l with
          | nil => intro _; rfl
          | cons a l ih =>
            intro hl
            have ih := ih (fun i hi => hl i (List.mem_cons_of_mem _ hi))
            have hp1 : t1.pins a = t0.pins a := by rw [h1]
            rw [List.map_cons, List.filter_cons, List.map_cons, List.sum_cons]
            by_cases ha : hf (t0.pins a) % nm = b
            · rw [if_pos (decide_eq_true ha), List.map_cons, List.sum_cons, ih]
              dsimp only
              rw [hp1, (h2 a (Or.inr (hbn ha))).1]
            · rw [if_neg (by simpa using ha), ih]
              dsimp only
              rw [if_neg (fun hp => ha (by rw [hp]; exact e))]
              simp
        rw [hhd]
        exact hfl ins (fun _ h => h)
      · have hm' : hf (t0.pins i) % nm ∈ bks := by simpa [e] using hm
        obtain ⟨a, a'⟩ := i2 i (by rw [hheB]; tauto)
        rw [a]
        exact h4 i hi hm' (a' ▸ hvi)

end FNet
end Verif
