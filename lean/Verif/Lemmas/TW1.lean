import Verif.Model.TwoWayFM
import Verif.Lemmas.DFlow1
/-! # 2-way FM: queue, border nodes, gains -/
namespace Verif
namespace TwoWay
open DFlow (set set_same set_other set_apply attr_move)

variable {ι : Type} {c : Cfg ι}

/-! ### Border nodes -/

theorem noncut_fold : ∀ (l : List Nat) (s : St), l.Nodup → l.foldl noncutPin s =
    { s with nc := fun v => if v ∈ l then s.nc v - 1 else s.nc v, rem := s.rem ++ l.filter (fun v => decide (s.nc v - 1 = 0 ∧ s.vs v = .active)) } := by
  intro l
  induction l with
  | nil => intro s _; simp
  | cons a l ih =>
    intro s hn
    obtain ⟨ha, hl⟩ := List.nodup_cons.1 hn
    rw [List.foldl_cons, ih _ hl]
    have hnc : ∀ v, (noncutPin s a).nc v = if v = a then s.nc a - 1 else s.nc v := by
      intro v; unfold noncutPin; dsimp only
      by_cases h : set s.nc a (s.nc a - 1) a = 0 ∧ s.vs a = .active
      · rw [if_pos h]; rfl
      · rw [if_neg h]; rfl
    have hrem : (noncutPin s a).rem = s.rem ++ (if s.nc a - 1 = 0 ∧ s.vs a = .active then [a] else []) := by
      unfold noncutPin; dsimp only
      have e := set_same s.nc a (s.nc a - 1)
      by_cases h : s.nc a - 1 = 0 ∧ s.vs a = .active
      · rw [if_pos (show set s.nc a (s.nc a - 1) a = 0 ∧ s.vs a = .active by rw [e]; exact h), if_pos h]
      · rw [if_neg (show ¬ (set s.nc a (s.nc a - 1) a = 0 ∧ s.vs a = .active) by rw [e]; exact h), if_neg h, List.append_nil]
    have ho : (noncutPin s a).Φ = s.Φ ∧ (noncutPin s a).vs = s.vs ∧ (noncutPin s a).hs = s.hs ∧ (noncutPin s a).pq = s.pq ∧ (noncutPin s a).en = s.en ∧
        (noncutPin s a).act = s.act := by
      unfold noncutPin; dsimp only
      by_cases h : set s.nc a (s.nc a - 1) a = 0 ∧ s.vs a = .active
      · rw [if_pos h]; exact ⟨rfl, rfl, rfl, rfl, rfl, rfl⟩
      · rw [if_neg h]; exact ⟨rfl, rfl, rfl, rfl, rfl, rfl⟩
    obtain ⟨o1, o2, o3, o4, o5, o6⟩ := ho
    have e1 : (fun v => if v ∈ l then (noncutPin s a).nc v - 1 else (noncutPin s a).nc v) = fun v => if v ∈ a :: l then s.nc v - 1 else s.nc v := by
      funext v
      by_cases hv : v = a
      · subst hv; rw [if_neg ha, hnc, if_pos rfl, if_pos (by simp)]
      · simp only [hnc, List.mem_cons, hv, false_or, if_false]
    have e2 : (noncutPin s a).rem ++ l.filter (fun v => decide ((noncutPin s a).nc v - 1 = 0 ∧ (noncutPin s a).vs v = .active)) =
        s.rem ++ (a :: l).filter (fun v => decide (s.nc v - 1 = 0 ∧ s.vs v = .active)) := by
      rw [hrem, o2]
      have : l.filter (fun v => decide ((noncutPin s a).nc v - 1 = 0 ∧ s.vs v = .active)) = l.filter (fun v => decide (s.nc v - 1 = 0 ∧ s.vs v = .active)) := by
        apply List.filter_congr
        intro v hv
        have : v ≠ a := fun h => ha (h ▸ hv)
        rw [hnc, if_neg this]
      rw [this, List.append_assoc]
      congr 1
      by_cases h : s.nc a - 1 = 0 ∧ s.vs a = .active
      · rw [if_pos h, List.filter_cons_of_pos (by simpa using h)]; rfl
      · rw [if_neg h, List.filter_cons_of_neg (by simpa using h)]; rfl
    rw [e1, e2, o1, o2, o3, o4, o5, o6]

theorem cut_fold : ∀ (l : List Nat) (s : St), l.Nodup → l.foldl cutPin s =
    { s with nc := fun v => if v ∈ l then s.nc v + 1 else s.nc v, act := s.act ++ l.filter (fun v => decide (s.nc v + 1 = 1 ∧ s.vs v = .inactive)) } := by
  intro l
  induction l with
  | nil => intro s _; simp
  | cons a l ih =>
    intro s hn
    obtain ⟨ha, hl⟩ := List.nodup_cons.1 hn
    rw [List.foldl_cons, ih _ hl]
    have hnc : ∀ v, (cutPin s a).nc v = if v = a then s.nc a + 1 else s.nc v := by
      intro v; unfold cutPin; dsimp only
      by_cases h : set s.nc a (s.nc a + 1) a = 1 ∧ s.vs a = .inactive
      · rw [if_pos h]; rfl
      · rw [if_neg h]; rfl
    have hrem : (cutPin s a).act = s.act ++ (if s.nc a + 1 = 1 ∧ s.vs a = .inactive then [a] else []) := by
      unfold cutPin; dsimp only
      have e := set_same s.nc a (s.nc a + 1)
      by_cases h : s.nc a + 1 = 1 ∧ s.vs a = .inactive
      · rw [if_pos (show set s.nc a (s.nc a + 1) a = 1 ∧ s.vs a = .inactive by rw [e]; exact h), if_pos h]
      · rw [if_neg (show ¬ (set s.nc a (s.nc a + 1) a = 1 ∧ s.vs a = .inactive) by rw [e]; exact h), if_neg h, List.append_nil]
    have ho : (cutPin s a).Φ = s.Φ ∧ (cutPin s a).vs = s.vs ∧ (cutPin s a).hs = s.hs ∧ (cutPin s a).pq = s.pq ∧ (cutPin s a).en = s.en ∧
        (cutPin s a).rem = s.rem := by
      unfold cutPin; dsimp only
      by_cases h : set s.nc a (s.nc a + 1) a = 1 ∧ s.vs a = .inactive
      · rw [if_pos h]; exact ⟨rfl, rfl, rfl, rfl, rfl, rfl⟩
      · rw [if_neg h]; exact ⟨rfl, rfl, rfl, rfl, rfl, rfl⟩
    obtain ⟨o1, o2, o3, o4, o5, o6⟩ := ho
    have e1 : (fun v => if v ∈ l then (cutPin s a).nc v + 1 else (cutPin s a).nc v) = fun v => if v ∈ a :: l then s.nc v + 1 else s.nc v := by
      funext v
      by_cases hv : v = a
      · subst hv; rw [if_neg ha, hnc, if_pos rfl, if_pos (by simp)]
      · simp only [hnc, List.mem_cons, hv, false_or, if_false]
    have e2 : (cutPin s a).act ++ l.filter (fun v => decide ((cutPin s a).nc v + 1 = 1 ∧ (cutPin s a).vs v = .inactive)) =
        s.act ++ (a :: l).filter (fun v => decide (s.nc v + 1 = 1 ∧ s.vs v = .inactive)) := by
      rw [hrem, o2]
      have : l.filter (fun v => decide ((cutPin s a).nc v + 1 = 1 ∧ s.vs v = .inactive)) = l.filter (fun v => decide (s.nc v + 1 = 1 ∧ s.vs v = .inactive)) := by
        apply List.filter_congr
        intro v hv
        have : v ≠ a := fun h => ha (h ▸ hv)
        rw [hnc, if_neg this]
      rw [this, List.append_assoc]
      congr 1
      by_cases h : s.nc a + 1 = 1 ∧ s.vs a = .inactive
      · rw [if_pos h, List.filter_cons_of_pos (by simpa using h)]; rfl
      · rw [if_neg h, List.filter_cons_of_neg (by simpa using h)]; rfl
    rw [e1, e2, o1, o2, o3, o4, o5, o6]

/-! ### Updates of keys -/

/-- `s'` is `s` with the keys of the active nodes of `D` raised by `δ` -/
structure Bump (s s' : St) (D : Nat → Prop) (δ : Nat → Int) : Prop where
  Φ : s'.Φ = s.Φ
  vs : s'.vs = s.vs
  hs : s'.hs = s.hs
  nc : s'.nc = s.nc
  en : s'.en = s.en
  act : s'.act = s.act
  rem : s'.rem = s.rem
  yes : ∀ p v, D v → s.vs v = .active → (s.Φ v).map (1 - ·) = some p → s'.pq p v = (s.pq p v).map (· + δ v)
  no : ∀ p v, ¬ (D v ∧ s.vs v = .active ∧ (s.Φ v).map (1 - ·) = some p) → s'.pq p v = s.pq p v

theorem Bump.refl (s : St) (δ : Nat → Int) : Bump s s (fun _ => False) δ :=
  ⟨rfl, rfl, rfl, rfl, rfl, rfl, rfl, fun _ _ h => h.elim, fun _ _ _ => rfl⟩

theorem map_add_zero (o : Option Int) : o.map (· + (0 : Int)) = o := by cases o <;> simp

theorem Bump.zero (s : St) (D : Nat → Prop) {δ : Nat → Int} (h : ∀ v, D v → δ v = 0) : Bump s s D δ :=
  ⟨rfl, rfl, rfl, rfl, rfl, rfl, rfl, fun p v hv _ _ => by rw [h v hv, map_add_zero], fun _ _ _ => rfl⟩

theorem updatePin_bump (s : St) (a : Nat) (d : Int) : Bump s (updatePin s a d) (fun v => v = a) (fun _ => d) := by
  unfold updatePin
  by_cases ha : s.vs a = .active
  · rw [if_pos ha]
    cases hb : s.Φ a with
    | none =>
      dsimp only
      refine ⟨rfl, rfl, rfl, rfl, rfl, rfl, rfl, fun p v hv _ h => ?_, fun _ _ _ => rfl⟩
      subst hv; rw [hb] at h; simp at h
    | some b =>
      dsimp only
      refine ⟨rfl, rfl, rfl, rfl, rfl, rfl, rfl, ?_, ?_⟩
      · intro p v hv _ h
        subst hv
        rw [hb] at h
        simp only [Option.map_some, Option.some.injEq] at h
        subst h
        show set s.pq (1 - b) _ (1 - b) v = _
        rw [set_same, set_same]
      · intro p v h
        show set s.pq (1 - b) _ p v = _
        rw [set_apply]
        by_cases hp : p = 1 - b
        · rw [if_pos hp, set_apply]
          by_cases hv : v = a
          · exfalso; apply h; subst hv; exact ⟨rfl, ha, by rw [hb, hp]; rfl⟩
          · rw [if_neg hv, hp]
        · rw [if_neg hp]
  · rw [if_neg ha]
    exact ⟨rfl, rfl, rfl, rfl, rfl, rfl, rfl, fun p v hv h _ => (ha (hv ▸ h)).elim, fun _ _ _ => rfl⟩

theorem Bump.snoc {s t u : St} {D : Nat → Prop} {δ : Nat → Int} {a : Nat} {d : Int} (h : Bump s t D δ) (h' : Bump t u (fun v => v = a) (fun _ => d))
    (ha : ¬ D a) (hd : δ a = d) : Bump s u (fun v => D v ∨ v = a) δ where
  Φ := h'.Φ.trans h.Φ
  vs := h'.vs.trans h.vs
  hs := h'.hs.trans h.hs
  nc := h'.nc.trans h.nc
  en := h'.en.trans h.en
  act := h'.act.trans h.act
  rem := h'.rem.trans h.rem
  yes := by
    intro p v hD hv hp
    by_cases hva : v = a
    · subst hva
      rw [h'.yes p v rfl (by rw [h.vs]; exact hv) (by rw [h.Φ]; exact hp), h.no p v (fun x => ha x.1), hd]
    · rw [h'.no p v (fun x => hva x.1)]
      exact h.yes p v (hD.resolve_right hva) hv hp
  no := by
    intro p v hn
    by_cases hva : v = a
    · subst hva
      rw [h'.no p v (fun x => hn ⟨Or.inr rfl, by rw [← h.vs]; exact x.2.1, by rw [← h.Φ]; exact x.2.2⟩), h.no p v (fun x => ha x.1)]
    · rw [h'.no p v (fun x => hva x.1)]
      exact h.no p v (fun x => hn ⟨Or.inl x.1, x.2⟩)

theorem fold_bump {Φ : Assign} {δ : Nat → Int} {g : St → Nat → St} : ∀ (l : List Nat), l.Nodup →
    (∀ v ∈ l, ∀ t : St, t.Φ = Φ → Bump t (g t v) (fun u => u = v) (fun _ => δ v)) → ∀ (s t : St) (D : Nat → Prop), s.Φ = Φ → (∀ v ∈ l, ¬ D v) →
    Bump s t D δ → Bump s (l.foldl g t) (fun v => D v ∨ v ∈ l) δ := by
  intro l
  induction l with
  | nil =>
    intro _ _ s t D _ _ h
    simpa using h
  | cons a l ih =>
    intro hn hg s t D hs hD h
    obtain ⟨ha, hl⟩ := List.nodup_cons.1 hn
    have h1 := h.snoc (hg a (by simp) t (h.Φ.trans hs)) (hD a (by simp)) rfl
    have := ih hl (fun v hv => hg v (List.mem_cons_of_mem _ hv)) s (g t a) _ hs (by
      rintro v hv (h | h)
      · exact hD v (List.mem_cons_of_mem _ hv) h
      · exact ha (h ▸ hv)) h1
    rw [List.foldl_cons]
    have e : (fun v => (D v ∨ v = a) ∨ v ∈ l) = fun v => D v ∨ v ∈ a :: l := by
      funext v; rw [List.mem_cons, or_assoc]
    rw [← e]; exact this

theorem fold_bump' {s : St} {δ : Nat → Int} {g : St → Nat → St} {l : List Nat} (hn : l.Nodup)
    (hg : ∀ v ∈ l, ∀ t : St, t.Φ = s.Φ → Bump t (g t v) (fun u => u = v) (fun _ => δ v)) : Bump s (l.foldl g s) (fun v => v ∈ l) δ := by
  have := fold_bump (Φ := s.Φ) l hn hg s s (fun _ => False) rfl (by simp) (Bump.refl s δ)
  simpa using this

/-! ### Gains -/

/-- two blocks -/
def Two (H : HG) (Φ : Assign) : Prop := ∀ v ∈ H.nodes, Φ v = some 0 ∨ Φ v = some 1

theorem two_add {H : HG} {Φ : Assign} (hT : Two H Φ) {l : List Nat} (hl : ∀ v ∈ l, v ∈ H.nodes) :
    l.countP (fun v => decide (Φ v = some 0)) + l.countP (fun v => decide (Φ v = some 1)) = l.length := by
  induction l with
  | nil => simp
  | cons a l ih =>
    have := ih (fun v hv => hl v (List.mem_cons_of_mem _ hv))
    rcases hT a (hl a (by simp)) with h | h
    · rw [List.countP_cons_of_pos (by simp [h]), List.countP_cons_of_neg (by simp [h]), List.length_cons]; omega
    · rw [List.countP_cons_of_neg (by simp [h]), List.countP_cons_of_pos (by simp [h]), List.length_cons]; omega

theorem two_pins {H : HG} (hw : H.WF) {Φ : Assign} (hT : Two H Φ) {e : Nat} (he : e ∈ H.edges) {b : Nat} (hb : b < 2) :
    H.pinsIn Φ e b + H.pinsIn Φ e (1 - b) = (H.pins e).length := by
  have := two_add hT (l := H.pins e) (hw.pins_mem e he)
  have : H.pinsIn Φ e 0 + H.pinsIn Φ e 1 = (H.pins e).length := this
  have hb' : b = 0 ∨ b = 1 := by omega
  rcases hb' with rfl | rfl
  · exact this
  · rw [Nat.add_comm]; exact this

theorem Two.put {H : HG} {Φ : Assign} (hT : Two H Φ) (v : Nat) {b : Nat} (hb : b < 2) : Two H (Φ.put v b) := by
  intro u hu
  by_cases h : u = v
  · subst h
    rw [Assign.put_same]
    have hb' : b = 0 ∨ b = 1 := by omega
    rcases hb' with rfl | rfl
    · exact Or.inl rfl
    · exact Or.inr rfl
  · rw [Assign.put_other _ h]; exact hT u hu

theorem Two.lt {H : HG} {Φ : Assign} (hT : Two H Φ) {v b : Nat} (hv : v ∈ H.nodes) (h : Φ v = some b) : b < 2 := by
  rcases hT v hv with h' | h' <;> rw [h'] at h <;> cases h <;> omega

/-- cut, in terms of pin counts -/
theorem cut_two {H : HG} (hw : H.WF) {Φ : Assign} (hT : Two H Φ) {e : Nat} (he : e ∈ H.edges) {b : Nat} (hb : b < 2) :
    H.lam Φ e > 1 ↔ 0 < H.pinsIn Φ e b ∧ 0 < H.pinsIn Φ e (1 - b) := by
  have hs := two_pins hw hT he hb
  have hne : b ≠ 1 - b := by omega
  have hex : ∀ b, 0 < H.pinsIn Φ e b → ∃ v ∈ H.pins e, Φ v = some b := by
    intro b h
    unfold HG.pinsIn at h
    obtain ⟨v, h1, h2⟩ := List.countP_pos_iff.1 h
    exact ⟨v, h1, by simpa using h2⟩
  have hall : ∀ v ∈ H.pins e, Φ v ≠ none := fun v hv => by rcases hT v (hw.pins_mem e he v hv) with h | h <;> rw [h] <;> simp
  by_cases h0 : 0 < H.pinsIn Φ e b
  · obtain ⟨v, hv, h⟩ := hex b h0
    rw [HG.cut_iff hv h hall]; omega
  · by_cases h1 : 0 < H.pinsIn Φ e (1 - b)
    · obtain ⟨v, hv, h⟩ := hex (1 - b) h1
      rw [HG.cut_iff hv h hall]; omega
    · constructor
      · intro h
        exfalso
        have : (H.pins e).length = 0 := by omega
        have h2 : H.pins e = [] := List.length_eq_zero_iff.1 this
        unfold HG.lam HG.blocksOf at h
        rw [h2] at h
        simp at h
      · intro h; omega

/-- `computeGain` is the decrease of the cut -/
theorem gain_eq {H : HG} (hw : H.WF) {Φ : Assign} (hT : Two H Φ) {v b : Nat} (hv : v ∈ H.nodes) (h : Φ v = some b) :
    computeGain H Φ v b (1 - b) = H.cut Φ - H.cut (Φ.put v (1 - b)) := by
  have hb := hT.lt hv h
  have hne : b ≠ 1 - b := by omega
  have hall : ∀ v ∈ H.nodes, Φ v ≠ none := fun v hv => by rcases hT v hv with h | h <;> rw [h] <;> simp
  have := attr_move (o := .cut) hw hall hv h hne
  have e1 : H.objective (Φ.put v (1 - b)) .cut = H.cut (Φ.put v (1 - b)) := rfl
  have e2 : H.objective Φ .cut = H.cut Φ := rfl
  rw [e1, e2] at this
  have key : computeGain H Φ v b (1 - b) = - (((H.inc v).map (fun e => H.mkUpdate Φ e v b (1 - b))).map (attrGain .cut)).sum := by
    unfold computeGain
    rw [List.map_map]
    have hi : ∀ e ∈ H.inc v, e ∈ H.edges ∧ v ∈ H.pins e := fun e he => (hw.inc_iff v hv e).1 he
    generalize H.inc v = l at hi
    induction l with
    | nil => simp
    | cons e l ih =>
      rw [List.map_cons, List.sum_cons, List.map_cons, List.sum_cons, ih (fun e he => hi e (List.mem_cons_of_mem _ he)), Int.neg_add]
      congr 1
      obtain ⟨he, hp⟩ := hi e (by simp)
      have p1 := HG.pinsIn_put_mem (Φ := Φ) (b := 1 - b) (c := b) (hw.pins_nodup e he) hp
      have p2 := HG.pinsIn_put_mem (Φ := Φ) (b := 1 - b) (c := 1 - b) (hw.pins_nodup e he) hp
      rw [if_pos h, if_neg hne] at p1
      rw [if_neg (by rw [h]; simpa using hne), if_pos rfl] at p2
      have hs := two_pins hw hT he hb
      show contrib H Φ b (1 - b) e = - attrCut _
      unfold contrib attrCut HG.mkUpdate
      dsimp only
      by_cases hl : (H.pins e).length > 1
      · rw [if_pos hl, if_pos hl]
        by_cases q1 : H.pinsIn Φ e (1 - b) = 0
        · have a1 : H.pinsIn (Φ.put v (1 - b)) e b = (H.pins e).length - 1 := by omega
          have a2 : ¬ H.pinsIn (Φ.put v (1 - b)) e (1 - b) = (H.pins e).length := by omega
          have a3 : ¬ H.pinsIn Φ e b = 1 := by omega
          rw [if_pos q1, if_neg a3]; simp [b2i, a1, a2]
        · have a1 : ¬ H.pinsIn (Φ.put v (1 - b)) e b = (H.pins e).length - 1 := by omega
          by_cases q2 : H.pinsIn Φ e b = 1
          · have a2 : H.pinsIn (Φ.put v (1 - b)) e (1 - b) = (H.pins e).length := by omega
            rw [if_neg q1, if_pos q2]; simp [b2i, a1, a2]
          · have a2 : ¬ H.pinsIn (Φ.put v (1 - b)) e (1 - b) = (H.pins e).length := by omega
            rw [if_neg q1, if_neg q2]; simp [b2i, a1, a2]
      · rw [if_neg hl, if_neg hl]; omega
  rw [key, this]; omega

end TwoWay
end Verif
