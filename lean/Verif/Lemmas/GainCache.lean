import Verif.Lemmas.Gain
namespace Verif

theorem penIdx_inj {k u v : Nat} (h : penIdx k u = penIdx k v) : u = v :=
  Nat.eq_of_mul_eq_mul_right (Nat.succ_pos k) h

theorem benIdx_inj {k u v p q : Nat} (hp : p < k) (hq : q < k) (h : benIdx k u p = benIdx k v q) :
    u = v ∧ p = q := by
  unfold benIdx at h
  have h1 : (u * (k + 1) + (p + 1)) / (k + 1) = (v * (k + 1) + (q + 1)) / (k + 1) := by
    rw [← Nat.add_assoc, ← Nat.add_assoc, h]
  rw [Nat.add_comm, Nat.add_mul_div_right _ _ (Nat.succ_pos k), Nat.add_comm (v * (k + 1)),
    Nat.add_mul_div_right _ _ (Nat.succ_pos k), Nat.div_eq_of_lt (by omega),
    Nat.div_eq_of_lt (by omega)] at h1
  have h2 : u = v := by omega
  subst h2
  exact ⟨rfl, by omega⟩

theorem penIdx_ne_benIdx {k u v q : Nat} (hq : q < k) : penIdx k u ≠ benIdx k v q := by
  intro h
  unfold benIdx penIdx at h
  have h1 : (u * (k + 1)) % (k + 1) = (v * (k + 1) + (q + 1)) % (k + 1) := by
    rw [← Nat.add_assoc, h]
  rw [Nat.mul_mod_left, Nat.add_comm, Nat.add_mul_mod_self_right, Nat.mod_eq_of_lt (by omega)] at h1
  omega

/-- effect of a cache operation on index `i` if block ids are `Φ` -/
def CacheOp.contrib (Φ : Assign) (i : Nat) : CacheOp → Int
  | .add j a => if j = i then a else 0
  | .addIf u b j a => if j = i ∧ Φ u = some b then a else 0

def opsSum (Φ : Assign) (i : Nat) (l : List CacheOp) : Int := (l.map (CacheOp.contrib Φ i)).sum

theorem opsSum_nil (Φ : Assign) (i : Nat) : opsSum Φ i [] = 0 := rfl

theorem opsSum_cons (Φ : Assign) (i : Nat) (a : CacheOp) (l : List CacheOp) :
    opsSum Φ i (a :: l) = a.contrib Φ i + opsSum Φ i l := by simp [opsSum]

theorem opsSum_append (Φ : Assign) (i : Nat) (l l' : List CacheOp) :
    opsSum Φ i (l ++ l') = opsSum Φ i l + opsSum Φ i l' := by simp [opsSum]

theorem opsSum_flatMap (Φ : Assign) (i v : Nat) (pins : List Nat) (hn : pins.Nodup)
    (f : Nat → List CacheOp) (hf : ∀ u, u ≠ v → opsSum Φ i (f u) = 0) :
    opsSum Φ i (pins.flatMap f) = if v ∈ pins then opsSum Φ i (f v) else 0 := by
  induction pins with
  | nil => simp [opsSum]
  | cons a l ih =>
    rw [List.nodup_cons] at hn
    rw [List.flatMap_cons, opsSum_append, ih hn.2]
    by_cases h : a = v
    · subst h; simp [hn.1]
    · rw [hf a h]
      have : v ≠ a := fun hh => h hh.symm
      simp [this]

/-- multiplier of the weight of a net in the benefit term for a block containing `pc` of the `size`
pins (the formulas in the comments of `benefitTerm`) -/
def benMult : Metrics.Obj → Nat → Nat → Int
  | .km1, _, pc => if pc ≥ 1 then 1 else 0
  | .cut, size, pc => if pc = size - 1 ∧ size > 1 then 1 else 0
  | .soed, size, pc => if size > 1 then (if pc ≥ 1 then 1 else 0) + (if pc = size - 1 then 1 else 0)
    else 0

/-- form of all guarded operations: the guard is about the node whose penalty term is changed -/
def CacheOp.Ok (k : Nat) : CacheOp → Prop
  | .add _ _ => True
  | .addIf u _ j _ => j = penIdx k u

theorem gainDelta_ok (o : Metrics.Obj) (k : Nat) (pins : List Nat) (s : EdgeUpdate) :
    ∀ op ∈ gainDelta o k pins s, op.Ok k := by
  have hk : ∀ op ∈ km1Delta k pins s, op.Ok k := by
    intro op hop
    unfold km1Delta at hop
    rw [List.mem_append] at hop
    rcases hop with h | h <;> split at h <;> (try split at h) <;> simp at h <;>
      (obtain ⟨x, _, rfl⟩ := h) <;> simp [CacheOp.Ok]
  have hc : ∀ op ∈ cutDelta k pins s, op.Ok k := by
    intro op hop
    unfold cutDelta at hop
    split at hop
    · rw [List.mem_append] at hop
      rcases hop with h | h <;> split at h <;> (try split at h) <;> simp at h
      · obtain ⟨x, _, h⟩ := h; rcases h with rfl | rfl <;> simp [CacheOp.Ok]
      · obtain ⟨x, _, rfl⟩ := h; simp [CacheOp.Ok]
      · obtain ⟨x, _, h⟩ := h; rcases h with rfl | rfl <;> simp [CacheOp.Ok]
      · obtain ⟨x, _, rfl⟩ := h; simp [CacheOp.Ok]
    · simp at hop
  intro op hop
  cases o with
  | km1 => exact hk op hop
  | cut => exact hc op hop
  | soed =>
    simp only [gainDelta, soedDelta] at hop
    split at hop
    · rw [List.mem_append] at hop
      rcases hop with h | h
      · exact hk op h
      · exact hc op h
    · simp at hop

section
variable {k v b : Nat} {pins : List Nat} {s : EdgeUpdate} {Φ : Assign}

theorem opsSum_ite {Φ : Assign} {i : Nat} {c : Prop} [Decidable c] {l l' : List CacheOp} :
    opsSum Φ i (if c then l else l') = if c then opsSum Φ i l else opsSum Φ i l' := by
  split <;> rfl

/-- benefit part of the km1 delta update -/
theorem km1Delta_ben (hn : pins.Nodup) (hb : b < k) (hs : s.src < k) (hd : s.dst < k)
    (hne : s.src ≠ s.dst) (Φ : Assign) :
    opsSum Φ (benIdx k v b) (km1Delta k pins s) =
      if v ∈ pins then (if b = s.src ∧ s.srcAfter = 0 then -s.weight else 0) +
        (if b = s.dst ∧ s.dstAfter = 1 then s.weight else 0) else 0 := by
  have hA : ∀ x : Int, ∀ p, opsSum Φ (benIdx k v b)
      (pins.flatMap (fun u => [CacheOp.addIf u p (penIdx k u) x])) = 0 := by
    intro x p
    rw [opsSum_flatMap _ _ v _ hn]
    · simp [opsSum, CacheOp.contrib, penIdx_ne_benIdx hb]
    · intro u _; simp [opsSum, CacheOp.contrib, penIdx_ne_benIdx hb]
  have hB : ∀ x : Int, ∀ p, p < k → opsSum Φ (benIdx k v b)
      (pins.flatMap (fun u => [CacheOp.add (benIdx k u p) x])) =
      if v ∈ pins ∧ b = p then x else 0 := by
    intro x p hp
    rw [opsSum_flatMap _ _ v _ hn]
    · by_cases h : b = p
      · subst h; simp [opsSum, CacheOp.contrib]
      · have : benIdx k v p ≠ benIdx k v b := fun hh => h (benIdx_inj hp hb hh).2.symm
        simp [opsSum, CacheOp.contrib, h, this]
    · intro u hu
      have : benIdx k u p ≠ benIdx k v b := fun hh => hu (benIdx_inj hp hb hh).1
      simp [opsSum, CacheOp.contrib, this]
  unfold km1Delta
  simp only [opsSum_append, opsSum_ite, hA, hB _ _ hs, hB _ _ hd, opsSum_nil]
  by_cases hv : v ∈ pins <;> simp only [hv, true_and, false_and, if_true, if_false]
  · split_ifs <;> simp_all
  · split_ifs <;> simp

/-- penalty part of the km1 delta update, for a node whose block id is `p` -/
theorem km1Delta_pen (hn : pins.Nodup) (hs : s.src < k) (hd : s.dst < k) (hne : s.src ≠ s.dst)
    {p : Nat} (hp : Φ v = some p) :
    opsSum Φ (penIdx k v) (km1Delta k pins s) =
      if v ∈ pins then (if p = s.src ∧ s.srcAfter = 1 then -s.weight else 0) +
        (if p = s.dst ∧ s.dstAfter = 2 then s.weight else 0) else 0 := by
  have hA : ∀ x : Int, ∀ q, opsSum Φ (penIdx k v)
      (pins.flatMap (fun u => [CacheOp.addIf u q (penIdx k u) x])) =
      if v ∈ pins ∧ p = q then x else 0 := by
    intro x q
    rw [opsSum_flatMap _ _ v _ hn]
    · by_cases h : p = q <;> simp [opsSum, CacheOp.contrib, hp, h]
    · intro u hu
      have : penIdx k u ≠ penIdx k v := fun hh => hu (penIdx_inj hh)
      simp [opsSum, CacheOp.contrib, this]
  have hB : ∀ x : Int, ∀ q, q < k → opsSum Φ (penIdx k v)
      (pins.flatMap (fun u => [CacheOp.add (benIdx k u q) x])) = 0 := by
    intro x q hq
    rw [opsSum_flatMap _ _ v _ hn]
    · simp [opsSum, CacheOp.contrib, (penIdx_ne_benIdx hq).symm]
    · intro u _; simp [opsSum, CacheOp.contrib, (penIdx_ne_benIdx hq).symm]
  unfold km1Delta
  simp only [opsSum_append, opsSum_ite, hA, hB _ _ hs, hB _ _ hd, opsSum_nil]
  by_cases hv : v ∈ pins <;> simp only [hv, true_and, false_and, if_true, if_false]
  · split_ifs <;> simp_all
  · split_ifs <;> simp

theorem cutDelta_ben (hn : pins.Nodup) (hb : b < k) (hs : s.src < k) (hd : s.dst < k)
    (Φ : Assign) :
    opsSum Φ (benIdx k v b) (cutDelta k pins s) =
      if v ∈ pins ∧ s.size > 1 then
        (if b = s.src then (if s.srcAfter = s.size - 1 then s.weight else
          if s.srcAfter = s.size - 2 then -s.weight else 0) else 0) +
        (if b = s.dst then (if s.dstAfter = s.size then -s.weight else
          if s.dstAfter = s.size - 1 then s.weight else 0) else 0) else 0 := by
  have hB : ∀ x : Int, ∀ p, p < k → opsSum Φ (benIdx k v b)
      (pins.flatMap (fun u => [CacheOp.add (benIdx k u p) x])) =
      if v ∈ pins ∧ b = p then x else 0 := by
    intro x p hp
    rw [opsSum_flatMap _ _ v _ hn]
    · by_cases h : b = p
      · subst h; simp [opsSum, CacheOp.contrib]
      · have : benIdx k v p ≠ benIdx k v b := fun hh => h (benIdx_inj hp hb hh).2.symm
        simp [opsSum, CacheOp.contrib, h, this]
    · intro u hu
      have : benIdx k u p ≠ benIdx k v b := fun hh => hu (benIdx_inj hp hb hh).1
      simp [opsSum, CacheOp.contrib, this]
  have hA : ∀ x y : Int, ∀ p, p < k → opsSum Φ (benIdx k v b)
      (pins.flatMap (fun u => [CacheOp.add (penIdx k u) y, CacheOp.add (benIdx k u p) x])) =
      if v ∈ pins ∧ b = p then x else 0 := by
    intro x y p hp
    rw [opsSum_flatMap _ _ v _ hn]
    · by_cases h : b = p
      · subst h; simp [opsSum, CacheOp.contrib, penIdx_ne_benIdx hb]
      · have : benIdx k v p ≠ benIdx k v b := fun hh => h (benIdx_inj hp hb hh).2.symm
        simp [opsSum, CacheOp.contrib, h, this, penIdx_ne_benIdx hb]
    · intro u hu
      have : benIdx k u p ≠ benIdx k v b := fun hh => hu (benIdx_inj hp hb hh).1
      simp [opsSum, CacheOp.contrib, this, penIdx_ne_benIdx hb]
  unfold cutDelta
  simp only [opsSum_append, opsSum_ite, hA _ _ _ hs, hA _ _ _ hd, hB _ _ hs, hB _ _ hd, opsSum_nil]
  by_cases hv : v ∈ pins <;> by_cases hz : s.size > 1 <;>
    simp only [hv, hz, true_and, false_and, and_false, if_true, if_false, and_self]
  · split_ifs <;> simp
  · split_ifs <;> simp

theorem cutDelta_pen (hn : pins.Nodup) (hs : s.src < k) (hd : s.dst < k) (Φ : Assign) :
    opsSum Φ (penIdx k v) (cutDelta k pins s) =
      if v ∈ pins ∧ s.size > 1 then
        (if s.srcAfter = s.size - 1 then -s.weight else 0) +
        (if s.dstAfter = s.size then s.weight else 0) else 0 := by
  have hB : ∀ x : Int, ∀ q, q < k → opsSum Φ (penIdx k v)
      (pins.flatMap (fun u => [CacheOp.add (benIdx k u q) x])) = 0 := by
    intro x q hq
    rw [opsSum_flatMap _ _ v _ hn]
    · simp [opsSum, CacheOp.contrib, (penIdx_ne_benIdx hq).symm]
    · intro u _; simp [opsSum, CacheOp.contrib, (penIdx_ne_benIdx hq).symm]
  have hA : ∀ x y : Int, ∀ q, q < k → opsSum Φ (penIdx k v)
      (pins.flatMap (fun u => [CacheOp.add (penIdx k u) y, CacheOp.add (benIdx k u q) x])) =
      if v ∈ pins then y else 0 := by
    intro x y q hq
    rw [opsSum_flatMap _ _ v _ hn]
    · simp [opsSum, CacheOp.contrib, (penIdx_ne_benIdx hq).symm]
    · intro u hu
      have : penIdx k u ≠ penIdx k v := fun hh => hu (penIdx_inj hh)
      simp [opsSum, CacheOp.contrib, this, (penIdx_ne_benIdx hq).symm]
  unfold cutDelta
  simp only [opsSum_append, opsSum_ite, hA _ _ _ hs, hA _ _ _ hd, hB _ _ hs, hB _ _ hd, opsSum_nil]
  by_cases hv : v ∈ pins <;> by_cases hz : s.size > 1 <;>
    simp only [hv, hz, true_and, false_and, and_false, if_true, if_false, and_self]
  · split_ifs <;> simp
  · split_ifs <;> simp

/-- Benefit terms: the delta update of a net changes the entry of every pin by the change of the
multiplier, in terms of the pin counts `new` after and `old` before. -/
theorem gainDelta_ben (o : Metrics.Obj) (hn : pins.Nodup) (hb : b < k) (hs : s.src < k)
    (hd : s.dst < k) (hne : s.src ≠ s.dst) (old new : Nat → Nat)
    (h1 : s.srcAfter = new s.src) (h2 : s.dstAfter = new s.dst)
    (h3 : old s.src = new s.src + 1) (h4 : new s.dst = old s.dst + 1)
    (h5 : ∀ c, c ≠ s.src → c ≠ s.dst → new c = old c)
    (h6 : old s.src ≤ s.size) (h7 : new s.dst ≤ s.size) (Φ : Assign) :
    opsSum Φ (benIdx k v b) (gainDelta o k pins s) =
      if v ∈ pins then s.weight * (benMult o s.size (new b) - benMult o s.size (old b)) else 0 := by
  have hds : s.dst ≠ s.src := fun h => hne h.symm
  have hcase : b = s.src ∨ b = s.dst ∨ (b ≠ s.src ∧ b ≠ s.dst ∧ new b = old b) := by
    by_cases c1 : b = s.src
    · exact Or.inl c1
    · by_cases c2 : b = s.dst
      · exact Or.inr (Or.inl c2)
      · exact Or.inr (Or.inr ⟨c1, c2, h5 b c1 c2⟩)
  have hk : opsSum Φ (benIdx k v b) (km1Delta k pins s) = if v ∈ pins then
      s.weight * ((if new b ≥ 1 then 1 else 0) - (if old b ≥ 1 then 1 else 0)) else 0 := by
    rw [km1Delta_ben hn hb hs hd hne]
    split
    · rcases hcase with rfl | rfl | ⟨c1, c2, c3⟩
      · rw [h1, h3]
        simp only [hne, true_and, false_and, if_false]
        split_ifs <;> first | omega | simp
      · rw [h2, h4]
        simp only [hds, true_and, false_and, if_false]
        split_ifs <;> first | omega | simp
      · rw [c3]; simp [c1, c2]
    · rfl
  have hc : opsSum Φ (benIdx k v b) (cutDelta k pins s) = if v ∈ pins ∧ s.size > 1 then
      s.weight * ((if new b = s.size - 1 then 1 else 0) - (if old b = s.size - 1 then 1 else 0))
      else 0 := by
    rw [cutDelta_ben hn hb hs hd]
    split
    · rename_i hz
      rcases hcase with rfl | rfl | ⟨c1, c2, c3⟩
      · rw [h1, h3]
        simp only [hne, if_true, if_false]
        split_ifs <;> first | omega | simp
      · rw [h2, h4]
        simp only [hds, if_true, if_false]
        split_ifs <;> first | omega | simp
      · rw [c3]; simp [c1, c2]
    · rfl
  cases o with
  | km1 => exact hk
  | cut =>
    simp only [gainDelta, hc, benMult]
    by_cases hv : v ∈ pins <;> by_cases hz : s.size > 1 <;> simp [hv, hz]
  | soed =>
    simp only [gainDelta, soedDelta, opsSum_ite, opsSum_append, hk, hc, benMult, opsSum_nil]
    by_cases hv : v ∈ pins <;> by_cases hz : s.size > 1 <;> simp [hv, hz]
    ring

/-- Penalty terms: same for a pin `v` whose block `p` contains a pin before and after the update. -/
theorem gainDelta_pen (o : Metrics.Obj) (hn : pins.Nodup) (hs : s.src < k)
    (hd : s.dst < k) (hne : s.src ≠ s.dst) (old new : Nat → Nat)
    (h1 : s.srcAfter = new s.src) (h2 : s.dstAfter = new s.dst)
    (h3 : old s.src = new s.src + 1) (h4 : new s.dst = old s.dst + 1)
    (h5 : ∀ c, c ≠ s.src → c ≠ s.dst → new c = old c)
    (h6 : ∀ c d, c ≠ d → old c + old d ≤ s.size) (h7 : ∀ c d, c ≠ d → new c + new d ≤ s.size)
    {p : Nat} (hp : Φ v = some p) (hold : v ∈ pins → 0 < old p ∧ 0 < new p) :
    opsSum Φ (penIdx k v) (gainDelta o k pins s) =
      if v ∈ pins then s.weight * (penMult o s.size (new p) - penMult o s.size (old p)) else 0 := by
  have hds : s.dst ≠ s.src := fun h => hne h.symm
  have hcase : p = s.src ∨ p = s.dst ∨ (p ≠ s.src ∧ p ≠ s.dst ∧ new p = old p) := by
    by_cases c1 : p = s.src
    · exact Or.inl c1
    · by_cases c2 : p = s.dst
      · exact Or.inr (Or.inl c2)
      · exact Or.inr (Or.inr ⟨c1, c2, h5 p c1 c2⟩)
  have hsd := h6 _ _ hne
  have hsd' := h7 _ _ hne
  have hk : opsSum Φ (penIdx k v) (km1Delta k pins s) = if v ∈ pins then
      s.weight * ((if new p > 1 then 1 else 0) - (if old p > 1 then 1 else 0)) else 0 := by
    rw [km1Delta_pen hn hs hd hne hp]
    split
    · rename_i hv
      obtain ⟨q1, q2⟩ := hold hv
      rcases hcase with rfl | rfl | ⟨c1, c2, c3⟩
      · rw [h1, h3]
        simp only [hne, true_and, false_and, if_false]
        split_ifs <;> first | omega | simp
      · rw [h2, h4]
        simp only [hds, true_and, false_and, if_false]
        split_ifs <;> first | omega | simp
      · rw [c3]; simp [c1, c2]
    · rfl
  have hc : opsSum Φ (penIdx k v) (cutDelta k pins s) = if v ∈ pins ∧ s.size > 1 then
      s.weight * ((if new p = s.size then 1 else 0) - (if old p = s.size then 1 else 0))
      else 0 := by
    rw [cutDelta_pen hn hs hd]
    split
    · rename_i hz
      obtain ⟨q1, q2⟩ := hold hz.1
      rcases hcase with rfl | rfl | ⟨c1, c2, c3⟩
      · rw [h1, h2, h3]
        split_ifs <;> first | omega | simp
      · rw [h1, h2, h4]
        split_ifs <;> first | omega | simp
      · have a1 := h6 _ _ c1
        have a2 := h7 _ _ c2
        rw [c3, h1, h2]
        rw [if_neg (by omega), if_neg (by omega)]; simp
    · rfl
  cases o with
  | km1 => exact hk
  | cut =>
    simp only [gainDelta, hc, penMult]
    by_cases hv : v ∈ pins <;> by_cases hz : s.size > 1 <;> simp [hv, hz]
  | soed =>
    simp only [gainDelta, soedDelta, opsSum_ite, opsSum_append, hk, hc, penMult, opsSum_nil, b2i]
    by_cases hv : v ∈ pins <;> by_cases hz : s.size > 1 <;> simp [hv, hz]
    ring

end
end Verif
