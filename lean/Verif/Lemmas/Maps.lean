import Verif.Model.Maps
import Mathlib.Data.List.Nodup
import Mathlib.Data.List.NodupEquivFin
import Mathlib.Data.Nat.Bitwise
import Mathlib.Data.List.Pairwise
namespace Verif
open SMap (wr)

theorem wr_same {α : Type} (f : Nat → α) (i : Nat) (v : α) : wr f i v i = v := by simp [wr]
theorem wr_other {α : Type} (f : Nat → α) {i j : Nat} (v : α) (h : j ≠ i) : wr f i v j = f j := by
  simp [wr, h]

/-! ### Dense listings -/

/-- the first `n` entries of `dense` list the map `m` -/
structure DenseInv {V : Type} (n : Nat) (dense : Nat → Nat × V) (m : FMap V) : Prop where
  inj : ∀ i < n, ∀ j < n, (dense i).1 = (dense j).1 → i = j
  sound : ∀ i < n, m (dense i).1 = some (dense i).2
  complete : ∀ k v, m k = some v → ∃ i < n, (dense i).1 = k

theorem DenseInv.lists {V : Type} {n : Nat} {dense : Nat → Nat × V} {m : FMap V}
    (h : DenseInv n dense m) : Lists ((List.range n).map dense) m := by
  constructor
  · rw [List.map_map, List.nodup_map_iff_inj_on List.nodup_range]
    intro i hi j hj hij
    exact h.inj i (List.mem_range.1 hi) j (List.mem_range.1 hj) hij
  · intro k v
    simp only [List.mem_map, List.mem_range]
    constructor
    · rintro ⟨i, hi, he⟩
      have := h.sound i hi
      rw [he] at this
      exact this
    · intro hk
      obtain ⟨i, hi, he⟩ := h.complete k v hk
      refine ⟨i, hi, ?_⟩
      have := h.sound i hi
      rw [he, hk] at this
      exact Prod.ext he (Option.some.inj this).symm

theorem DenseInv.empty {V : Type} (dense : Nat → Nat × V) : DenseInv 0 dense (fun _ => none) :=
  ⟨by intros; omega, by intros; omega, by intro k v h; simp at h⟩

theorem DenseInv.push {V : Type} {n : Nat} {dense : Nat → Nat × V} {m : FMap V}
    (h : DenseInv n dense m) {k : Nat} (hk : m k = none) (v : V) :
    DenseInv (n + 1) (wr dense n (k, v)) (fun x => if x = k then some v else m x) := by
  have hne : ∀ i < n, (dense i).1 ≠ k := fun i hi he => by
    have := h.sound i hi; rw [he, hk] at this; simp at this
  have hd : ∀ i < n, wr dense n (k, v) i = dense i := fun i hi => wr_other _ _ (by omega)
  refine ⟨fun i hi j hj hij => ?_, fun i hi => ?_, fun x w hx => ?_⟩
  · by_cases h1 : i = n <;> by_cases h2 : j = n
    · omega
    · rw [h1, wr_same, hd j (by omega)] at hij
      exact absurd hij.symm (hne j (by omega))
    · rw [h2, wr_same, hd i (by omega)] at hij
      exact absurd hij (hne i (by omega))
    · rw [hd i (by omega), hd j (by omega)] at hij
      exact h.inj i (by omega) j (by omega) hij
  · by_cases h1 : i = n
    · rw [h1, wr_same]; simp
    · rw [hd i (by omega)]
      simp [hne i (by omega), h.sound i (by omega)]
  · by_cases hxk : x = k
    · exact ⟨n, by omega, by rw [wr_same]; exact hxk.symm⟩
    · simp only [hxk, if_false] at hx
      obtain ⟨i, hi, he⟩ := h.complete x w hx
      exact ⟨i, by omega, by rw [hd i hi]; exact he⟩

theorem DenseInv.write {V : Type} {n : Nat} {dense : Nat → Nat × V} {m : FMap V}
    (h : DenseInv n dense m) {i : Nat} (hi : i < n) (v : V) :
    DenseInv n (wr dense i ((dense i).1, v)) (fun x => if x = (dense i).1 then some v else m x) := by
  have hk : ∀ j, (wr dense i ((dense i).1, v) j).1 = (dense j).1 := by
    intro j; by_cases hj : j = i
    · rw [hj, wr_same]
    · rw [wr_other _ _ hj]
  refine ⟨fun a ha b hb hab => ?_, fun a ha => ?_, fun x w hx => ?_⟩
  · rw [hk, hk] at hab; exact h.inj a ha b hb hab
  · rw [hk]
    by_cases haj : a = i
    · subst haj; rw [wr_same]; simp
    · rw [wr_other _ _ haj, if_neg (fun he => haj (h.inj a ha i hi he))]
      exact h.sound a ha
  · by_cases hx' : x = (dense i).1
    · exact ⟨i, hi, by rw [hk]; exact hx'.symm⟩
    · simp only [hx', if_false] at hx
      obtain ⟨j, hj, he⟩ := h.complete x w hx
      exact ⟨j, hj, by rw [hk]; exact he⟩

/-! ### `SparseMap` -/
namespace SMap
variable {V : Type}

structure Inv (s : SMap V) (m : FMap V) : Prop extends DenseInv s.size s.dense m where
  back : ∀ i < s.size, s.sparse (s.dense i).1 = i

theorem Inv.idx {s : SMap V} {m : FMap V} (h : s.Inv m) {k : Nat} {v : V} (hk : m k = some v) :
    s.sparse k < s.size ∧ (s.dense (s.sparse k)).1 = k ∧ (s.dense (s.sparse k)).2 = v := by
  obtain ⟨i, hi, he⟩ := h.complete k v hk
  have hb := h.back i hi
  rw [he] at hb
  rw [hb]
  have := h.sound i hi
  rw [he, hk] at this
  exact ⟨hi, he, (Option.some.inj this).symm⟩

theorem Inv.found {s : SMap V} {m : FMap V} (h : s.Inv m) {k : Nat} (h1 : s.sparse k < s.size)
    (h2 : (s.dense (s.sparse k)).1 = k) : m k = some (s.dense (s.sparse k)).2 := by
  have := h.sound _ h1
  rwa [h2] at this

theorem Inv.contains_iff {s : SMap V} {m : FMap V} (h : s.Inv m) (k : Nat) :
    s.contains k = (m k).isSome := by
  unfold contains
  cases hk : m k with
  | none =>
    simp only [Option.isSome_none, Bool.and_eq_false_iff, decide_eq_false_iff_not]
    by_contra hc
    push Not at hc
    have := h.found hc.1 hc.2
    rw [hk] at this; simp at this
  | some v =>
    obtain ⟨h1, h2, _⟩ := h.idx hk
    simp [h1, h2]

theorem Inv.push {s : SMap V} {m : FMap V} (h : s.Inv m) {k : Nat} (hk : m k = none) (v : V) :
    Inv { size := s.size + 1, sparse := wr s.sparse k s.size, dense := wr s.dense s.size (k, v) }
      (fun x => if x = k then some v else m x) := by
  refine ⟨h.toDenseInv.push hk v, fun i hi => ?_⟩
  simp only at hi ⊢
  by_cases h1 : i = s.size
  · rw [h1, wr_same, wr_same]
  · rw [wr_other _ _ h1, wr_other]
    · exact h.back i (by omega)
    · intro he
      have := h.sound i (by omega)
      rw [he, hk] at this; simp at this

theorem Inv.exec {d : V} {s : SMap V} {m : FMap V} (h : s.Inv m) (o : MapOp V) :
    (s.exec d o).Inv (o.apply d m) := by
  cases o with
  | modify k g =>
    simp only [SMap.exec, SMap.modify, MapOp.apply, h.contains_iff k]
    cases hk : m k with
    | none =>
      simp only [Option.isSome_none, Option.getD_none]
      exact h.push hk _
    | some v =>
      obtain ⟨h1, h2, h3⟩ := h.idx hk
      simp only [Option.isSome_some, not_true_eq_false, if_false, Option.getD_some]
      have := h.toDenseInv.write h1 (g v)
      rw [h2] at this
      rw [h2, h3]
      refine ⟨this, fun i hi => ?_⟩
      simp only at hi ⊢
      by_cases h4 : i = s.sparse k
      · rw [h4, wr_same]
      · rw [wr_other _ _ h4]; exact h.back i hi
  | add k v =>
    simp only [SMap.exec, SMap.add, MapOp.apply]
    cases hk : m k with
    | none =>
      rw [if_pos]
      · exact h.push hk v
      · by_contra hc
        push Not at hc
        have := h.found hc.1 hc.2
        rw [hk] at this; simp at this
    | some w =>
      obtain ⟨h1, h2, h3⟩ := h.idx hk
      rw [if_neg (by simp [h2]; omega)]
      have : (fun x => if x = k then some ((some w).getD v) else m x) = m := by
        funext x; by_cases hx : x = k
        · rw [if_pos hx, hx, hk]; rfl
        · rw [if_neg hx]
      rw [this]; exact h
  | remove k =>
    simp only [SMap.exec, SMap.remove, MapOp.apply]
    cases hk : m k with
    | none =>
      rw [if_neg]
      · have : (fun x => if x = k then none else m x) = m := by
          funext x; by_cases hx : x = k
          · rw [if_pos hx, hx, hk]
          · rw [if_neg hx]
        rw [this]; exact h
      · rintro ⟨h1, h2⟩
        have := h.found h1 h2
        rw [hk] at this; simp at this
    | some w =>
      obtain ⟨h1, h2, h3⟩ := h.idx hk
      rw [if_pos ⟨h1, h2⟩]
      set j := s.sparse k with hj
      have hD : ∀ i < s.size - 1,
          wr (wr s.dense j (s.dense (s.size - 1))) (s.size - 1) (s.dense j) i =
            if i = j then s.dense (s.size - 1) else s.dense i := by
        intro i hi
        rw [wr_other _ _ (by omega)]
        by_cases hij : i = j
        · rw [if_pos hij, hij, wr_same]
        · rw [if_neg hij, wr_other _ _ hij]
      have hkey : ∀ i < s.size, i ≠ j → (s.dense i).1 ≠ k := fun i hi hij he =>
        hij (h.inj i hi j h1 (by rw [he, h2]))
      refine ⟨⟨fun a ha b hb hab => ?_, fun a ha => ?_, fun x v hx => ?_⟩, fun a ha => ?_⟩
      · simp only at ha hb hab
        rw [hD a ha, hD b hb] at hab
        split at hab <;> split at hab
        · omega
        · have := h.inj _ (by omega) _ (by omega) hab; omega
        · have := h.inj _ (by omega) _ (by omega) hab; omega
        · exact h.inj _ (by omega) _ (by omega) hab
      · simp only at ha ⊢
        rw [hD a ha]
        split
        · rw [if_neg (hkey _ (by omega) (by omega))]
          exact h.sound _ (by omega)
        · next hn =>
          rw [if_neg (hkey _ (by omega) hn)]
          exact h.sound _ (by omega)
      · simp only
        by_cases hxk : x = k
        · simp [hxk] at hx
        · simp only [hxk, if_false] at hx
          obtain ⟨i, hi, he⟩ := h.complete x v hx
          have hij : i ≠ j := by
            intro hij; rw [hij, h2] at he; exact hxk he.symm
          by_cases hil : i = s.size - 1
          · refine ⟨j, by omega, ?_⟩
            rw [hD j (by omega), if_pos rfl, ← hil]; exact he
          · refine ⟨i, by omega, ?_⟩
            rw [hD i (by omega), if_neg hij]; exact he
      · simp only at ha ⊢
        rw [hD a ha]
        have hyj : (wr (wr s.dense j (s.dense (s.size - 1))) (s.size - 1) (s.dense j) j).1 =
            (s.dense (s.size - 1)).1 := by
          by_cases hjl : j = s.size - 1
          · conv_lhs => rw [hjl, wr_same]
          · rw [wr_other _ _ hjl, wr_same]
        rw [hyj]
        split
        · next haj => rw [wr_same, haj]
        · next haj =>
          rw [wr_other]
          · exact h.back a (by omega)
          · intro he
            have := h.inj _ (by omega) _ (by omega) he
            omega
  | clear =>
    exact ⟨DenseInv.empty _, fun i hi => absurd hi (Nat.not_lt_zero _)⟩

theorem Inv.run {d : V} (os : List (MapOp V)) : ∀ {s : SMap V} {m : FMap V}, s.Inv m →
    (os.foldl (SMap.exec d) s).Inv (os.foldl (MapOp.apply d) m) := by
  induction os with
  | nil => intro s m h; exact h
  | cons o os ih => intro s m h; exact ih (h.exec o)

theorem Inv.create (sparse : Nat → Nat) (dense : Nat → Nat × V) :
    (SMap.create sparse dense).Inv (fun _ => none) :=
  ⟨DenseInv.empty _, fun i hi => absurd hi (Nat.not_lt_zero _)⟩

end SMap

/-! ### Linear probing -/

/-- slot number `i` of the probe sequence of `key` -/
def probe (cap key i : Nat) : Nat := (key + i) % cap

/-- every key sits on its probe sequence behind slots occupied by other keys -/
def LPInv (cap : Nat) (occ : Nat → Option Nat) : Prop :=
  ∀ h < cap, ∀ x, occ h = some x → ∃ i < cap, h = probe cap x i ∧
    ∀ j < i, ∃ y, y ≠ x ∧ occ (probe cap x j) = some y

theorem and_mask (c x : Nat) : x &&& (2 ^ c - 1) = x % 2 ^ c := Nat.and_two_pow_sub_one_eq_mod x c

theorem probe_next (c key i : Nat) : (probe (2 ^ c) key i + 1) &&& (2 ^ c - 1) = probe (2 ^ c) key (i + 1) := by
  rw [and_mask]; unfold probe
  rw [Nat.mod_add_mod, Nat.add_assoc]

theorem lpFind_skip {occ : Nat → Option Nat} {c key : Nat} (n : Nat) :
    ∀ (i fuel : Nat), (∀ j, i ≤ j → j < i + n → ∃ y, y ≠ key ∧ occ (probe (2 ^ c) key j) = some y) →
    lpFind occ (2 ^ c) key (fuel + n) (probe (2 ^ c) key i) =
      lpFind occ (2 ^ c) key fuel (probe (2 ^ c) key (i + n)) := by
  induction n with
  | zero => intro i fuel _; rfl
  | succ n ih =>
    intro i fuel h
    obtain ⟨y, hy, ho⟩ := h i (le_refl _) (by omega)
    rw [show fuel + (n + 1) = (fuel + n) + 1 by omega]
    conv_lhs => unfold lpFind
    rw [ho]
    simp only [hy, if_false]
    rw [probe_next, ih (i + 1) fuel (fun j h1 h2 => h j (by omega) (by omega)),
      show i + 1 + n = i + (n + 1) by omega]

theorem lpFind_found {occ : Nat → Option Nat} {c : Nat} (hinv : LPInv (2 ^ c) occ) {h x : Nat}
    (hh : h < 2 ^ c) (ho : occ h = some x) :
    lpFind occ (2 ^ c) x (2 ^ c) (x &&& (2 ^ c - 1)) = some (h, true) := by
  obtain ⟨i, hi, he, hj⟩ := hinv h hh x ho
  have h0 : x &&& (2 ^ c - 1) = probe (2 ^ c) x 0 := by rw [and_mask]; rfl
  have := lpFind_skip (occ := occ) (c := c) (key := x) i 0 (2 ^ c - i)
    (fun j _ h2 => hj j (by omega))
  rw [show (2 ^ c - i) + i = 2 ^ c by omega] at this
  rw [h0, this, Nat.zero_add, ← he, show 2 ^ c - i = (2 ^ c - i - 1) + 1 by omega]
  conv_lhs => unfold lpFind
  rw [ho]
  simp

theorem exists_probe {cap : Nat} (hc : 0 < cap) (key h : Nat) (hh : h < cap) :
    ∃ i < cap, probe cap key i = h := by
  refine ⟨(h + (cap - key % cap)) % cap, Nat.mod_lt _ hc, ?_⟩
  unfold probe
  have hk := Nat.mod_lt key hc
  rw [Nat.add_mod, Nat.mod_mod, ← Nat.add_mod, ← Nat.mod_add_mod,
    show key % cap + (h + (cap - key % cap)) = h + cap by omega, Nat.add_mod_right,
    Nat.mod_eq_of_lt hh]

theorem lpFind_free {occ : Nat → Option Nat} {c key : Nat}
    (habs : ∀ h < 2 ^ c, occ h ≠ some key) (hfree : ∃ h < 2 ^ c, occ h = none) :
    ∃ i < 2 ^ c, lpFind occ (2 ^ c) key (2 ^ c) (key &&& (2 ^ c - 1)) =
        some (probe (2 ^ c) key i, false) ∧
      occ (probe (2 ^ c) key i) = none ∧
      ∀ j < i, ∃ y, y ≠ key ∧ occ (probe (2 ^ c) key j) = some y := by
  have hpos : 0 < 2 ^ c := Nat.two_pow_pos c
  obtain ⟨h, hh, ho⟩ := hfree
  obtain ⟨i0, hi0, hp0⟩ := exists_probe hpos key h hh
  have hex : ∃ i, occ (probe (2 ^ c) key i) = none := ⟨i0, by rw [hp0]; exact ho⟩
  classical
  let i := Nat.find hex
  have hi : occ (probe (2 ^ c) key i) = none := Nat.find_spec hex
  have hmin : ∀ j < i, ∃ y, y ≠ key ∧ occ (probe (2 ^ c) key j) = some y := by
    intro j hj
    have := Nat.find_min hex hj
    cases hy : occ (probe (2 ^ c) key j) with
    | none => exact absurd hy this
    | some y =>
      refine ⟨y, ?_, rfl⟩
      intro he
      exact habs (probe (2 ^ c) key j) (Nat.mod_lt _ hpos) (by rw [hy, he])
  have hile : i ≤ i0 := Nat.find_min' hex (by rw [hp0]; exact ho)
  have h0 : key &&& (2 ^ c - 1) = probe (2 ^ c) key 0 := by rw [and_mask]; rfl
  refine ⟨i, by omega, ?_, hi, hmin⟩
  have := lpFind_skip (occ := occ) (c := c) (key := key) i 0 (2 ^ c - i)
    (fun j _ h2 => hmin j (by omega))
  rw [show (2 ^ c - i) + i = 2 ^ c by omega] at this
  rw [h0, this, Nat.zero_add, show 2 ^ c - i = (2 ^ c - i - 1) + 1 by omega]
  conv_lhs => unfold lpFind
  rw [hi]

theorem LPInv.insert {cap : Nat} {occ : Nat → Option Nat} (hinv : LPInv cap occ) {key i : Nat}
    (hi : i < cap) (hfree : occ (probe cap key i) = none)
    (hocc : ∀ j < i, ∃ y, y ≠ key ∧ occ (probe cap key j) = some y) :
    LPInv cap (fun h => if h = probe cap key i then some key else occ h) := by
  intro h hh x hx
  by_cases he : h = probe cap key i
  · simp only [he, if_true, Option.some.injEq] at hx
    subst hx
    refine ⟨i, hi, he, fun j hj => ?_⟩
    obtain ⟨y, h1, h2⟩ := hocc j hj
    refine ⟨y, h1, ?_⟩
    have hc : probe cap key j ≠ probe cap key i := fun hc => by rw [hc, hfree] at h2; simp at h2
    simp only [hc, if_false, h2]
  · simp only [he, if_false] at hx
    obtain ⟨i', h1, h2, h3⟩ := hinv h hh x hx
    refine ⟨i', h1, h2, fun j hj => ?_⟩
    obtain ⟨y, h4, h5⟩ := h3 j hj
    refine ⟨y, h4, ?_⟩
    have hc : probe cap x j ≠ probe cap key i := fun hc => by rw [hc, hfree] at h5; simp at h5
    simp only [hc, if_false, h5]

theorem LPInv.uniq {cap : Nat} {occ : Nat → Option Nat} (hinv : LPInv cap occ) {h h' x : Nat}
    (hh : h < cap) (hh' : h' < cap) (h1 : occ h = some x) (h2 : occ h' = some x) : h = h' := by
  obtain ⟨i, hi, he, hj⟩ := hinv h hh x h1
  obtain ⟨i', hi', he', hj'⟩ := hinv h' hh' x h2
  rcases Nat.lt_trichotomy i i' with hlt | heq | hgt
  · obtain ⟨y, h3, h4⟩ := hj' i hlt
    rw [← he, h1] at h4
    exact absurd (Option.some.inj h4).symm h3
  · rw [he, he', heq]
  · obtain ⟨y, h3, h4⟩ := hj i' hgt
    rw [← he', h2] at h4
    exact absurd (Option.some.inj h4).symm h3

end Verif
