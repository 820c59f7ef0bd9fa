import Verif.Lemmas.Maps
import Mathlib.Data.Fintype.Card
namespace Verif
open SMap (wr)

/-- insertion into a plain map -/
def FMap.ins {V : Type} (m : FMap V) (k : Nat) (v : V) : FMap V := fun x => if x = k then some v else m x

theorem ins_foldl {V : Type} (l : List (Nat × V)) : ∀ (m : FMap V), (l.map Prod.fst).Nodup →
    ∀ x, (∀ v, (x, v) ∈ l → l.foldl (fun m p => FMap.ins m p.1 p.2) m x = some v) ∧
      ((∀ v, (x, v) ∉ l) → l.foldl (fun m p => FMap.ins m p.1 p.2) m x = m x) := by
  induction l with
  | nil => intro m _ x; simp
  | cons p l ih =>
    intro m hn x
    rw [List.map_cons, List.nodup_cons] at hn
    obtain ⟨h1, h2⟩ := ih (FMap.ins m p.1 p.2) hn.2 x
    rw [List.foldl_cons]
    constructor
    · intro v hv
      rcases List.mem_cons.1 hv with he | hv
      · rw [h2]
        · simp [FMap.ins, ← he]
        · intro w hw
          apply hn.1
          rw [← he]
          exact List.mem_map.2 ⟨_, hw, rfl⟩
      · exact h1 v hv
    · intro hv
      rw [h2 (fun v hv' => hv v (List.mem_cons_of_mem _ hv'))]
      simp only [FMap.ins]
      rw [if_neg]
      intro he
      exact hv p.2 (by rw [he]; exact List.mem_cons_self)

theorem ins_foldl_lists {V : Type} {l : List (Nat × V)} {m : FMap V} (h : Lists l m) :
    l.foldl (fun m p => FMap.ins m p.1 p.2) (fun _ => none) = m := by
  funext x
  obtain ⟨h1, h2⟩ := ins_foldl l (fun _ => none) h.1 x
  cases hx : m x with
  | none =>
    apply h2
    intro v hv
    rw [(h.2 x v).1 hv] at hx; simp at hx
  | some v => exact h1 v ((h.2 x v).2 hx)

theorem ins_push {V : Type} (m : FMap V) (k : Nat) (v : V) :
    FMap.ins m k v = fun x => if x = k then some v else m x := rfl

namespace HMap
variable {V : Type}

structure Inv (c : Nat) (s : HMap V) (m : FMap V) : Prop extends DenseInv s.size s.dense m where
  cap : s.cap = 2 ^ c
  lp : LPInv (2 ^ c) s.occ
  slot : ∀ h < 2 ^ c, (s.sparse h).2 = s.ts → (s.sparse h).1 < s.size
  stale : ∀ h, (s.sparse h).2 ≤ s.ts
  has : ∀ i < s.size, ∃ h < 2 ^ c, s.sparse h = (i, s.ts)
  pos : 0 < s.ts

theorem occ_some {s : HMap V} {h x : Nat} (ho : s.occ h = some x) :
    (s.sparse h).2 = s.ts ∧ (s.dense (s.sparse h).1).1 = x := by
  unfold occ at ho
  split at ho
  · next h1 => exact ⟨h1, Option.some.inj ho⟩
  · simp at ho

theorem Inv.free {c : Nat} {s : HMap V} {m : FMap V} (h : s.Inv c m) (hs : s.size < s.cap) :
    ∃ i < 2 ^ c, s.occ i = none := by
  by_contra hc
  push Not at hc
  have hinj : Function.Injective (fun i : Fin (2 ^ c) =>
      (⟨(s.sparse i).1, h.slot i i.2 (by
        cases ho : s.occ i with
        | none => exact absurd ho (hc i i.2)
        | some x => exact (occ_some ho).1)⟩ : Fin s.size)) := by
    intro i j hij
    simp only [Fin.mk.injEq] at hij
    cases hi : s.occ i with
    | none => exact absurd hi (hc i i.2)
    | some x =>
      cases hj : s.occ j with
      | none => exact absurd hj (hc j j.2)
      | some y =>
        have h1 := (occ_some hi).2
        have h2 := (occ_some hj).2
        rw [hij, h2] at h1
        rw [h1] at hj
        exact Fin.ext (h.lp.uniq i.2 j.2 hi hj)
  have := Fintype.card_le_of_injective _ hinj
  simp only [Fintype.card_fin] at this
  rw [h.cap] at hs
  omega

theorem Inv.find_some {c : Nat} {s : HMap V} {m : FMap V} (h : s.Inv c m) {k : Nat} {v : V}
    (hk : m k = some v) : ∃ p < 2 ^ c, s.find k = some (p, true) ∧ (s.sparse p).2 = s.ts ∧
      (s.sparse p).1 < s.size ∧ s.dense (s.sparse p).1 = (k, v) := by
  obtain ⟨i, hi, he⟩ := h.complete k v hk
  obtain ⟨p, hp, hsp⟩ := h.has i hi
  have hocc : s.occ p = some k := by unfold occ; rw [hsp]; simp [he]
  have hv := h.sound i hi
  rw [he, hk] at hv
  refine ⟨p, hp, ?_, by rw [hsp], by rw [hsp]; exact hi, ?_⟩
  · unfold find; rw [h.cap]; exact lpFind_found h.lp hp hocc
  · rw [hsp]; exact Prod.ext he (Option.some.inj hv).symm

theorem Inv.find_none {c : Nat} {s : HMap V} {m : FMap V} (h : s.Inv c m) {k : Nat}
    (hk : m k = none) (hs : s.size < s.cap) : ∃ i < 2 ^ c,
      s.find k = some (probe (2 ^ c) k i, false) ∧ s.occ (probe (2 ^ c) k i) = none ∧
      ∀ j < i, ∃ y, y ≠ k ∧ s.occ (probe (2 ^ c) k j) = some y := by
  unfold find
  rw [h.cap]
  refine lpFind_free (fun p hp ho => ?_) (h.free hs)
  obtain ⟨h1, h2⟩ := occ_some ho
  have := h.sound _ (h.slot p hp h1)
  rw [h2, hk] at this
  simp at this

theorem Inv.addElement {c : Nat} {s : HMap V} {m : FMap V} (h : s.Inv c m) {k : Nat} (v : V)
    (hk : m k = none) {i : Nat} (hi : i < 2 ^ c) (ho : s.occ (probe (2 ^ c) k i) = none)
    (hj : ∀ j < i, ∃ y, y ≠ k ∧ s.occ (probe (2 ^ c) k j) = some y) :
    (s.addElement k v (probe (2 ^ c) k i)).Inv c (FMap.ins m k v) := by
  have hocc : ∀ p < 2 ^ c, (s.addElement k v (probe (2 ^ c) k i)).occ p =
      if p = probe (2 ^ c) k i then some k else s.occ p := by
    intro p hp
    unfold occ HMap.addElement
    by_cases hpe : p = probe (2 ^ c) k i
    · simp [hpe, wr_same]
    · simp only [wr_other _ _ hpe, hpe, if_false]
      by_cases hts : (s.sparse p).2 = s.ts
      · simp only [hts, if_true]
        rw [wr_other _ _ (by have := h.slot p hp hts; omega)]
      · simp only [hts, if_false]
  refine ⟨h.toDenseInv.push hk v, h.cap, ?_, ?_, ?_, ?_, h.pos⟩
  · have := h.lp.insert hi ho hj
    intro p hp x hx
    rw [hocc p hp] at hx
    obtain ⟨i', h1, h2, h3⟩ := this p hp x hx
    refine ⟨i', h1, h2, fun j hj' => ?_⟩
    rw [hocc (probe (2 ^ c) x j) (Nat.mod_lt _ (Nat.two_pow_pos c))]
    exact h3 j hj'
  · intro p hp hts
    unfold HMap.addElement at hts ⊢
    simp only at hts ⊢
    by_cases hpe : p = probe (2 ^ c) k i
    · rw [hpe, wr_same]; omega
    · rw [wr_other _ _ hpe] at hts ⊢
      have := h.slot p hp hts; omega
  · intro p
    unfold HMap.addElement
    simp only
    by_cases hpe : p = probe (2 ^ c) k i
    · rw [hpe, wr_same]
    · rw [wr_other _ _ hpe]; exact h.stale p
  · intro j hj'
    unfold HMap.addElement at hj' ⊢
    simp only at hj' ⊢
    by_cases hjs : j = s.size
    · exact ⟨_, Nat.mod_lt _ (Nat.two_pow_pos c), by rw [hjs]; exact wr_same _ _ _⟩
    · obtain ⟨p, hp, he⟩ := h.has j (by omega)
      refine ⟨p, hp, ?_⟩
      rw [wr_other, he]
      intro hpe
      rw [← hpe] at ho
      unfold occ at ho
      rw [he] at ho
      simp at ho

theorem Inv.writeAt {c : Nat} {s : HMap V} {m : FMap V} (h : s.Inv c m) {k : Nat} {v : V} {p : Nat}
    (h2 : (s.sparse p).1 < s.size) (h3 : s.dense (s.sparse p).1 = (k, v)) (g : V → V) :
    (s.writeAt p g).Inv c (FMap.ins m k (g v)) := by
  have hkey : ∀ j, ((s.writeAt p g).dense j).1 = (s.dense j).1 := by
    intro j; unfold HMap.writeAt; simp only
    by_cases hj : j = (s.sparse p).1
    · rw [hj, wr_same]
    · rw [wr_other _ _ hj]
  have hocc : (s.writeAt p g).occ = s.occ := by
    funext q; unfold occ
    rw [hkey]; rfl
  refine ⟨?_, h.cap, ?_, h.slot, h.stale, h.has, h.pos⟩
  · have := h.toDenseInv.write h2 (g v)
    rw [h3] at this
    unfold HMap.writeAt
    simp only [h3]
    exact this
  · rw [hocc]; exact h.lp

theorem Inv.addWrite {c : Nat} {s : HMap V} {m : FMap V} (h : s.Inv c m) {k : Nat} (d : V)
    (hk : m k = none) {i : Nat} (hi : i < 2 ^ c) (ho : s.occ (probe (2 ^ c) k i) = none)
    (hj : ∀ j < i, ∃ y, y ≠ k ∧ s.occ (probe (2 ^ c) k j) = some y) (g : V → V) :
    ((s.addElement k d (probe (2 ^ c) k i)).writeAt (probe (2 ^ c) k i) g).Inv c
      (FMap.ins m k (g d)) := by
  have h1 := h.addElement d hk hi ho hj
  have h2 := h1.writeAt (k := k) (v := d) (p := probe (2 ^ c) k i)
    (by unfold HMap.addElement; simp only; rw [wr_same]; simp)
    (by unfold HMap.addElement; simp only; rw [wr_same, wr_same]) g
  have : FMap.ins (FMap.ins m k d) k (g d) = FMap.ins m k (g d) := by
    funext x; unfold FMap.ins; split <;> simp_all
  rwa [this] at h2

theorem Inv.clear {c : Nat} {s : HMap V} {m : FMap V} (h : s.Inv c m) :
    s.clear.Inv c (fun _ => none) := by
  have hst : ∀ p, (s.sparse p).2 ≠ s.ts + 1 := fun p => by have := h.stale p; omega
  refine ⟨DenseInv.empty _, h.cap, ?_, ?_, ?_, ?_, ?_⟩
  · intro p hp x hx
    unfold occ HMap.clear at hx
    simp only at hx
    rw [if_neg (hst p)] at hx
    simp at hx
  · intro p hp hts; exact absurd hts (hst p)
  · intro p; have := h.stale p; unfold HMap.clear; simp only; omega
  · intro i hi; exact absurd hi (Nat.not_lt_zero _)
  · unfold HMap.clear; simp only; omega

theorem Inv.createRaw (c : Nat) (d : V) (cap : Nat) (hc : cap = 2 ^ c) :
    Inv c { cap := cap, size := 0, ts := 1, sparse := fun _ => (0, 0), dense := fun _ => (0, d) }
      (fun _ => none) := by
  refine ⟨DenseInv.empty _, hc, ?_, ?_, ?_, ?_, ?_⟩
  · intro p hp x hx
    simp [occ] at hx
  · intro p hp hts; simp at hts
  · intro p; simp
  · intro i hi; exact absurd hi (Nat.not_lt_zero _)
  · simp

theorem ins_eq_modify {m : FMap V} {d : V} {k : Nat} {g : V → V} :
    (MapOp.modify k g).apply d m = FMap.ins m k (g ((m k).getD d)) := rfl

theorem Inv.rehash {c : Nat} (l : List (Nat × V)) : ∀ {s : HMap V} {m : FMap V}, s.Inv c m →
    (l.map Prod.fst).Nodup → (∀ p ∈ l, m p.1 = none) → s.size + l.length < s.cap →
    ∃ s', s.rehash l = some s' ∧ s'.Inv c (l.foldl (fun m p => FMap.ins m p.1 p.2) m) ∧
      s'.size = s.size + l.length := by
  induction l with
  | nil => intro s m h _ _ _; exact ⟨s, rfl, h, rfl⟩
  | cons p l ih =>
    intro s m h hn hab hs
    rw [List.map_cons, List.nodup_cons] at hn
    rw [List.length_cons] at hs
    obtain ⟨i, hi, hf, ho, hj⟩ := h.find_none (hab p List.mem_cons_self) (by omega)
    have h1 := h.addElement p.2 (hab p List.mem_cons_self) hi ho hj
    obtain ⟨s', h2, h3, h4⟩ := ih h1 hn.2 (fun q hq => by
      unfold FMap.ins
      rw [if_neg]
      · exact hab q (List.mem_cons_of_mem _ hq)
      · intro he; exact hn.1 (by rw [← he]; exact List.mem_map.2 ⟨q, hq, rfl⟩))
      (by unfold HMap.addElement; simp only; omega)
    refine ⟨s', ?_, h3, ?_⟩
    · unfold HMap.rehash
      obtain ⟨k, v⟩ := p
      simp only [hf]
      exact h2
    · rw [h4]; unfold HMap.addElement; simp only [List.length_cons]; omega

theorem Inv.grow {c : Nat} {d : V} {s : HMap V} {m : FMap V} (h : s.Inv c m) (hs : s.size < s.cap) :
    ∃ s', s.grow d = some s' ∧ s'.Inv (c + 1) m ∧ s'.size = s.size := by
  have hc : 2 * s.cap = 2 ^ (c + 1) := by rw [h.cap, Nat.pow_succ]; omega
  have hl := h.toDenseInv.lists
  obtain ⟨s', h1, h2, h3⟩ := (Inv.createRaw (c + 1) d (2 * s.cap) hc).rehash s.toList hl.1
    (fun _ _ => rfl) (by unfold toList; simp; omega)
  refine ⟨s', h1, ?_, ?_⟩
  · rw [← ins_foldl_lists hl]; exact h2
  · rw [h3]; unfold toList; simp

theorem Inv.execFixed {c : Nat} {d : V} {s : HMap V} {m : FMap V} (h : s.Inv c m) {k : Nat}
    {g : V → V} (hs : s.size < s.cap) (hs' : (m k).isSome ∨ s.size + 1 < s.cap) :
    ∃ s', s.execFixed d (.modify k g) = some s' ∧ s'.Inv c ((MapOp.modify k g).apply d m) ∧
      s'.size < s'.cap ∧ s'.cap = s.cap := by
  rw [ins_eq_modify]
  simp only [HMap.execFixed, HMap.modifyFixed]
  cases hk : m k with
  | some v =>
    obtain ⟨p, hp, hf, h1, h2, h3⟩ := h.find_some hk
    exact ⟨s.writeAt p g, by rw [hf], by simpa using h.writeAt h2 h3 g, hs, rfl⟩
  | none =>
    obtain ⟨i, hi, hf, ho, hj⟩ := h.find_none hk hs
    refine ⟨(s.addElement k d (probe (2 ^ c) k i)).writeAt (probe (2 ^ c) k i) g, by rw [hf],
      by simpa using h.addWrite d hk hi ho hj g, ?_, rfl⟩
    rw [hk] at hs'
    simpa [HMap.writeAt, HMap.addElement] using hs'

theorem Inv.execDyn {c : Nat} {d : V} {s : HMap V} {m : FMap V} (h : s.Inv c m) {k : Nat}
    {g : V → V} (hs : s.size < s.cap) :
    ∃ c' s', s.execDyn d (.modify k g) = some s' ∧ s'.Inv c' ((MapOp.modify k g).apply d m) ∧
      s'.size < s'.cap := by
  rw [ins_eq_modify]
  simp only [HMap.execDyn, HMap.modifyDyn]
  cases hk : m k with
  | some v =>
    obtain ⟨p, hp, hf, h1, h2, h3⟩ := h.find_some hk
    exact ⟨c, s.writeAt p g, by rw [hf], by simpa using h.writeAt h2 h3 g, hs⟩
  | none =>
    obtain ⟨i, hi, hf, ho, hj⟩ := h.find_none hk hs
    rw [hf]
    simp only
    split
    · obtain ⟨s1, h1, h2, h3⟩ := h.grow (d := d) hs
      have hcap1 : s1.cap = 2 * s.cap := by rw [h2.cap, h.cap, Nat.pow_succ]; omega
      obtain ⟨i', hi', hf', ho', hj'⟩ := h2.find_none hk (by omega)
      refine ⟨c + 1, (s1.addElement k d (probe (2 ^ (c + 1)) k i')).writeAt (probe (2 ^ (c + 1)) k i') g,
        by rw [h1]; simp only [hf'], by simpa using h2.addWrite d hk hi' ho' hj' g, ?_⟩
      simp [HMap.writeAt, HMap.addElement]
      omega
    · next hlt =>
      refine ⟨c, _, rfl, by simpa using h.addWrite d hk hi ho hj g, ?_⟩
      simp [HMap.writeAt, HMap.addElement]
      omega

theorem Inv.query {c : Nat} {s : HMap V} {m : FMap V} (h : s.Inv c m) (hs : s.size < s.cap)
    (k : Nat) : s.contains k = some (m k).isSome ∧ s.getIfContained k = some (m k) := by
  unfold HMap.contains HMap.getIfContained
  cases hk : m k with
  | some v =>
    obtain ⟨p, hp, hf, h1, h2, h3⟩ := h.find_some hk
    rw [hf]
    simp [h3]
  | none =>
    obtain ⟨i, hi, hf, ho, hj⟩ := h.find_none hk hs
    rw [hf]
    simp

end HMap

/-! ### `DynamicFlatMap` -/
namespace FlatMap
variable {V : Type}

structure Inv (c : Nat) (s : FlatMap V) (m : FMap V) : Prop where
  cap : s.cap = 2 ^ c
  lp : LPInv (2 ^ c) s.occ
  sound : ∀ h < 2 ^ c, (s.elems h).2 = s.ts → m (s.elems h).1.1 = some (s.elems h).1.2
  complete : ∀ k v, m k = some v → ∃ h < 2 ^ c, (s.elems h).2 = s.ts ∧ (s.elems h).1.1 = k
  stale : ∀ h, (s.elems h).2 ≤ s.ts
  count : (List.range (2 ^ c)).countP (fun h => (s.elems h).2 = s.ts) = s.size
  pos : 0 < s.ts

theorem occ_some {s : FlatMap V} {h x : Nat} (ho : s.occ h = some x) :
    (s.elems h).2 = s.ts ∧ (s.elems h).1.1 = x := by
  unfold occ at ho
  split at ho
  · next h1 => exact ⟨h1, Option.some.inj ho⟩
  · simp at ho

theorem occ_of {s : FlatMap V} {h : Nat} (ho : (s.elems h).2 = s.ts) :
    s.occ h = some (s.elems h).1.1 := by unfold occ; rw [if_pos ho]

theorem Inv.free {c : Nat} {s : FlatMap V} {m : FMap V} (h : s.Inv c m) (hs : s.size < s.cap) :
    ∃ i < 2 ^ c, s.occ i = none := by
  by_contra hc
  push Not at hc
  have : (List.range (2 ^ c)).countP (fun h => (s.elems h).2 = s.ts) = (List.range (2 ^ c)).length := by
    rw [List.countP_eq_length]
    intro i hi
    cases ho : s.occ i with
    | none => exact absurd ho (hc i (List.mem_range.1 hi))
    | some x => simpa using (occ_some ho).1
  rw [h.count, List.length_range] at this
  rw [h.cap] at hs
  omega

theorem Inv.find_some {c : Nat} {s : FlatMap V} {m : FMap V} (h : s.Inv c m) {k : Nat} {v : V}
    (hk : m k = some v) : ∃ p < 2 ^ c, s.find k = some (p, true) ∧ s.elems p = ((k, v), s.ts) := by
  obtain ⟨p, hp, h1, h2⟩ := h.complete k v hk
  have hocc : s.occ p = some k := by rw [occ_of h1, h2]
  have hv := h.sound p hp h1
  rw [h2, hk] at hv
  refine ⟨p, hp, ?_, ?_⟩
  · unfold find; rw [h.cap]; exact lpFind_found h.lp hp hocc
  · exact Prod.ext (Prod.ext h2 (Option.some.inj hv).symm) h1

theorem Inv.find_none {c : Nat} {s : FlatMap V} {m : FMap V} (h : s.Inv c m) {k : Nat}
    (hk : m k = none) (hs : s.size < s.cap) : ∃ i < 2 ^ c,
      s.find k = some (probe (2 ^ c) k i, false) ∧ s.occ (probe (2 ^ c) k i) = none ∧
      ∀ j < i, ∃ y, y ≠ k ∧ s.occ (probe (2 ^ c) k j) = some y := by
  unfold find
  rw [h.cap]
  refine lpFind_free (fun p hp ho => ?_) (h.free hs)
  obtain ⟨h1, h2⟩ := occ_some ho
  have := h.sound _ hp h1
  rw [h2, hk] at this
  simp at this

theorem countP_wr {α : Type} (f : Nat → α) (p : α → Bool) (i : Nat) (v : α) (n : Nat) (hi : i < n)
    (h0 : p (f i) = false) (h1 : p v = true) :
    (List.range n).countP (fun x => p (wr f i v x)) = (List.range n).countP (fun x => p (f x)) + 1 := by
  induction n with
  | zero => omega
  | succ n ih =>
    rw [List.range_succ, List.countP_append, List.countP_append]
    by_cases hin : i = n
    · subst hin
      have : (List.range i).countP (fun x => p (wr f i v x)) = (List.range i).countP (fun x => p (f x)) := by
        apply List.countP_congr
        intro x hx
        have := List.mem_range.1 hx
        rw [wr_other _ _ (by omega)]
      rw [this]
      simp [wr_same, h0, h1]
    · rw [ih (by omega)]
      simp only [List.countP_singleton, wr_other f v (show n ≠ i by omega)]
      omega

theorem Inv.addElement {c : Nat} {s : FlatMap V} {m : FMap V} (h : s.Inv c m) {k : Nat} (v : V)
    (hk : m k = none) {i : Nat} (hi : i < 2 ^ c) (ho : s.occ (probe (2 ^ c) k i) = none)
    (hj : ∀ j < i, ∃ y, y ≠ k ∧ s.occ (probe (2 ^ c) k j) = some y) :
    (s.addElement k v (probe (2 ^ c) k i)).Inv c (FMap.ins m k v) := by
  have hpl : probe (2 ^ c) k i < 2 ^ c := Nat.mod_lt _ (Nat.two_pow_pos c)
  have hstale : (s.elems (probe (2 ^ c) k i)).2 ≠ s.ts := by
    intro he; rw [occ_of he] at ho; simp at ho
  have hocc : (s.addElement k v (probe (2 ^ c) k i)).occ =
      fun p => if p = probe (2 ^ c) k i then some k else s.occ p := by
    funext p
    unfold occ FlatMap.addElement
    by_cases hpe : p = probe (2 ^ c) k i
    · simp [hpe, wr_same]
    · simp only [wr_other _ _ hpe, hpe, if_false]
  refine ⟨h.cap, by rw [hocc]; exact h.lp.insert hi ho hj, ?_, ?_, ?_, ?_, h.pos⟩
  · intro p hp hts
    unfold FlatMap.addElement at hts ⊢
    simp only at hts ⊢
    by_cases hpe : p = probe (2 ^ c) k i
    · rw [hpe, wr_same]; simp [FMap.ins]
    · rw [wr_other _ _ hpe] at hts ⊢
      have := h.sound p hp hts
      unfold FMap.ins
      rw [if_neg, this]
      intro he; rw [he, hk] at this; simp at this
  · intro x w hx
    unfold FlatMap.addElement
    simp only
    by_cases hxk : x = k
    · exact ⟨_, hpl, by rw [wr_same], by rw [wr_same]; exact hxk.symm⟩
    · unfold FMap.ins at hx
      rw [if_neg hxk] at hx
      obtain ⟨p, hp, h1, h2⟩ := h.complete x w hx
      have hne : p ≠ probe (2 ^ c) k i := fun he => hstale (by rw [← he]; exact h1)
      exact ⟨p, hp, by rw [wr_other _ _ hne]; exact h1, by rw [wr_other _ _ hne]; exact h2⟩
  · intro p
    unfold FlatMap.addElement
    simp only
    by_cases hpe : p = probe (2 ^ c) k i
    · rw [hpe, wr_same]
    · rw [wr_other _ _ hpe]; exact h.stale p
  · unfold FlatMap.addElement
    simp only
    rw [← h.count]
    exact countP_wr s.elems (fun e => decide (e.2 = s.ts)) _ _ _ hpl (by simpa using hstale) (by simp)

theorem Inv.writeAt {c : Nat} {s : FlatMap V} {m : FMap V} (h : s.Inv c m) {k : Nat} {v : V} {p : Nat}
    (hp : p < 2 ^ c) (h3 : s.elems p = ((k, v), s.ts)) (g : V → V) :
    (s.writeAt p g).Inv c (FMap.ins m k (g v)) := by
  have hkey : ∀ j, ((s.writeAt p g).elems j).1.1 = (s.elems j).1.1 := by
    intro j; unfold FlatMap.writeAt; simp only
    by_cases hj : j = p
    · rw [hj, wr_same]
    · rw [wr_other _ _ hj]
  have hts : ∀ j, ((s.writeAt p g).elems j).2 = (s.elems j).2 := by
    intro j; unfold FlatMap.writeAt; simp only
    by_cases hj : j = p
    · rw [hj, wr_same]
    · rw [wr_other _ _ hj]
  have hts' : (s.writeAt p g).ts = s.ts := rfl
  have hocc : (s.writeAt p g).occ = s.occ := by
    funext q; unfold occ
    rw [hkey, hts, hts']
  refine ⟨h.cap, by rw [hocc]; exact h.lp, ?_, ?_, ?_, ?_, h.pos⟩
  · intro q hq hqt
    rw [hts, hts'] at hqt
    rw [hkey]
    unfold FMap.ins FlatMap.writeAt
    simp only
    by_cases hqp : q = p
    · rw [hqp, wr_same, h3]; simp
    · rw [wr_other _ _ hqp]
      rw [if_neg]
      · exact h.sound q hq hqt
      · intro he
        apply hqp
        apply h.lp.uniq hq hp (x := k)
        · rw [occ_of hqt, he]
        · rw [occ_of (by rw [h3]), h3]
  · intro x w hx
    by_cases hxk : x = k
    · exact ⟨p, hp, by rw [hts, hts', h3], by rw [hkey, h3]; exact hxk.symm⟩
    · unfold FMap.ins at hx
      rw [if_neg hxk] at hx
      obtain ⟨q, hq, h1, h2⟩ := h.complete x w hx
      exact ⟨q, hq, by rw [hts, hts']; exact h1, by rw [hkey]; exact h2⟩
  · intro q; rw [hts, hts']; exact h.stale q
  · have : (fun q => decide (((s.writeAt p g).elems q).2 = (s.writeAt p g).ts)) =
      (fun q => decide ((s.elems q).2 = s.ts)) := by
      funext q; rw [hts, hts']
    rw [this]; exact h.count

theorem Inv.addWrite {c : Nat} {s : FlatMap V} {m : FMap V} (h : s.Inv c m) {k : Nat} (d : V)
    (hk : m k = none) {i : Nat} (hi : i < 2 ^ c) (ho : s.occ (probe (2 ^ c) k i) = none)
    (hj : ∀ j < i, ∃ y, y ≠ k ∧ s.occ (probe (2 ^ c) k j) = some y) (g : V → V) :
    ((s.addElement k d (probe (2 ^ c) k i)).writeAt (probe (2 ^ c) k i) g).Inv c
      (FMap.ins m k (g d)) := by
  have h1 := h.addElement d hk hi ho hj
  have h2 := h1.writeAt (k := k) (v := d) (p := probe (2 ^ c) k i)
    (Nat.mod_lt _ (Nat.two_pow_pos c))
    (by unfold FlatMap.addElement; simp only; rw [wr_same]) g
  have : FMap.ins (FMap.ins m k d) k (g d) = FMap.ins m k (g d) := by
    funext x; unfold FMap.ins; split <;> simp_all
  rwa [this] at h2

theorem countP_zero_of {n : Nat} {p : Nat → Bool} (h : ∀ i, p i = false) : (List.range n).countP p = 0 := by
  rw [List.countP_eq_zero]; intro i _; simp [h i]

theorem Inv.clear {c : Nat} {s : FlatMap V} {m : FMap V} (h : s.Inv c m) :
    s.clear.Inv c (fun _ => none) := by
  have hst : ∀ p, (s.elems p).2 ≠ s.ts + 1 := fun p => by have := h.stale p; omega
  refine ⟨h.cap, ?_, ?_, ?_, ?_, ?_, ?_⟩
  · intro p hp x hx
    unfold occ FlatMap.clear at hx
    simp only at hx
    rw [if_neg (hst p)] at hx
    simp at hx
  · intro p hp hts; exact absurd hts (hst p)
  · intro k v hk; simp at hk
  · intro p; have := h.stale p; unfold FlatMap.clear; simp only; omega
  · exact countP_zero_of (fun p => decide_eq_false (hst p))
  · unfold FlatMap.clear; simp only; omega

theorem Inv.createRaw (c : Nat) (d : V) (cap : Nat) (hc : cap = 2 ^ c) :
    Inv c { cap := cap, size := 0, ts := 1, elems := fun _ => ((0, d), 0) } (fun _ => none) := by
  refine ⟨hc, ?_, ?_, ?_, ?_, ?_, ?_⟩
  · intro p hp x hx
    simp [occ] at hx
  · intro p hp hts; simp at hts
  · intro k v hk; simp at hk
  · intro p; simp
  · exact countP_zero_of (fun p => by simp)
  · simp

/-- the live entries of the slots `L` -/
def live (old : Nat → (Nat × V) × Nat) (ts : Nat) (L : List Nat) : List (Nat × V) :=
  (L.filter (fun i => (old i).2 = ts)).map (fun i => (old i).1)

theorem Inv.rehash {c : Nat} {old : Nat → (Nat × V) × Nat} {oldTs : Nat} (L : List Nat) :
    ∀ {s : FlatMap V} {m : FMap V}, s.Inv c m →
    ((live old oldTs L).map Prod.fst).Nodup → (∀ p ∈ live old oldTs L, m p.1 = none) →
    s.size + (live old oldTs L).length < s.cap →
    ∃ s', FlatMap.rehash old oldTs s L = some s' ∧
      s'.Inv c ((live old oldTs L).foldl (fun m p => FMap.ins m p.1 p.2) m) ∧
      s'.size = s.size + (live old oldTs L).length := by
  induction L with
  | nil => intro s m h _ _ _; exact ⟨s, rfl, h, rfl⟩
  | cons q L ih =>
    intro s m h hn hab hs
    unfold FlatMap.rehash
    by_cases hq : (old q).2 = oldTs
    · have hlive : live old oldTs (q :: L) = (old q).1 :: live old oldTs L := by simp [live, hq]
      rw [hlive] at hn hab hs ⊢
      rw [List.map_cons, List.nodup_cons] at hn
      rw [List.length_cons] at hs
      obtain ⟨i, hi, hf, ho, hj⟩ := h.find_none (hab _ List.mem_cons_self) (by omega)
      have h1 := h.addElement (old q).1.2 (hab _ List.mem_cons_self) hi ho hj
      obtain ⟨s', h2, h3, h4⟩ := ih h1 hn.2 (fun r hr => by
        unfold FMap.ins
        rw [if_neg]
        · exact hab r (List.mem_cons_of_mem _ hr)
        · intro he; exact hn.1 (by rw [← he]; exact List.mem_map.2 ⟨r, hr, rfl⟩))
        (by unfold FlatMap.addElement; simp only; omega)
      refine ⟨s', ?_, h3, ?_⟩
      · rw [if_pos hq, hf]; exact h2
      · rw [h4]; unfold FlatMap.addElement; simp only [List.length_cons]; omega
    · have hlive : live old oldTs (q :: L) = live old oldTs L := by simp [live, hq]
      rw [hlive] at hn hab hs ⊢
      rw [if_neg hq]
      exact ih h hn hab hs

theorem Inv.lists {c : Nat} {s : FlatMap V} {m : FMap V} (h : s.Inv c m) :
    Lists (live s.elems s.ts (List.range s.cap)) m := by
  rw [h.cap]
  constructor
  · unfold live
    rw [List.map_map, List.nodup_map_iff_inj_on (List.nodup_range.filter _)]
    intro i hi j hj hij
    simp only [List.mem_filter, List.mem_range, decide_eq_true_eq] at hi hj
    simp only [Function.comp] at hij
    exact h.lp.uniq hi.1 hj.1 (x := (s.elems i).1.1) (occ_of hi.2) (by rw [occ_of hj.2, hij])
  · intro k v
    unfold live
    simp only [List.mem_map, List.mem_filter, List.mem_range, decide_eq_true_eq]
    constructor
    · rintro ⟨i, ⟨hi, ht⟩, he⟩
      have := h.sound i hi ht
      rw [he] at this; exact this
    · intro hk
      obtain ⟨i, hi, ht, he⟩ := h.complete k v hk
      refine ⟨i, ⟨hi, ht⟩, ?_⟩
      have := h.sound i hi ht
      rw [he, hk] at this
      exact Prod.ext he (Option.some.inj this).symm

theorem Inv.live_length {c : Nat} {s : FlatMap V} {m : FMap V} (h : s.Inv c m) :
    (live s.elems s.ts (List.range s.cap)).length = s.size := by
  unfold live
  rw [List.length_map, ← List.countP_eq_length_filter, h.cap, h.count]

theorem Inv.grow {c : Nat} {d : V} {s : FlatMap V} {m : FMap V} (h : s.Inv c m) (hs : s.size < s.cap) :
    ∃ s', s.grow d = some s' ∧ s'.Inv (c + 1) m ∧ s'.size = s.size := by
  have hc : 2 * s.cap = 2 ^ (c + 1) := by rw [h.cap, Nat.pow_succ]; omega
  have hl := h.lists
  obtain ⟨s', h1, h2, h3⟩ := (Inv.createRaw (c + 1) d (2 * s.cap) hc).rehash (List.range s.cap)
    hl.1 (fun _ _ => rfl) (by rw [h.live_length]; simp; omega)
  refine ⟨s', h1, ?_, ?_⟩
  · rw [← ins_foldl_lists hl]; exact h2
  · rw [h3, h.live_length]; simp

theorem Inv.exec {c : Nat} {d : V} {s : FlatMap V} {m : FMap V} (h : s.Inv c m) {k : Nat}
    {g : V → V} (hs : s.size < s.cap) :
    ∃ c' s', s.exec d (.modify k g) = some s' ∧ s'.Inv c' ((MapOp.modify k g).apply d m) ∧
      s'.size < s'.cap := by
  rw [HMap.ins_eq_modify]
  simp only [FlatMap.exec, FlatMap.modify]
  cases hk : m k with
  | some v =>
    obtain ⟨p, hp, hf, h3⟩ := h.find_some hk
    exact ⟨c, s.writeAt p g, by rw [hf], by simpa using h.writeAt hp h3 g, hs⟩
  | none =>
    obtain ⟨i, hi, hf, ho, hj⟩ := h.find_none hk hs
    rw [hf]
    simp only
    split
    · obtain ⟨s1, h1, h2, h3⟩ := h.grow (d := d) hs
      have hcap1 : s1.cap = 2 * s.cap := by rw [h2.cap, h.cap, Nat.pow_succ]; omega
      obtain ⟨i', hi', hf', ho', hj'⟩ := h2.find_none hk (by omega)
      refine ⟨c + 1, (s1.addElement k d (probe (2 ^ (c + 1)) k i')).writeAt (probe (2 ^ (c + 1)) k i') g,
        by rw [h1]; simp only [hf'], by simpa using h2.addWrite d hk hi' ho' hj' g, ?_⟩
      simp [FlatMap.writeAt, FlatMap.addElement]
      omega
    · next hlt =>
      refine ⟨c, _, rfl, by simpa using h.addWrite d hk hi ho hj g, ?_⟩
      simp [FlatMap.writeAt, FlatMap.addElement]
      omega

theorem Inv.query {c : Nat} {s : FlatMap V} {m : FMap V} (h : s.Inv c m) (hs : s.size < s.cap)
    (k : Nat) : s.contains k = some (m k).isSome ∧ s.getIfContained k = some (m k) := by
  unfold FlatMap.contains FlatMap.getIfContained
  cases hk : m k with
  | some v =>
    obtain ⟨p, hp, hf, h3⟩ := h.find_some hk
    rw [hf]
    simp [h3]
  | none =>
    obtain ⟨i, hi, hf, ho, hj⟩ := h.find_none hk hs
    rw [hf]
    simp

end FlatMap
end Verif
