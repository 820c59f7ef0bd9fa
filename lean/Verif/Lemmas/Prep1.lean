import Verif.Model.Preprocess
import Verif.Lemmas.PHG
/-!
# Lemmas for C46: incident nets of a node
-/
namespace Verif
namespace Prep

theorem getD_lt {l : List Nat} {i : Nat} (h : i < l.length) : l.getD i 0 = l[i] := by
  rw [List.getD_eq_getElem?_getD, List.getElem?_eq_getElem h, Option.getD_some]

theorem swapAt_length (l : List Nat) (i j : Nat) : (swapAt l i j).length = l.length := by simp [swapAt]

theorem swapAt_perm {l : List Nat} {i j : Nat} (hi : i < l.length) (hj : j < l.length) : (swapAt l i j).Perm l := by
  unfold swapAt
  rw [getD_lt hi, getD_lt hj]
  exact List.set_set_perm hi hj

/-- active entries `on` of the incident nets `orig` of a node -/
structure Seg (orig l : List Nat) (sz : Nat) (on : Nat → Prop) : Prop where
  perm : l.Perm orig
  le : sz ≤ l.length
  act : ∀ e, e ∈ l.take sz ↔ e ∈ orig ∧ on e

theorem Seg.congr {orig l : List Nat} {sz : Nat} {on on' : Nat → Prop} (h : Seg orig l sz on) (hh : ∀ e ∈ orig, (on e ↔ on' e)) :
    Seg orig l sz on' :=
  ⟨h.perm, h.le, fun e => by rw [h.act]; exact ⟨fun x => ⟨x.1, (hh e x.1).1 x.2⟩, fun x => ⟨x.1, (hh e x.1).2 x.2⟩⟩⟩

theorem Seg.remove {orig l : List Nat} {sz : Nat} {on : Nat → Prop} (hn : orig.Nodup) (h : Seg orig l sz on) {e : Nat}
    (he : e ∈ orig) (ho : on e) :
    Seg orig (swapAt l ((l.take sz).idxOf e) (sz - 1)) (sz - 1) (fun x => on x ∧ x ≠ e) ∧ 0 < sz := by
  have hmem := (h.act e).2 ⟨he, ho⟩
  have hlen : (l.take sz).length = sz := by rw [List.length_take]; exact Nat.min_eq_left h.le
  have hi := List.idxOf_lt_length_of_mem hmem
  rw [hlen] at hi
  have hle := h.le
  have hil : (l.take sz).idxOf e < l.length := by omega
  have hjl : sz - 1 < l.length := by omega
  have hge : l[(l.take sz).idxOf e] = e := by
    have := List.getElem_idxOf (xs := l.take sz) (x := e) (by rw [hlen]; exact hi)
    rwa [List.getElem_take] at this
  refine ⟨⟨(swapAt_perm hil hjl).trans h.perm, by rw [swapAt_length]; omega, ?_⟩, by omega⟩
  -- take sz of the new list is a permutation of take sz of the old one
  have htk : (swapAt l ((l.take sz).idxOf e) (sz - 1)).take sz = swapAt (l.take sz) ((l.take sz).idxOf e) (sz - 1) := by
    unfold swapAt
    rw [List.take_set, List.take_set, getD_lt hil, getD_lt hjl,
      getD_lt (by omega), getD_lt (by omega), List.getElem_take, List.getElem_take]
  have hp : ((swapAt l ((l.take sz).idxOf e) (sz - 1)).take sz).Perm (l.take sz) := by
    rw [htk]; exact swapAt_perm (by omega) (by omega)
  have hlast : (swapAt l ((l.take sz).idxOf e) (sz - 1)).take sz = (swapAt l ((l.take sz).idxOf e) (sz - 1)).take (sz - 1) ++ [e] := by
    generalize hL : swapAt l ((l.take sz).idxOf e) (sz - 1) = L
    have hLl : sz - 1 < L.length := by rw [← hL, swapAt_length]; omega
    have h1 := List.take_succ_eq_append_getElem hLl
    rw [show sz - 1 + 1 = sz by omega] at h1
    rw [h1]
    congr 2
    have h2 : L[sz - 1]? = some e := by
      rw [← hL]; unfold swapAt
      rw [List.getElem?_set_self (by rw [List.length_set]; omega), getD_lt hil, hge]
    rw [List.getElem?_eq_getElem hLl] at h2
    exact Option.some.inj h2
  rw [hlast] at hp
  have hnd : (l.take sz).Nodup := (h.perm.nodup_iff.2 hn).sublist (List.take_sublist _ _)
  have hnd' := hp.nodup_iff.2 hnd
  rw [List.nodup_append] at hnd'
  intro x
  constructor
  · intro hx
    have h1 := (h.act x).1 (hp.mem_iff.1 (by simp [hx]))
    exact ⟨h1.1, h1.2, fun hxe => hnd'.2.2 x hx e (by simp) hxe⟩
  · rintro ⟨h1, h2, h3⟩
    have := hp.mem_iff.2 ((h.act x).2 ⟨h1, h2⟩)
    rcases List.mem_append.1 this with h4 | h4
    · exact h4
    · simp at h4; exact absurd h4 h3

theorem Seg.insert {orig l : List Nat} {sz : Nat} {on : Nat → Prop} (hn : orig.Nodup) (h : Seg orig l sz on) {e : Nat}
    (he : e ∈ orig) (ho : ¬ on e) :
    Seg orig (swapAt l sz (sz + (l.drop sz).idxOf e)) (sz + 1) (fun x => on x ∨ x = e) ∧ sz < l.length := by
  have hnl := h.perm.nodup_iff.2 hn
  have hmem : e ∈ l.drop sz := by
    have h1 : e ∈ l := h.perm.mem_iff.2 he
    rw [← List.take_append_drop sz l] at h1
    rcases List.mem_append.1 h1 with h2 | h2
    · exact absurd ((h.act e).1 h2).2 ho
    · exact h2
  have hi := List.idxOf_lt_length_of_mem hmem
  have hi' := hi
  rw [List.length_drop] at hi
  have hle := h.le
  have hjl : sz + (l.drop sz).idxOf e < l.length := by omega
  have hge : l[sz + (l.drop sz).idxOf e] = e := by
    have := List.getElem_idxOf (xs := l.drop sz) (x := e) hi'
    rwa [List.getElem_drop] at this
  refine ⟨⟨(swapAt_perm (by omega) hjl).trans h.perm, by rw [swapAt_length]; omega, ?_⟩, by omega⟩
  have htk : (swapAt l sz (sz + (l.drop sz).idxOf e)).take (sz + 1) = l.take sz ++ [e] := by
    rw [List.take_succ_eq_append_getElem (by rw [swapAt_length]; omega)]
    congr 1
    · unfold swapAt
      rw [List.take_set_of_le (by omega), List.take_set_of_le (by omega)]
    · congr 1
      unfold swapAt
      rw [List.getElem_set]
      split_ifs with h1
      · rw [getD_lt (by omega)]
        have hz : (l.drop sz).idxOf e = 0 := by omega
        simp only [hz, Nat.add_zero] at hge
        exact hge
      · rw [List.getElem_set_self, getD_lt hjl, hge]
  intro x
  rw [htk, List.mem_append, h.act, List.mem_singleton]
  constructor
  · rintro (h1 | h1)
    · exact ⟨h1.1, Or.inl h1.2⟩
    · rw [h1]; exact ⟨he, Or.inr rfl⟩
  · rintro ⟨h1, h2 | h2⟩
    · exact Or.inl ⟨h1, h2⟩
    · exact Or.inr h2

theorem upd_same {α : Type} {f : Nat → α} {i : Nat} {x : α} : upd f i x i = x := by simp [upd]
theorem upd_other {α : Type} {f : Nat → α} {i j : Nat} {x : α} (h : j ≠ i) : upd f i x j = f j := by simp [upd, h]

/-- the data of the hypergraph that never changes -/
structure Static (s t : SHG) : Prop where
  n : t.n = s.n
  m : t.m = s.m
  pins : t.pins = s.pins
  nw : t.nw = s.nw
  ew : t.ew = s.ew
  fixed : t.fixed = s.fixed

theorem Static.refl (s : SHG) : Static s s := ⟨rfl, rfl, rfl, rfl, rfl, rfl⟩
theorem Static.trans {s t u : SHG} (h : Static s t) (h' : Static t u) : Static s u :=
  ⟨h'.n.trans h.n, h'.m.trans h.m, h'.pins.trans h.pins, h'.nw.trans h.nw, h'.ew.trans h.ew, h'.fixed.trans h.fixed⟩

/-- all incident nets: entry `e` of node `u` is active iff `on u e` -/
def Segs (orig : Nat → List Nat) (s : SHG) (on : Nat → Nat → Prop) : Prop := ∀ u, Seg (orig u) (s.nets u) (s.size u) (on u)

theorem segs_removeInc {orig : Nat → List Nat} {s : SHG} {on : Nat → Nat → Prop} (h : Segs orig s on) {e u : Nat} (hn : (orig u).Nodup)
    (he : e ∈ orig u) (ho : on u e) : Segs orig (s.removeInc e u) (fun v x => on v x ∧ ¬ (v = u ∧ x = e)) := by
  intro v
  by_cases hv : v = u
  · subst hv
    show Seg _ (upd s.nets v _ v) (upd s.size v _ v) _
    rw [upd_same, upd_same]
    exact ((h v).remove hn he ho).1.congr (fun x _ => by simp)
  · show Seg _ (upd s.nets u _ v) (upd s.size u _ v) _
    rw [upd_other hv, upd_other hv]
    exact (h v).congr (fun x _ => by simp [hv])

theorem segs_insertInc {orig : Nat → List Nat} {s : SHG} {on : Nat → Nat → Prop} (h : Segs orig s on) {e u : Nat} (hn : (orig u).Nodup)
    (he : e ∈ orig u) (ho : ¬ on u e) : Segs orig (s.insertInc e u) (fun v x => on v x ∨ (v = u ∧ x = e)) := by
  intro v
  by_cases hv : v = u
  · subst hv
    show Seg _ (upd s.nets v _ v) (upd s.size v _ v) _
    rw [upd_same, upd_same]
    exact ((h v).insert hn he ho).1.congr (fun x _ => by simp)
  · show Seg _ (upd s.nets u _ v) (upd s.size u _ v) _
    rw [upd_other hv, upd_other hv]
    exact (h v).congr (fun x _ => by simp [hv])

theorem segs_removeAll {orig : Nat → List Nat} {e : Nat} : ∀ (us : List Nat), us.Nodup → ∀ {s : SHG} {on : Nat → Nat → Prop}, Segs orig s on →
    (∀ u ∈ us, (orig u).Nodup ∧ e ∈ orig u ∧ on u e) →
    Segs orig (us.foldl (SHG.removeInc e) s) (fun v x => on v x ∧ ¬ (v ∈ us ∧ x = e)) ∧ Static s (us.foldl (SHG.removeInc e) s) ∧
    (us.foldl (SHG.removeInc e) s).nodeOn = s.nodeOn ∧ (us.foldl (SHG.removeInc e) s).edgeOn = s.edgeOn ∧
    (us.foldl (SHG.removeInc e) s).remN = s.remN ∧ (us.foldl (SHG.removeInc e) s).remE = s.remE := by
  intro us
  induction us with
  | nil => intro _ s on h _; exact ⟨fun u => (h u).congr (fun x _ => by simp), Static.refl _, rfl, rfl, rfl, rfl⟩
  | cons u us ih =>
    intro hnd s on h hu
    rw [List.nodup_cons] at hnd
    obtain ⟨u1, u2, u3⟩ := hu u (by simp)
    have h1 := segs_removeInc h u1 u2 u3
    obtain ⟨r1, r2, r3, r4, r5, r6⟩ := ih hnd.2 h1 (fun v hv => by
      obtain ⟨v1, v2, v3⟩ := hu v (by simp [hv])
      exact ⟨v1, v2, v3, fun hh => hnd.1 (hh.1 ▸ hv)⟩)
    refine ⟨fun v => (r1 v).congr (fun x _ => ?_), Static.trans (t := SHG.removeInc e s u) ⟨rfl, rfl, rfl, rfl, rfl, rfl⟩ r2, r3, r4, r5, r6⟩
    simp only [List.mem_cons]
    constructor
    · rintro ⟨⟨a, b⟩, c⟩
      refine ⟨a, ?_⟩
      rintro ⟨d | d, f⟩
      · exact b ⟨d, f⟩
      · exact c ⟨d, f⟩
    · rintro ⟨a, b⟩
      exact ⟨⟨a, fun d => b ⟨Or.inl d.1, d.2⟩⟩, fun d => b ⟨Or.inr d.1, d.2⟩⟩

theorem segs_insertAll {orig : Nat → List Nat} {e : Nat} : ∀ (us : List Nat), us.Nodup → ∀ {s : SHG} {on : Nat → Nat → Prop}, Segs orig s on →
    (∀ u ∈ us, (orig u).Nodup ∧ e ∈ orig u ∧ ¬ on u e) →
    Segs orig (us.foldl (SHG.insertInc e) s) (fun v x => on v x ∨ (v ∈ us ∧ x = e)) ∧ Static s (us.foldl (SHG.insertInc e) s) ∧
    (us.foldl (SHG.insertInc e) s).nodeOn = s.nodeOn ∧ (us.foldl (SHG.insertInc e) s).edgeOn = s.edgeOn ∧
    (us.foldl (SHG.insertInc e) s).remN = s.remN ∧ (us.foldl (SHG.insertInc e) s).remE = s.remE := by
  intro us
  induction us with
  | nil => intro _ s on h _; exact ⟨fun u => (h u).congr (fun x _ => by simp), Static.refl _, rfl, rfl, rfl, rfl⟩
  | cons u us ih =>
    intro hnd s on h hu
    rw [List.nodup_cons] at hnd
    obtain ⟨u1, u2, u3⟩ := hu u (by simp)
    have h1 := segs_insertInc h u1 u2 u3
    obtain ⟨r1, r2, r3, r4, r5, r6⟩ := ih hnd.2 h1 (fun v hv => by
      obtain ⟨v1, v2, v3⟩ := hu v (by simp [hv])
      refine ⟨v1, v2, ?_⟩
      rintro (hh | hh)
      · exact v3 hh
      · exact hnd.1 (hh.1 ▸ hv))
    refine ⟨fun v => (r1 v).congr (fun x _ => ?_), Static.trans (t := SHG.insertInc e s u) ⟨rfl, rfl, rfl, rfl, rfl, rfl⟩ r2, r3, r4, r5, r6⟩
    simp only [List.mem_cons]
    constructor
    · rintro ((a | a) | a)
      · exact Or.inl a
      · exact Or.inr ⟨Or.inl a.1, a.2⟩
      · exact Or.inr ⟨Or.inr a.1, a.2⟩
    · rintro (a | ⟨a | a, b⟩)
      · exact Or.inl (Or.inl a)
      · exact Or.inl (Or.inr ⟨a, b⟩)
      · exact Or.inr ⟨a, b⟩

end Prep
end Verif
