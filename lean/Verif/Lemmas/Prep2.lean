import Verif.Lemmas.Prep1
/-!
# Lemmas for C46: the hypergraph during removal and restoration
-/
namespace Verif
namespace Prep

/-- a complete hypergraph: all nodes and hyperedges are enabled -/
structure SHG.Full (s : SHG) : Prop where
  pins_nodup : ∀ e, e < s.m → (s.pins e).Nodup
  pins_lt : ∀ e, e < s.m → ∀ v ∈ s.pins e, v < s.n
  nets_nodup : ∀ u, (s.nets u).Nodup
  nets_iff : ∀ u e, e ∈ s.nets u ↔ e < s.m ∧ u ∈ s.pins e
  size : ∀ u, s.size u = (s.nets u).length
  nodes : ∀ u, u < s.n → s.nodeOn u = true
  edges : ∀ e, e < s.m → s.edgeOn e = true

/-- the state of the hypergraph `s` during the process -/
structure Rel (s t : SHG) : Prop where
  static : Static s t
  segs : Segs s.nets t (fun _ e => t.edgeOn e = true)

theorem Rel.refl {s : SHG} (h : s.Full) : Rel s s :=
  ⟨Static.refl s, fun u => ⟨List.Perm.refl _, by rw [h.size], fun e => by
    rw [h.size, List.take_length]
    exact ⟨fun x => ⟨x, h.edges e ((h.nets_iff u e).1 x).1⟩, fun x => x.1⟩⟩⟩

theorem Rel.removeEdge {s t : SHG} (hF : s.Full) (h : Rel s t) {e : Nat} (he : e < s.m) (hon : t.edgeOn e = true) {order : List Nat}
    (ho : order.Perm (s.pins e)) :
    Rel s (t.removeEdge e order) ∧ (t.removeEdge e order).edgeOn = upd t.edgeOn e false ∧ (t.removeEdge e order).nodeOn = t.nodeOn ∧
    (t.removeEdge e order).remN = t.remN := by
  obtain ⟨r1, r2, r3, r4, r5, r6⟩ := segs_removeAll (e := e) order (ho.nodup_iff.2 (hF.pins_nodup e he)) h.segs
    (fun u hu => ⟨hF.nets_nodup u, (hF.nets_iff u e).2 ⟨he, ho.mem_iff.1 hu⟩, hon⟩)
  have hE : (t.removeEdge e order).edgeOn = upd t.edgeOn e false := by
    show upd (order.foldl (SHG.removeInc e) t).edgeOn e false = _
    rw [r4]
  refine ⟨⟨h.static.trans (Static.trans r2 ⟨rfl, rfl, rfl, rfl, rfl, rfl⟩), fun u => ?_⟩, hE, r3, r5⟩
  refine (r1 u).congr (fun x hx => ?_)
  rw [hE]
  dsimp only
  by_cases hxe : x = e
  · subst hxe
    rw [upd_same]
    have := ho.mem_iff.2 ((hF.nets_iff u x).1 hx).2
    simp [this]
  · rw [upd_other hxe]
    simp [hxe]

theorem Rel.restoreEdge {s t : SHG} (hF : s.Full) (h : Rel s t) {e : Nat} (he : e < s.m) (hon : t.edgeOn e = false) {order : List Nat}
    (ho : order.Perm (s.pins e)) :
    Rel s (t.restoreEdge e order) ∧ (t.restoreEdge e order).edgeOn = upd t.edgeOn e true ∧ (t.restoreEdge e order).nodeOn = t.nodeOn ∧
    (t.restoreEdge e order).remN = t.remN := by
  have h0 : Segs s.nets { t with edgeOn := upd t.edgeOn e true } (fun _ x => t.edgeOn x = true) := h.segs
  obtain ⟨r1, r2, r3, r4, r5, r6⟩ := segs_insertAll (e := e) order (ho.nodup_iff.2 (hF.pins_nodup e he)) h0
    (fun u hu => ⟨hF.nets_nodup u, (hF.nets_iff u e).2 ⟨he, ho.mem_iff.1 hu⟩, by rw [hon]; decide⟩)
  refine ⟨⟨h.static.trans (Static.trans (t := { t with edgeOn := upd t.edgeOn e true }) ⟨rfl, rfl, rfl, rfl, rfl, rfl⟩ r2), fun u => ?_⟩, r4, r3, r5⟩
  refine (r1 u).congr (fun x hx => ?_)
  show _ ↔ (order.foldl (SHG.insertInc e) { t with edgeOn := upd t.edgeOn e true }).edgeOn x = true
  rw [r4]
  by_cases hxe : x = e
  · subst hxe
    show _ ↔ upd t.edgeOn x true x = true
    rw [upd_same]
    have := ho.mem_iff.2 ((hF.nets_iff u x).1 hx).2
    simp [this]
  · show _ ↔ upd t.edgeOn e true x = true
    rw [upd_other hxe]
    simp [hxe]

theorem Rel.nodes {s t : SHG} (h : Rel s t) (f : Nat → Bool) (r : Nat) : Rel s { t with nodeOn := f, remN := r } :=
  ⟨h.static.trans ⟨rfl, rfl, rfl, rfl, rfl, rfl⟩, h.segs⟩

/-! ### Degree-zero nodes -/

/-- invariant of the loop over the nodes below `j` -/
structure DzInv (limit : Nat) (s : SHG) (j : Nat) (x : DZ) : Prop where
  rel : Rel s x.s
  edge : x.s.edgeOn = s.edgeOn
  node : ∀ u, u < s.n → (x.s.nodeOn u = true ↔ u ∉ x.removed)
  mem : ∀ u ∈ x.removed, u < j ∧ u < s.n ∧ s.nets u = [] ∧ s.fixed u = none
  nodup : x.removed.Nodup
  keep : x.removed ≠ [] → limit ≤ s.n - s.remN - x.removed.length
  stop : x.stop = true → s.n - s.remN - x.removed.length ≤ limit
  all : x.stop = false → ∀ u, u < j → u < s.n → s.nets u = [] → s.fixed u = none → u ∈ x.removed

theorem dzStep_inv {limit : Nat} {s : SHG} (hF : s.Full) {j : Nat} {x : DZ} (h : DzInv limit s j x) (hj : j < s.n) :
    DzInv limit s (j + 1) (dzStep limit (s.n - s.remN) x j) := by
  have hmono : ∀ u ∈ x.removed, u < j + 1 ∧ u < s.n ∧ s.nets u = [] ∧ s.fixed u = none :=
    fun u hu => ⟨by have := (h.mem u hu).1; omega, (h.mem u hu).2⟩
  have hnot : j ∉ x.removed := fun hh => by have := (h.mem j hh).1; omega
  have hon : x.s.nodeOn j = true := (h.node j hj).2 hnot
  unfold dzStep
  cases hs : x.stop with
  | true => exact ⟨h.rel, h.edge, h.node, hmono, h.nodup, h.keep, h.stop, fun hh => by simp [hs] at hh⟩
  | false =>
    simp only [hon, Bool.not_true, Bool.or_self, Bool.false_eq_true, if_false]
    split_ifs with h1 h2
    · exact ⟨h.rel, h.edge, h.node, hmono, h.nodup, h.keep, fun _ => h1, fun hh => by simp at hh⟩
    · have hsz := (h.rel.segs j)
      have hnets : s.nets j = [] := by
        by_contra hne
        obtain ⟨e, he⟩ := List.exists_mem_of_ne_nil _ hne
        have := (hsz.act e).2 ⟨he, by rw [h.edge]; exact hF.edges e ((hF.nets_iff j e).1 he).1⟩
        rw [h2.1] at this
        simp at this
      have hfix : s.fixed j = none := by rw [← h.rel.static.fixed]; exact h2.2
      refine ⟨h.rel.nodes _ _, h.edge, ?_, ?_, ?_, ?_, fun hh => by simp [hs] at hh, ?_⟩
      · intro u hu
        show upd x.s.nodeOn j false u = true ↔ _
        by_cases huj : u = j
        · subst huj; rw [upd_same]; simp
        · rw [upd_other huj, h.node u hu]; simp [huj]
      · intro u hu
        rcases List.mem_append.1 hu with hu | hu
        · exact hmono u hu
        · rw [List.mem_singleton.1 hu]; exact ⟨by omega, hj, hnets, hfix⟩
      · rw [List.nodup_append]
        exact ⟨h.nodup, by simp, fun a ha b hb hab => by simp at hb; subst hb; subst hab; exact hnot ha⟩
      · intro _
        rw [List.length_append, List.length_singleton]
        omega
      · intro _ u hu hun hn hf
        by_cases huj : u = j
        · subst huj; simp
        · simp [h.all hs u (by omega) hun hn hf]
    · refine ⟨h.rel, h.edge, h.node, hmono, h.nodup, h.keep, h.stop, ?_⟩
      intro _ u hu hun hn hf
      by_cases huj : u = j
      · subst huj
        exfalso
        apply h2
        refine ⟨?_, by rw [h.rel.static.fixed]; exact hf⟩
        have hsz := (h.rel.segs u)
        have := hsz.le
        rw [hsz.perm.length_eq, hn] at this
        simpa using this
      · exact h.all hs u (by omega) hun hn hf

theorem dz_spec (limit : Nat) {s : SHG} (hF : s.Full) : DzInv limit s s.n (removeDegreeZero limit s) := by
  unfold removeDegreeZero
  have : ∀ j, j ≤ s.n → DzInv limit s j ((List.range j).foldl (dzStep limit (s.n - s.remN)) ⟨s, [], false⟩) := by
    intro j
    induction j with
    | zero =>
      intro _
      exact ⟨Rel.refl hF, rfl, fun u hu => by simp [hF.nodes u hu], by simp, by simp, by simp, by simp, by simp⟩
    | succ j ih =>
      intro hj
      rw [List.range_succ, List.foldl_append]
      exact dzStep_inv hF (ih (by omega)) (by omega)
  exact this s.n (le_refl _)

/-! ### Hyperedges -/

/-- the hyperedge stays -/
def Stays (thr : Nat) (s : SHG) (e : Nat) : Prop := (s.pins e).length ≠ 1 ∧ (s.pins e).length ≤ thr

structure ErInv (thr : Nat) (s t : SHG) (j : Nat) (x : ER) : Prop where
  rel : Rel s x.s
  node : x.s.nodeOn = t.nodeOn
  remN : x.s.remN = t.remN
  edge : ∀ e, e < s.m → (x.s.edgeOn e = true ↔ (j ≤ e ∨ Stays thr s e))
  large : ∀ e, e ∈ x.large ↔ e < j ∧ (s.pins e).length ≠ 1 ∧ thr < (s.pins e).length
  single : ∀ e, e ∈ x.single ↔ e < j ∧ (s.pins e).length = 1
  ndL : x.large.Nodup
  ndS : x.single.Nodup

theorem erStep_inv {thr : Nat} {order : Nat → List Nat} {s t : SHG} (hF : s.Full) (ho : ∀ e, e < s.m → (order e).Perm (s.pins e)) {j : Nat} {x : ER}
    (h : ErInv thr s t j x) (hj : j < s.m) : ErInv thr s t (j + 1) (erStep thr order x j) := by
  have hon : x.s.edgeOn j = true := (h.edge j hj).2 (Or.inl (le_refl _))
  have hpins : x.s.pins = s.pins := h.rel.static.pins
  have hnl : j ∉ x.large := fun hh => by have := ((h.large j).1 hh).1; omega
  have hns : j ∉ x.single := fun hh => by have := ((h.single j).1 hh).1; omega
  unfold erStep
  rw [if_pos hon, hpins]
  split_ifs with h1 h2
  · obtain ⟨r1, r2, r3, r4⟩ := h.rel.removeEdge hF hj hon (List.Perm.refl _)
    refine ⟨r1, by rw [r3]; exact h.node, by rw [r4]; exact h.remN, ?_, ?_, ?_, h.ndL, ?_⟩
    · intro e he
      rw [r2]
      by_cases hej : e = j
      · subst hej; rw [upd_same]; simp [Stays, h1]
      · rw [upd_other hej, h.edge e he]
        exact or_congr_left ⟨fun _ => by omega, fun _ => by omega⟩
    · intro e
      rw [h.large]
      constructor
      · rintro ⟨a, b⟩; exact ⟨by omega, b⟩
      · rintro ⟨a, b, c⟩
        refine ⟨?_, b, c⟩
        rcases Nat.lt_succ_iff_lt_or_eq.1 a with a | a
        · exact a
        · rw [a] at b; exact absurd h1 b
    · intro e
      rw [List.mem_append, h.single, List.mem_singleton]
      constructor
      · rintro (⟨a, b⟩ | a)
        · exact ⟨by omega, b⟩
        · rw [a]; exact ⟨by omega, h1⟩
      · rintro ⟨a, b⟩
        rcases Nat.lt_succ_iff_lt_or_eq.1 a with a | a
        · exact Or.inl ⟨a, b⟩
        · exact Or.inr a
    · rw [List.nodup_append]
      exact ⟨h.ndS, by simp, fun a ha b hb hab => by simp at hb; subst hb; subst hab; exact hns ha⟩
  · obtain ⟨r1, r2, r3, r4⟩ := h.rel.removeEdge hF hj hon (ho j hj)
    refine ⟨r1, by rw [r3]; exact h.node, by rw [r4]; exact h.remN, ?_, ?_, ?_, ?_, h.ndS⟩
    · intro e he
      rw [r2]
      by_cases hej : e = j
      · subst hej; rw [upd_same]; simp [Stays]; omega
      · rw [upd_other hej, h.edge e he]
        exact or_congr_left ⟨fun _ => by omega, fun _ => by omega⟩
    · intro e
      rw [List.mem_append, h.large, List.mem_singleton]
      constructor
      · rintro (⟨a, b⟩ | a)
        · exact ⟨by omega, b⟩
        · rw [a]; exact ⟨by omega, h1, h2⟩
      · rintro ⟨a, b⟩
        rcases Nat.lt_succ_iff_lt_or_eq.1 a with a | a
        · exact Or.inl ⟨a, b⟩
        · exact Or.inr a
    · intro e
      rw [h.single]
      constructor
      · rintro ⟨a, b⟩; exact ⟨by omega, b⟩
      · rintro ⟨a, b⟩
        refine ⟨?_, b⟩
        rcases Nat.lt_succ_iff_lt_or_eq.1 a with a | a
        · exact a
        · rw [a] at b; exact absurd b h1
    · rw [List.nodup_append]
      exact ⟨h.ndL, by simp, fun a ha b hb hab => by simp at hb; subst hb; subst hab; exact hnl ha⟩
  · refine ⟨h.rel, h.node, h.remN, ?_, ?_, ?_, h.ndL, h.ndS⟩
    · intro e he
      rw [h.edge e he]
      by_cases hej : e = j
      · subst hej; simp [Stays, h1]; omega
      · exact or_congr_left ⟨fun _ => by omega, fun _ => by omega⟩
    · intro e
      rw [h.large]
      constructor
      · rintro ⟨a, b⟩; exact ⟨by omega, b⟩
      · rintro ⟨a, b, c⟩
        refine ⟨?_, b, c⟩
        rcases Nat.lt_succ_iff_lt_or_eq.1 a with a | a
        · exact a
        · rw [a] at c; exact absurd c h2
    · intro e
      rw [h.single]
      constructor
      · rintro ⟨a, b⟩; exact ⟨by omega, b⟩
      · rintro ⟨a, b⟩
        refine ⟨?_, b⟩
        rcases Nat.lt_succ_iff_lt_or_eq.1 a with a | a
        · exact a
        · rw [a] at b; exact absurd b h1

/-- the result of `sanitize` -/
structure Sanitized (limit thr : Nat) (s : SHG) (r : Reduced) : Prop where
  rel : Rel s r.s
  node : ∀ u, u < s.n → (r.s.nodeOn u = true ↔ u ∉ r.hns)
  edge : ∀ e, e < s.m → (r.s.edgeOn e = true ↔ Stays thr s e)
  hns : ∀ u ∈ r.hns, u < s.n ∧ s.nets u = [] ∧ s.fixed u = none
  ndN : r.hns.Nodup
  keep : r.hns ≠ [] → limit ≤ s.n - s.remN - r.hns.length
  most : s.n - s.remN - r.hns.length ≤ limit ∨ ∀ u, u < s.n → s.nets u = [] → s.fixed u = none → u ∈ r.hns
  large : ∀ e, e ∈ r.large ↔ e < s.m ∧ (s.pins e).length ≠ 1 ∧ thr < (s.pins e).length
  single : ∀ e, e ∈ r.single ↔ e < s.m ∧ (s.pins e).length = 1
  ndL : r.large.Nodup
  ndS : r.single.Nodup

theorem sanitize_spec (limit thr : Nat) {order : Nat → List Nat} {s : SHG} (hF : s.Full) (ho : ∀ e, e < s.m → (order e).Perm (s.pins e)) :
    Sanitized limit thr s (sanitize limit thr order s) := by
  have hd := dz_spec limit hF
  have hm : (removeDegreeZero limit s).s.m = s.m := hd.rel.static.m
  have : ∀ j, j ≤ s.m → ErInv thr s (removeDegreeZero limit s).s j ((List.range j).foldl (erStep thr order) ⟨(removeDegreeZero limit s).s, [], []⟩) := by
    intro j
    induction j with
    | zero =>
      intro _
      exact ⟨hd.rel, rfl, rfl, fun e he => by simp [hd.edge, hF.edges e he], by simp, by simp, by simp, by simp⟩
    | succ j ih =>
      intro hj
      rw [List.range_succ, List.foldl_append]
      exact erStep_inv hF ho (ih (by omega)) (by omega)
  have hE := this s.m (le_refl _)
  unfold sanitize removeEdges
  dsimp only
  rw [hm]
  refine ⟨hE.rel, fun u hu => ?_, fun e he => ?_, fun u hu => (hd.mem u hu).2, hd.nodup, hd.keep, ?_, fun e => ?_, hE.single, ?_, hE.ndS⟩
  · show ((List.range s.m).foldl (erStep thr order) ⟨(removeDegreeZero limit s).s, [], []⟩).s.nodeOn u = true ↔ _
    rw [hE.node]; exact hd.node u hu
  · rw [hE.edge e he]
    exact ⟨fun x => x.resolve_left (by omega), Or.inr⟩
  · by_cases hs : (removeDegreeZero limit s).stop = true
    · exact Or.inl (hd.stop hs)
    · exact Or.inr (fun u hu => hd.all (by simpa using hs) u hu hu)
  · show e ∈ List.reverse _ ↔ _
    rw [List.mem_reverse, hE.large]
  · exact List.nodup_reverse.2 hE.ndL

end Prep
end Verif
