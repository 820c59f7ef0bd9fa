import Verif.Lemmas.SG5
import Mathlib.Data.Finset.Card
import Mathlib.Logic.Function.Iterate
/-!
# `sort_incident_edges`: applying a permutation by swaps
-/
namespace Verif
open SMap (wr)
namespace SG

/-- `y` is the first value `≥ i` among `x, ids x, ids (ids x), …` -/
inductive Loc (ids : Nat → Nat) (i : Nat) : Nat → Nat → Prop
  | here {x : Nat} : i ≤ x → Loc ids i x x
  | next {x y : Nat} : x < i → Loc ids i (ids x) y → Loc ids i x y

theorem Loc.det {ids : Nat → Nat} {i x y y' : Nat} (h : Loc ids i x y) (h' : Loc ids i x y') : y = y' := by
  induction h with
  | here h => cases h' with
    | here _ => rfl
    | next h2 _ => omega
  | next h _ ih => cases h' with
    | here h2 => omega
    | next _ h2 => exact ih h2

/-- extend by one step -/
theorem Loc.succ {ids : Nat → Nat} {i x y : Nat} (h : Loc ids i x y) :
    (y ≠ i → Loc ids (i + 1) x y) ∧ (y = i → ∀ z, Loc ids (i + 1) (ids i) z → Loc ids (i + 1) x z) := by
  induction h with
  | here h =>
    refine ⟨fun hne => Loc.here (by omega), ?_⟩
    rintro rfl z hz
    exact Loc.next (by omega) hz
  | next h _ ih =>
    exact ⟨fun hne => Loc.next (by omega) (ih.1 hne), fun heq z hz => Loc.next (by omega) (ih.2 heq z hz)⟩

theorem follow_loc {ids : Nat → Nat} {i : Nat} : ∀ (fuel x : Nat),
    Loc ids i x (follow ids i fuel x) ∨ ∀ j < fuel, ids^[j] x < i := by
  intro fuel
  induction fuel with
  | zero => intro x; right; intro j hj; omega
  | succ fuel ih =>
    intro x
    unfold follow
    by_cases h : x < i
    · rw [if_pos h]
      rcases ih (ids x) with h1 | h1
      · left; exact Loc.next h h1
      · right
        intro j hj
        cases j with
        | zero => exact h
        | succ j => exact h1 j (by omega)
    · rw [if_neg h]; left; exact Loc.here (by omega)

theorem follow_spec {ids : Nat → Nat} {i : Nat} (hinj : ∀ a < i, ∀ b < i, ids a = ids b → a = b) {x : Nat}
    (hx : ∀ a < i, ids a ≠ x) : Loc ids i x (follow ids i (i + 1) x) := by
  rcases follow_loc (i + 1) x with h | h
  · exact h
  · exfalso
    obtain ⟨a, ha, b, hb, hne, heq⟩ := Finset.exists_ne_map_eq_of_card_lt_of_maps_to
      (s := Finset.range (i + 1)) (t := Finset.range i) (f := fun j => ids^[j] x) (by simp)
      (fun j hj => Finset.mem_coe.2 (Finset.mem_range.2 (h j (Finset.mem_range.1 (Finset.mem_coe.1 hj)))))
    have ha := Finset.mem_range.1 ha
    have hb := Finset.mem_range.1 hb
    -- the smaller index can be pushed down to 0
    have key : ∀ a b, a < b → b < i + 1 → ids^[a] x = ids^[b] x → False := by
      intro a
      induction a with
      | zero =>
        intro b hb1 hb2 he
        obtain ⟨c, rfl⟩ : ∃ c, b = c + 1 := ⟨b - 1, by omega⟩
        rw [Function.iterate_succ_apply'] at he
        exact hx (ids^[c] x) (h c (by omega)) he.symm
      | succ a iha =>
        intro b hb1 hb2 he
        obtain ⟨c, rfl⟩ : ∃ c, b = c + 1 := ⟨b - 1, by omega⟩
        rw [Function.iterate_succ_apply', Function.iterate_succ_apply'] at he
        exact iha c (by omega) (by omega) (hinj _ (h a (by omega)) _ (h c (by omega)) he)
    rcases Nat.lt_or_gt_of_ne hne with h1 | h1
    · exact key a b h1 hb heq
    · exact key b a h1 ha heq.symm

section perm
variable {ids : Nat → Nat} {len : Nat}

theorem Loc.ge {i x y : Nat} (h : Loc ids i x y) : i ≤ y := by
  induction h with
  | here h => exact h
  | next _ _ ih => exact ih

theorem Loc.lt (hlt : ∀ a < len, ids a < len) {i x y : Nat} (hi : i ≤ len) (h : Loc ids i x y) (hx : x < len) :
    y < len := by
  induction h with
  | here h => exact hx
  | next h _ ih => exact ih (hlt _ hx)

/-- different elements that are still needed are at different places -/
theorem Loc.inj (hlt : ∀ a < len, ids a < len) (hinj : ∀ a < len, ∀ b < len, ids a = ids b → a = b) : ∀ (i : Nat),
    i ≤ len → ∀ {x x' y : Nat},
    x < len → x' < len → (∀ a < i, ids a ≠ x) → (∀ a < i, ids a ≠ x') → Loc ids i x y → Loc ids i x' y → x = x' := by
  intro i
  induction i with
  | zero =>
    intro _ x x' y _ _ _ _ h h'
    cases h with
    | here _ => cases h' with
      | here _ => rfl
      | next h _ => omega
    | next h _ => omega
  | succ i ih =>
    intro hi
    have ih := @ih (by omega)
    have hid : ∀ a < i, ids a ≠ ids i := fun a ha heq => by have := hinj a (by omega) i (by omega) heq; omega
    have hij : ∀ a < i, ∀ b < i, ids a = ids b → a = b := fun a ha b hb => hinj a (by omega) b (by omega)
    have mixed : ∀ {x x' y p' : Nat}, x < len → x' < len → (∀ a < i + 1, ids a ≠ x) → (∀ a < i + 1, ids a ≠ x') →
        Loc ids (i + 1) x y → Loc ids (i + 1) x' y → Loc ids i x i → Loc ids i x' p' → p' ≠ i → False := by
      intro x x' y p' hx hx' hn hn' h h' h1 h1' hp'
      have h2 := follow_spec hij hid
      generalize follow ids i (i + 1) (ids i) = t at h2
      have e1 := (h1'.succ.1 hp').det h'
      by_cases ht : t = i
      · subst ht
        exact hn t (by omega) (ih (hlt t (by omega)) hx hid (fun a ha => hn a (by omega)) h2 h1)
      · have e2 := (h1.succ.2 rfl t (h2.succ.1 ht)).det h
        have : t = p' := by omega
        subst this
        exact hn' i (by omega) (ih (hlt i (by omega)) hx' hid (fun a ha => hn' a (by omega)) h2 h1')
    intro x x' y hx hx' hn hn' h h'
    have h1 := follow_spec hij (x := x) (fun a ha => hn a (by omega))
    have h1' := follow_spec hij (x := x') (fun a ha => hn' a (by omega))
    obtain ⟨p, hp⟩ : ∃ p, p = follow ids i (i + 1) x := ⟨_, rfl⟩
    obtain ⟨p', hp'⟩ : ∃ p', p' = follow ids i (i + 1) x' := ⟨_, rfl⟩
    rw [← hp] at h1
    rw [← hp'] at h1'
    by_cases hpi : p = i <;> by_cases hpi' : p' = i
    · rw [hpi] at h1; rw [hpi'] at h1'
      exact ih hx hx' (fun a ha => hn a (by omega)) (fun a ha => hn' a (by omega)) h1 h1'
    · rw [hpi] at h1
      exact absurd (mixed hx hx' hn hn' h h' h1 h1' hpi') id
    · rw [hpi'] at h1'
      exact absurd (mixed hx' hx hn' hn h' h h1' h1 hpi) id
    · have e1 := (h1.succ.1 hpi).det h
      have e2 := (h1'.succ.1 hpi').det h'
      rw [e1] at h1; rw [e2] at h1'
      exact ih hx hx' (fun a ha => hn a (by omega)) (fun a ha => hn' a (by omega)) h1 h1'

/-- the loop of `sort_incident_edges` moves element `ids i` to position `i` and touches nothing outside the segment -/
theorem applyPerm_spec (hlt : ∀ a < len, ids a < len) (hinj : ∀ a < len, ∀ b < len, ids a = ids b → a = b)
    (start : Nat) (edge : Nat → GEdge) :
    (∀ i < len, applyPerm ids start len edge (start + i) = edge (start + ids i)) ∧
    ∀ p, p < start ∨ start + len ≤ p → applyPerm ids start len edge p = edge p := by
  have main : ∀ k ≤ len, ∀ a, a = (List.range k).foldl (fun a i =>
      let t := follow ids i (i + 1) (ids i)
      wr (wr a (start + i) (a (start + t))) (start + t) (a (start + i))) edge →
      (∀ i < k, a (start + i) = edge (start + ids i)) ∧
      (∀ x < len, (∀ b < k, ids b ≠ x) → ∀ y, Loc ids k x y → a (start + y) = edge (start + x)) ∧
      (∀ p, p < start ∨ start + len ≤ p → a p = edge p) := by
    intro k
    induction k with
    | zero =>
      intro _ a ha
      simp only [List.range_zero, List.foldl_nil] at ha
      subst ha
      refine ⟨fun i hi => by omega, fun x _ _ y h => ?_, fun _ _ => rfl⟩
      cases h with
      | here _ => rfl
      | next h _ => omega
    | succ k ih =>
      intro hk a ha
      rw [List.range_succ, List.foldl_append] at ha
      obtain ⟨h1, h2, h3⟩ := ih (by omega) _ rfl
      generalize (List.range k).foldl _ edge = b at h1 h2 h3 ha
      simp only [List.foldl_cons, List.foldl_nil] at ha
      have hid : ∀ a < k, ids a ≠ ids k := fun a ha heq => by have := hinj a (by omega) k (by omega) heq; omega
      have hij : ∀ a < k, ∀ b < k, ids a = ids b → a = b := fun a ha b hb => hinj a (by omega) b (by omega)
      have hT := follow_spec hij hid
      generalize follow ids k (k + 1) (ids k) = t at hT ha
      have htl := hT.lt hlt (by omega) (hlt k (by omega))
      have htk := hT.ge
      have hbt := h2 (ids k) (hlt k (by omega)) hid t hT
      subst ha
      refine ⟨?_, ?_, ?_⟩
      · intro i hi
        simp only [wr]
        by_cases hik : i = k
        · subst hik
          by_cases h4 : start + i = start + t
          · rw [if_pos h4, h4]; exact hbt
          · rw [if_neg h4, if_pos rfl]; exact hbt
        · rw [if_neg (by omega), if_neg (by omega)]; exact h1 i (by omega)
      · intro x hx hn y hy
        have hnk : ∀ b < k, ids b ≠ x := fun b hb => hn b (by omega)
        have hX := follow_spec hij hnk
        generalize follow ids k (k + 1) x = p at hX
        have hbp := h2 x hx hnk p hX
        have hpt : p ≠ t := by
          rintro rfl
          exact hn k (by omega) (Loc.inj hlt hinj k (by omega) (hlt k (by omega)) hx hid hnk hT hX)
        simp only [wr]
        by_cases hpk : p = k
        · have ht : t ≠ k := fun h => hpt (by omega)
          have := (hX.succ.2 hpk t (hT.succ.1 ht)).det hy
          subst this
          rw [if_pos rfl, ← hpk]; exact hbp
        · have := (hX.succ.1 hpk).det hy
          subst this
          rw [if_neg (by omega), if_neg (by omega)]; exact hbp
      · intro p hp
        simp only [wr]
        rw [if_neg (by omega), if_neg (by omega)]; exact h3 p hp
  obtain ⟨h1, _, h3⟩ := main len (Nat.le_refl _) _ rfl
  exact ⟨h1, h3⟩

end perm

/-- after sorting, every segment is a permutation of the original one, sorted by target -/
theorem sortIncident_spec {n : Nat} {srt : (Nat → Nat) → Nat → List Nat}
    (hs : ∀ key len, (srt key len).Perm (List.range len) ∧ (srt key len).Pairwise (fun a b => key a ≤ key b))
    (deg : Nat → Nat) (edge : Nat → GEdge) :
    ∀ u < n, (rd (sortIncident n srt (psum deg) edge) (psum deg u) (deg u)).Perm (rd edge (psum deg u) (deg u)) ∧
      (rd (sortIncident n srt (psum deg) edge) (psum deg u) (deg u)).Pairwise (fun a b => a.tgt ≤ b.tgt) := by
  intro u hu
  unfold sortIncident
  have hsz : ∀ c, psum deg (c + 1) - psum deg c = deg c := fun c => by rw [psum_succ]; omega
  simp only [hsz]
  have hids : ∀ (key : Nat → Nat) (len : Nat),
      (∀ a < len, (srt key len).getD a 0 < len) ∧
      (∀ a < len, ∀ b < len, (srt key len).getD a 0 = (srt key len).getD b 0 → a = b) := by
    intro key len
    obtain ⟨h1, _⟩ := hs key len
    have hl : (srt key len).length = len := by rw [h1.length_eq, List.length_range]
    have hnd : (srt key len).Nodup := h1.nodup_iff.2 List.nodup_range
    refine ⟨fun a ha => ?_, fun a ha b hb hab => ?_⟩
    · rw [List.getD_eq_getElem _ _ (by omega)]
      exact List.mem_range.1 (h1.mem_iff.1 (List.getElem_mem _))
    · rw [List.getD_eq_getElem _ _ (by omega), List.getD_eq_getElem _ _ (by omega)] at hab
      exact (List.Nodup.getElem_inj_iff hnd).1 hab
  refine foldl_local (fun (a : Nat → GEdge) u => applyPerm (fun i =>
      (srt (fun i => (a (psum deg u + i)).tgt) (deg u)).getD i 0) (psum deg u) (deg u) a)
    (fun u a => rd a (psum deg u) (deg u) = rd edge (psum deg u) (deg u))
    (fun u a => (rd a (psum deg u) (deg u)).Perm (rd edge (psum deg u) (deg u)) ∧
      (rd a (psum deg u) (deg u)).Pairwise (fun a b => a.tgt ≤ b.tgt)) (List.range n) edge List.nodup_range
    ?_ ?_ ?_ (by intros; rfl) u (List.mem_range.2 hu)
  · intro a u _ hP
    have hk := hids (fun i => (a (psum deg u + i)).tgt) (deg u)
    obtain ⟨hp, hsorted⟩ := hs (fun i => (a (psum deg u + i)).tgt) (deg u)
    have hap := (applyPerm_spec hk.1 hk.2 (psum deg u) a).1
    have hl : (srt (fun i => (a (psum deg u + i)).tgt) (deg u)).length = deg u := by
      rw [hp.length_eq, List.length_range]
    have hrd : rd (applyPerm (fun i => (srt (fun i => (a (psum deg u + i)).tgt) (deg u)).getD i 0) (psum deg u) (deg u) a)
        (psum deg u) (deg u) = (srt (fun i => (a (psum deg u + i)).tgt) (deg u)).map (fun i => a (psum deg u + i)) := by
      apply List.ext_getElem
      · simp [rd, hl]
      · intro i h1 h2
        have hi : i < deg u := by simpa [rd] using h1
        simp only [rd, List.getElem_map, List.getElem_range]
        rw [hap i hi]
        rw [List.getD_eq_getElem _ _ (by omega)]
    rw [hrd]
    refine ⟨?_, ?_⟩
    · rw [← hP]
      exact hp.map _
    · rw [List.pairwise_map]; exact hsorted
  · intro a c d _ _ hne hP
    have hk := hids (fun i => (a (psum deg c + i)).tgt) (deg c)
    rw [← hP]
    apply rd_congr
    intro i hi
    apply (applyPerm_spec hk.1 hk.2 (psum deg c) a).2
    rcases psum_disj deg hne with h | h <;> omega
  · intro a c d _ _ hne hQ
    have hk := hids (fun i => (a (psum deg c + i)).tgt) (deg c)
    have : rd (applyPerm (fun i => (srt (fun i => (a (psum deg c + i)).tgt) (deg c)).getD i 0) (psum deg c) (deg c) a)
        (psum deg d) (deg d) = rd a (psum deg d) (deg d) := by
      apply rd_congr
      intro i hi
      apply (applyPerm_spec hk.1 hk.2 (psum deg c) a).2
      rcases psum_disj deg hne with h | h <;> omega
    rw [this]; exact hQ

/-! ### Writing the entries -/

/-- append an entry to the segment of node `p.1` -/
def push (start : Nat → Nat) (st : (Nat → GEdge) × (Nat → Nat)) (p : Nat × GEdge) : (Nat → GEdge) × (Nat → Nat) :=
  (wr st.1 (start p.1 + st.2 p.1) p.2, wr st.2 p.1 (st.2 p.1 + 1))

theorem push_spec (start deg : Nat → Nat) (edge0 : Nat → GEdge) (ps : List (Nat × GEdge))
    (hdisj : ∀ c d, c ≠ d → start c + deg c ≤ start d ∨ start d + deg d ≤ start c)
    (hdeg : ∀ c, (ps.filter (fun p => p.1 = c)).length = deg c) (c : Nat) :
    rd (ps.foldl (push start) (edge0, fun _ => 0)).1 (start c) (deg c) =
      (ps.filter (fun p => p.1 = c)).map Prod.snd := by
  suffices K : ∀ (rest done : List (Nat × GEdge)) (st : (Nat → GEdge) × (Nat → Nat)), done ++ rest = ps →
      (∀ c, st.2 c = (done.filter (fun p => p.1 = c)).length) →
      (∀ c, rd st.1 (start c) (st.2 c) = (done.filter (fun p => p.1 = c)).map Prod.snd) →
      ∀ c, rd (rest.foldl (push start) st).1 (start c) (deg c) = (ps.filter (fun p => p.1 = c)).map Prod.snd by
    exact K ps [] (edge0, fun _ => 0) (by simp) (by simp) (by simp [rd]) c
  intro rest
  induction rest with
  | nil =>
    intro done st hd h1 h2 c
    rw [List.append_nil] at hd
    subst hd
    rw [← hdeg, ← h1]
    exact h2 c
  | cons p rest ih =>
    intro done st hd h1 h2 c
    rw [List.foldl_cons]
    have hle : ∀ c, ((done ++ [p]).filter (fun p => p.1 = c)).length ≤ deg c := by
      intro c
      rw [← hdeg, ← hd, show p :: rest = [p] ++ rest from rfl, ← List.append_assoc, List.filter_append _ rest,
        List.length_append]
      omega
    apply ih (done ++ [p])
    · simpa using hd
    · intro c
      simp only [List.filter_append, List.length_append, push]
      by_cases hc : p.1 = c
      · subst hc; rw [wr_same, h1]; simp
      · rw [wr_other _ _ (fun h => hc h.symm), h1]; simp [hc]
    · intro c
      simp only [List.filter_append, List.map_append, push]
      have hl := hle p.1
      rw [List.filter_append, List.length_append, ← h1] at hl
      simp only [List.filter_cons, decide_true, if_true, List.filter_nil, List.length_cons, List.length_nil] at hl
      by_cases hc : p.1 = c
      · subst hc
        rw [wr_same, rd_succ_last]
        congr 1
        · rw [← h2]
          apply rd_congr; intro i hi; rw [wr_other]; omega
        · rw [wr_same]; simp
      · rw [wr_other _ _ (fun h => hc h.symm)]
        have hl2 : st.2 c ≤ deg c := by
          rw [h1, ← hdeg, ← hd, List.filter_append, List.length_append]; omega
        have : rd (wr st.1 (start p.1 + st.2 p.1) p.2) (start c) (st.2 c) = rd st.1 (start c) (st.2 c) := by
          apply rd_congr; intro i hi
          rw [wr_other]
          rcases hdisj c p.1 (fun h => hc h.symm) with h | h <;> omega
        rw [this, h2]; simp [hc]

end SG
end Verif
