import Verif.Lemmas.Dyn1
import Verif.Lemmas.Maps
import Mathlib.Data.List.Nodup
import Mathlib.Data.List.Perm.Subperm
/-!
# The forest of performed contractions
-/
namespace Verif
namespace Dyn
open SMap (wr)

/-- `mg v`: the lists of `v` were appended to the ones of `par v`; `kids x` are the nodes appended to
`x` in this order, `sg x` is the order of the lists of `x`. -/
structure Tree (n : Nat) (mg : Nat → Bool) (par : Nat → Nat) (kids sg : Nat → List Nat) : Prop where
  seg : ∀ x, sg x = x :: (kids x).flatMap sg
  kid : ∀ v x, v ∈ kids x ↔ mg v = true ∧ par v = x
  knd : ∀ x, (kids x).Nodup
  lt : ∀ v, mg v = true → v < n ∧ par v < n
  cover : ∀ x < n, ∃ h < n, mg h = false ∧ x ∈ sg h
  snd : ∀ h < n, mg h = false → (sg h).Nodup
  dis : ∀ h < n, ∀ h' < n, mg h = false → mg h' = false → ∀ x ∈ sg h, x ∈ sg h' → h = h'

namespace Tree
variable {n : Nat} {mg : Nat → Bool} {par par' : Nat → Nat} {kids sg : Nat → List Nat}

theorem self (t : Tree n mg par kids sg) (x : Nat) : x ∈ sg x := by rw [t.seg]; simp

theorem mem_iff (t : Tree n mg par kids sg) (x y : Nat) : y ∈ sg x ↔ y = x ∨ ∃ w, mg w = true ∧ par w = x ∧ y ∈ sg w := by
  rw [t.seg, List.mem_cons, List.mem_flatMap]
  constructor
  · rintro (h | ⟨w, hw, h⟩)
    · exact Or.inl h
    · exact Or.inr ⟨w, ((t.kid w x).1 hw).1, ((t.kid w x).1 hw).2, h⟩
  · rintro (h | ⟨w, h1, h2, h⟩)
    · exact Or.inl h
    · exact Or.inr ⟨w, (t.kid w x).2 ⟨h1, h2⟩, h⟩

theorem kid_infix (t : Tree n mg par kids sg) {x w : Nat} (h : w ∈ kids x) : ∃ a b, sg x = x :: a ++ sg w ++ b := by
  obtain ⟨a, b, hab⟩ := List.append_of_mem h
  refine ⟨a.flatMap sg, b.flatMap sg, ?_⟩
  rw [t.seg x, hab]
  simp

theorem kid_length (t : Tree n mg par kids sg) {x w : Nat} (h : w ∈ kids x) : (sg w).length < (sg x).length := by
  obtain ⟨a, b, hab⟩ := t.kid_infix h
  rw [hab]; simp; omega

/-- induction over the forest -/
theorem induct (t : Tree n mg par kids sg) {P : Nat → Prop} (h : ∀ x, (∀ w ∈ kids x, P w) → P x) (x : Nat) : P x := by
  have : ∀ k x, (sg x).length ≤ k → P x := by
    intro k
    induction k with
    | zero => intro x hx; rw [t.seg x] at hx; simp at hx
    | succ k ih =>
      intro x hx
      refine h x (fun w hw => ih w ?_)
      have := t.kid_length hw
      omega
  exact this _ x (Nat.le_refl _)

theorem sub (t : Tree n mg par kids sg) {x y z : Nat} (h1 : y ∈ sg x) (h2 : z ∈ sg y) : z ∈ sg x := by
  have : ∀ x, y ∈ sg x → z ∈ sg x := by
    intro x
    refine t.induct (P := fun x => y ∈ sg x → z ∈ sg x) ?_ x
    intro x ih h
    rcases (t.mem_iff x y).1 h with rfl | ⟨w, hw1, hw2, hw⟩
    · exact h2
    · exact (t.mem_iff x z).2 (Or.inr ⟨w, hw1, hw2, ih w ((t.kid w x).2 ⟨hw1, hw2⟩) hw⟩)
  exact this x h1

theorem mem_lt (t : Tree n mg par kids sg) {x y : Nat} (hx : x < n) (h : y ∈ sg x) : y < n := by
  have : ∀ x, x < n → y ∈ sg x → y < n := by
    intro x
    refine t.induct (P := fun x => x < n → y ∈ sg x → y < n) ?_ x
    intro x ih hx h
    rcases (t.mem_iff x y).1 h with rfl | ⟨w, hw1, hw2, hw⟩
    · exact hx
    · exact ih w ((t.kid w x).2 ⟨hw1, hw2⟩) (t.lt w hw1).1 hw
  exact this x hx h

theorem nodup_sub (t : Tree n mg par kids sg) {x y : Nat} (hx : (sg x).Nodup) (h : y ∈ sg x) : (sg y).Nodup := by
  have : ∀ x, (sg x).Nodup → y ∈ sg x → (sg y).Nodup := by
    intro x
    refine t.induct (P := fun x => (sg x).Nodup → y ∈ sg x → (sg y).Nodup) ?_ x
    intro x ih hx h
    rcases (t.mem_iff x y).1 h with rfl | ⟨w, hw1, hw2, hw⟩
    · exact hx
    · have hk := (t.kid w x).2 ⟨hw1, hw2⟩
      refine ih w hk ?_ hw
      obtain ⟨a, b, hab⟩ := t.kid_infix hk
      rw [hab, List.nodup_append, List.nodup_append] at hx
      exact hx.1.2.1
  exact this x hx h

theorem nodup (t : Tree n mg par kids sg) {x : Nat} (hx : x < n) : (sg x).Nodup := by
  obtain ⟨h, hh, h1, h2⟩ := t.cover x hx
  exact t.nodup_sub (t.snd h hh h1) h2

theorem rest_nodup (t : Tree n mg par kids sg) {x : Nat} (hx : x < n) : ((kids x).flatMap sg).Nodup ∧ x ∉ (kids x).flatMap sg := by
  have := t.nodup hx
  rw [t.seg x, List.nodup_cons] at this
  exact ⟨this.2, this.1⟩

/-- a node of a ring other than its head was appended -/
theorem inner_mg (t : Tree n mg par kids sg) {x y : Nat} (h : y ∈ sg x) (hne : y ≠ x) : mg y = true := by
  have : ∀ x, y ∈ sg x → y ≠ x → mg y = true := by
    intro x
    refine t.induct (P := fun x => y ∈ sg x → y ≠ x → mg y = true) ?_ x
    intro x ih h hne
    rcases (t.mem_iff x y).1 h with h | ⟨w, hw1, hw2, hw⟩
    · exact absurd h hne
    · by_cases hyw : y = w
      · rw [hyw]; exact hw1
      · exact ih w ((t.kid w x).2 ⟨hw1, hw2⟩) hw hyw
  exact this x h hne

theorem self_notin (t : Tree n mg par kids sg) {x w : Nat} (hx : x < n) (hw : w ∈ kids x) : x ∉ sg w := by
  intro h
  exact (t.rest_nodup hx).2 (List.mem_flatMap.2 ⟨w, hw, h⟩)

theorem par_ne (t : Tree n mg par kids sg) {v : Nat} (h : mg v = true) : par v ≠ v := by
  intro hp
  exact t.self_notin (t.lt v h).1 ((t.kid v v).2 ⟨h, hp⟩) (t.self v)

/-- segments of different kids are disjoint -/
theorem kid_dis (t : Tree n mg par kids sg) {x w w' y : Nat} (hx : x < n) (hw : w ∈ kids x) (hw' : w' ∈ kids x) (h : y ∈ sg w)
    (h' : y ∈ sg w') : w = w' := by
  by_contra hne
  have h0 := (t.rest_nodup hx).1
  rw [List.nodup_flatMap] at h0
  have h1 := h0.2
  have hp : (kids x).Pairwise (fun a b => List.Disjoint (sg a) (sg b)) := h1
  rcases List.pairwise_iff_getElem.1 hp with hp'
  obtain ⟨i, hi, rfl⟩ := List.getElem_of_mem hw
  obtain ⟨j, hj, rfl⟩ := List.getElem_of_mem hw'
  rcases Nat.lt_trichotomy i j with hij | hij | hij
  · exact hp' i j hi hj hij h h'
  · subst hij; exact hne rfl
  · exact hp' j i hj hi hij h' h

theorem congr (t : Tree n mg par kids sg) (h : ∀ v, mg v = true → par' v = par v) : Tree n mg par' kids sg := by
  refine ⟨t.seg, ?_, t.knd, ?_, t.cover, t.snd, t.dis⟩
  · intro v x
    rw [t.kid]
    constructor
    · rintro ⟨h1, h2⟩; exact ⟨h1, by rw [h v h1]; exact h2⟩
    · rintro ⟨h1, h2⟩; exact ⟨h1, by rw [← h v h1]; exact h2⟩
  · intro v hv; rw [h v hv]; exact t.lt v hv

/-- ring of a part of a ring -/
theorem head_of (t : Tree n mg par kids sg) {h z y : Nat} (hh : h < n) (hm : mg h = false) (hz : z < n) (h1 : y ∈ sg z) (h2 : y ∈ sg h) :
    z ∈ sg h := by
  obtain ⟨h', hh', hm', hz'⟩ := t.cover z hz
  have := t.dis h hh h' hh' hm hm' y h2 (t.sub hz' h1)
  rw [this]; exact hz'

theorem par_mem (t : Tree n mg par kids sg) {v : Nat} (h : mg v = true) : v ∈ sg (par v) :=
  (t.mem_iff _ _).2 (Or.inr ⟨v, h, rfl, t.self v⟩)

theorem length_le (t : Tree n mg par kids sg) {x : Nat} (hx : x < n) : ((kids x).flatMap sg).length + 1 ≤ n := by
  have h1 := t.nodup hx
  have h2 : (sg x).length ≤ (List.range n).length := by
    refine (List.subperm_of_subset h1 ?_).length_le
    intro y hy
    exact List.mem_range.2 (t.mem_lt hx hy)
  rw [t.seg x] at h2
  simpa using h2

/-- appending `v` to `u` -/
theorem merge (t : Tree n mg par kids sg) {u v : Nat} (hu : u < n) (hv : v < n) (hmu : mg u = false) (hmv : mg v = false) (huv : u ≠ v)
    (hp : par v = u) : Tree n (wr mg v true) par (wr kids u (kids u ++ [v])) (wr sg u (sg u ++ sg v)) := by
  have hnk : ∀ x, u ∉ kids x := by
    intro x h
    have := ((t.kid u x).1 h).1
    rw [hmu] at this; cases this
  have hseg : ∀ x, wr sg u (sg u ++ sg v) x = x :: (wr kids u (kids u ++ [v]) x).flatMap (wr sg u (sg u ++ sg v)) := by
    intro x
    have hfm : ∀ l : List Nat, u ∉ l → l.flatMap (wr sg u (sg u ++ sg v)) = l.flatMap sg := by
      intro l hl
      refine List.flatMap_congr ?_
      intro y hy
      exact wr_other _ _ (by rintro rfl; exact hl hy)
    by_cases hx : x = u
    · subst hx
      rw [wr_same, wr_same, hfm _ (by simp; exact ⟨hnk x, huv⟩)]
      conv_lhs => rw [t.seg x]
      simp
    · rw [wr_other _ _ hx, wr_other _ _ hx, hfm _ (hnk x)]
      exact t.seg x
  refine ⟨hseg, ?_, ?_, ?_, ?_, ?_, ?_⟩
  · intro w x
    have hmg : wr mg v true w = true ↔ w = v ∨ mg w = true := by
      by_cases h : w = v
      · subst h; rw [wr_same]; simp
      · rw [wr_other _ _ h]; simp [h]
    rw [hmg]
    by_cases hx : x = u
    · subst hx
      rw [wr_same, List.mem_append, List.mem_singleton, t.kid]
      constructor
      · rintro (⟨h1, h2⟩ | h)
        · exact ⟨Or.inr h1, h2⟩
        · subst h; exact ⟨Or.inl rfl, hp⟩
      · rintro ⟨h1 | h1, h2⟩
        · exact Or.inr h1
        · exact Or.inl ⟨h1, h2⟩
    · rw [wr_other _ _ hx, t.kid]
      constructor
      · rintro ⟨h1, h2⟩; exact ⟨Or.inr h1, h2⟩
      · rintro ⟨h1 | h1, h2⟩
        · subst h1; exact absurd (h2.symm.trans hp) hx
        · exact ⟨h1, h2⟩
  · intro x
    by_cases hx : x = u
    · subst hx
      rw [wr_same, List.nodup_append]
      refine ⟨t.knd x, by simp, ?_⟩
      rintro y hy z hz rfl
      rw [List.mem_singleton] at hz
      subst hz
      have := ((t.kid _ _).1 hy).1
      rw [hmv] at this; cases this
    · rw [wr_other _ _ hx]; exact t.knd x
  · intro w hw
    by_cases h : w = v
    · subst h; exact ⟨hv, by rw [hp]; exact hu⟩
    · rw [wr_other _ _ h] at hw; exact t.lt w hw
  · intro x hx
    obtain ⟨h, h1, h2, h3⟩ := t.cover x hx
    by_cases hhv : h = v
    · subst hhv
      refine ⟨u, hu, by rw [wr_other _ _ huv]; exact hmu, ?_⟩
      rw [wr_same]; exact List.mem_append_right _ h3
    · refine ⟨h, h1, by rw [wr_other _ _ hhv]; exact h2, ?_⟩
      by_cases hhu : h = u
      · subst hhu; rw [wr_same]; exact List.mem_append_left _ h3
      · rw [wr_other _ _ hhu]; exact h3
  · intro h hh hm
    have hhv : h ≠ v := by rintro rfl; rw [wr_same] at hm; cases hm
    rw [wr_other _ _ hhv] at hm
    by_cases hhu : h = u
    · subst hhu
      rw [wr_same, List.nodup_append]
      refine ⟨t.snd h hh hm, t.snd v hv hmv, ?_⟩
      rintro x hx y hy rfl
      exact huv (t.dis h hh v hv hm hmv x hx hy)
    · rw [wr_other _ _ hhu]; exact t.snd h hh hm
  · intro h hh h' hh' hm hm' x hx hx'
    have hhv : h ≠ v := by rintro rfl; rw [wr_same] at hm; cases hm
    have hhv' : h' ≠ v := by rintro rfl; rw [wr_same] at hm'; cases hm'
    rw [wr_other _ _ hhv] at hm
    rw [wr_other _ _ hhv'] at hm'
    have hin : ∀ g, g ≠ v → mg g = false → g < n → x ∈ wr sg u (sg u ++ sg v) g → x ∈ sg g ∨ (g = u ∧ x ∈ sg v) := by
      intro g _ _ _ h
      by_cases hgu : g = u
      · subst hgu
        rw [wr_same, List.mem_append] at h
        rcases h with h | h
        · exact Or.inl h
        · exact Or.inr ⟨rfl, h⟩
      · rw [wr_other _ _ hgu] at h; exact Or.inl h
    rcases hin h hhv hm hh hx with h1 | ⟨h1, h1'⟩ <;> rcases hin h' hhv' hm' hh' hx' with h2 | ⟨h2, h2'⟩
    · exact t.dis h hh h' hh' hm hm' x h1 h2
    · exact absurd (t.dis h hh v hv hm hmv x h1 h2') hhv
    · exact absurd (t.dis h' hh' v hv hm' hmv x h2 h1') hhv'
    · rw [h1, h2]

/-- splitting `v` off -/
theorem unmerge (t : Tree n mg par kids sg) {u v : Nat} (hu : u < n) (hmu : mg u = false) (hmv : mg v = true) (hp : par v = u) {a b : List Nat}
    (hk : kids u = a ++ v :: b) :
    Tree n (wr mg v false) par (wr kids u (a ++ b)) (wr sg u (u :: (a ++ b).flatMap sg)) ∧
    sg u = u :: (a.flatMap sg ++ sg v ++ b.flatMap sg) := by
  have huv : u ≠ v := by rintro rfl; rw [hmu] at hmv; cases hmv
  have hv : v < n := (t.lt v hmv).1
  have hnk : ∀ x, u ∉ kids x := by
    intro x h
    have := ((t.kid u x).1 h).1
    rw [hmu] at this; cases this
  have hsu : sg u = u :: (a.flatMap sg ++ sg v ++ b.flatMap sg) := by
    rw [t.seg u, hk]; simp
  have huab : u ∉ a ++ b := by
    intro h
    refine hnk u ?_
    rw [hk]
    rw [List.mem_append] at h
    rcases h with h | h
    · exact List.mem_append_left _ h
    · exact List.mem_append_right _ (List.mem_cons_of_mem _ h)
  have hknd := t.knd u
  rw [hk, List.nodup_append, List.nodup_cons] at hknd
  have hvab : v ∉ a ++ b := by
    rw [List.mem_append]
    rintro (h | h)
    · exact hknd.2.2 v h v (by simp) rfl
    · exact hknd.2.1.1 h
  have hsnd := t.snd u hu hmu
  have hsub : ∀ x ∈ u :: (a ++ b).flatMap sg, x ∈ sg u ∧ x ∉ sg v := by
    intro x hx
    rw [hsu, List.nodup_cons, List.nodup_append, List.nodup_append] at hsnd
    rw [List.mem_cons, List.flatMap_append, List.mem_append] at hx
    rcases hx with hx | hx | hx
    · subst hx
      refine ⟨t.self x, fun h => hsnd.1 ?_⟩
      simp [h]
    · refine ⟨by rw [hsu]; simp only [List.mem_cons, List.mem_append]; exact Or.inr (Or.inl (Or.inl hx)), fun h => ?_⟩
      exact hsnd.2.1.2.2 x hx x h rfl
    · refine ⟨by rw [hsu]; simp only [List.mem_cons, List.mem_append]; exact Or.inr (Or.inr hx), fun h => ?_⟩
      exact hsnd.2.2.2 x (List.mem_append_right _ h) x hx rfl
  refine ⟨⟨?_, ?_, ?_, ?_, ?_, ?_, ?_⟩, hsu⟩
  · intro x
    have hfm : ∀ l : List Nat, u ∉ l → l.flatMap (wr sg u (u :: (a ++ b).flatMap sg)) = l.flatMap sg := by
      intro l hl
      refine List.flatMap_congr ?_
      intro y hy
      exact wr_other _ _ (by rintro rfl; exact hl hy)
    by_cases hx : x = u
    · subst hx
      rw [wr_same, wr_same, hfm _ huab]
    · rw [wr_other _ _ hx, wr_other _ _ hx, hfm _ (hnk x)]
      exact t.seg x
  · intro w x
    have hmg : wr mg v false w = true ↔ w ≠ v ∧ mg w = true := by
      by_cases h : w = v
      · subst h; rw [wr_same]; simp
      · rw [wr_other _ _ h]; simp [h]
    rw [hmg]
    by_cases hx : x = u
    · subst hx
      rw [wr_same]
      have : w ∈ a ++ b ↔ w ∈ kids x ∧ w ≠ v := by
        rw [hk]
        simp only [List.mem_append, List.mem_cons]
        constructor
        · rintro (h | h)
          · exact ⟨Or.inl h, fun hh => hvab (hh ▸ List.mem_append_left _ h)⟩
          · exact ⟨Or.inr (Or.inr h), fun hh => hvab (hh ▸ List.mem_append_right _ h)⟩
        · rintro ⟨h | h | h, hne⟩
          · exact Or.inl h
          · exact absurd h hne
          · exact Or.inr h
      rw [this, t.kid]; tauto
    · rw [wr_other _ _ hx, t.kid]
      constructor
      · rintro ⟨h1, h2⟩
        exact ⟨⟨by rintro rfl; exact hx (h2.symm.trans hp), h1⟩, h2⟩
      · rintro ⟨⟨_, h1⟩, h2⟩; exact ⟨h1, h2⟩
  · intro x
    by_cases hx : x = u
    · subst hx
      rw [wr_same, List.nodup_append]
      exact ⟨hknd.1, hknd.2.1.2, fun y hy z hz => hknd.2.2 y hy z (by simp [hz])⟩
    · rw [wr_other _ _ hx]; exact t.knd x
  · intro w hw
    by_cases h : w = v
    · subst h; rw [wr_same] at hw; cases hw
    · rw [wr_other _ _ h] at hw; exact t.lt w hw
  · intro x hx
    obtain ⟨h, h1, h2, h3⟩ := t.cover x hx
    by_cases hhu : h = u
    · subst hhu
      by_cases hxv : x ∈ sg v
      · exact ⟨v, hv, wr_same _ _ _, by rw [wr_other _ _ huv.symm]; exact hxv⟩
      · refine ⟨h, h1, by rw [wr_other _ _ huv]; exact h2, ?_⟩
        rw [wr_same]
        rw [hsu] at h3
        simp only [List.mem_cons, List.mem_append, List.flatMap_append] at h3 ⊢
        tauto
    · refine ⟨h, h1, ?_, by rw [wr_other _ _ hhu]; exact h3⟩
      by_cases hhv : h = v
      · subst hhv; rw [wr_same]
      · rw [wr_other _ _ hhv]; exact h2
  · intro h hh hm
    by_cases hhu : h = u
    · subst hhu
      rw [wr_same]
      have hsub' : (h :: (a ++ b).flatMap sg).Sublist (sg h) := by
        rw [hsu]
        refine List.Sublist.cons_cons _ ?_
        rw [List.flatMap_append, List.append_assoc]
        exact (List.Sublist.refl _).append (List.sublist_append_right _ _)
      exact hsub'.nodup hsnd
    · rw [wr_other _ _ hhu]
      exact t.nodup hh
  · intro h hh h' hh' hm hm' x hx hx'
    have key : ∀ g, g < n → wr mg v false g = false → x ∈ wr sg u (u :: (a ++ b).flatMap sg) g →
        (g = v ∧ x ∈ sg v) ∨ (g ≠ v ∧ mg g = false ∧ x ∈ sg g ∧ x ∉ sg v) := by
      intro g hg hm hx
      by_cases hgv : g = v
      · subst hgv
        rw [wr_other _ _ huv.symm] at hx
        exact Or.inl ⟨rfl, hx⟩
      · rw [wr_other _ _ hgv] at hm
        right
        refine ⟨hgv, hm, ?_⟩
        by_cases hgu : g = u
        · subst hgu
          rw [wr_same] at hx
          exact hsub x hx
        · rw [wr_other _ _ hgu] at hx
          refine ⟨hx, fun hxv => hgu ?_⟩
          exact t.dis g hg u hu hm hmu x hx (t.sub (hp ▸ t.par_mem hmv) hxv)
    rcases key h hh hm hx with ⟨h1, h2⟩ | ⟨h1, h2, h3, h4⟩ <;> rcases key h' hh' hm' hx' with ⟨k1, k2⟩ | ⟨k1, k2, k3, k4⟩
    · rw [h1, k1]
    · exact absurd h2 k4
    · exact absurd k2 h4
    · exact t.dis h hh h' hh' h2 k2 x h3 k3

/-- the empty forest -/
theorem init (n : Nat) (par : Nat → Nat) : Tree n (fun _ => false) par (fun _ => []) (fun x => [x]) := by
  refine ⟨fun x => rfl, by simp, by simp, by simp, ?_, by simp, ?_⟩
  · intro x hx; exact ⟨x, hx, rfl, by simp⟩
  · intro h _ h' _ _ _ x hx hx'
    simp at hx hx'
    rw [← hx, ← hx']

end Tree
end Dyn
end Verif
