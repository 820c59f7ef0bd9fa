import Verif.Model.DetRebalancer
import Verif.Lemmas.DetLP6
import Verif.Lemmas.ConcurrentCache
import Verif.Props.C45
/-!
# Lemmas on the deterministic rebalancer: proposed moves
-/
namespace Verif
namespace DReb
open DetLP (Mv Good Fit moveAll)
open GainComp CSt PHG

variable {c : Cfg}

theorem iterate_cyclic {k : Nat} : ∀ (n a : Nat), a < k → List.iterate (fun b => if b + 1 = k then 0 else b + 1) a n = (List.range n).map (fun i => (a + i) % k) := by
  intro n
  induction n with
  | zero => intro a _; rfl
  | succ n ih =>
    intro a ha
    rw [List.range_succ_eq_map, List.map_cons, List.map_map]
    show a :: List.iterate _ (if a + 1 = k then 0 else a + 1) n = _
    by_cases h : a + 1 = k
    · rw [if_pos h, ih 0 (by omega)]
      simp only [Nat.add_zero, Nat.mod_eq_of_lt ha]
      congr 1
      apply List.map_congr_left
      intro i _
      show (0 + i) % k = (a + (i + 1)) % k
      rw [show a + (i + 1) = i + k by omega, Nat.add_mod_right, Nat.zero_add]
    · rw [if_neg h, ih (a + 1) (by omega)]
      simp only [Nat.add_zero, Nat.mod_eq_of_lt ha]
      congr 1
      apply List.map_congr_left
      intro i _
      show (a + 1 + i) % k = (a + (i + 1)) % k
      rw [show a + (i + 1) = a + 1 + i by omega]

theorem mem_cyclic {k u b : Nat} : b ∈ cyclic k u ↔ b < k := by
  unfold cyclic
  rcases Nat.eq_zero_or_pos k with h | h
  · subst h
    constructor
    · intro hb; simp at hb
    · intro hb; omega
  · have hu := Nat.mod_lt u h
    rw [iterate_cyclic k _ hu, List.mem_map]
    constructor
    · rintro ⟨i, _, rfl⟩; exact Nat.mod_lt _ h
    · intro hb
      by_cases hc : u % k ≤ b
      · exact ⟨b - u % k, List.mem_range.2 (by omega), by rw [show u % k + (b - u % k) = b by omega, Nat.mod_eq_of_lt hb]⟩
      · exact ⟨b + k - u % k, List.mem_range.2 (by omega), by
          rw [show u % k + (b + k - u % k) = b + k by omega, Nat.add_mod_right, Nat.mod_eq_of_lt hb]⟩

theorem pick_spec {wt : Nat → Int} {w iso : Int} : ∀ (l seen : List (Nat × Int)) (r : Option Nat × Int), (∀ x ∈ l, 0 ≤ x.2) →
    ((r = (none, iso) ∧ ∀ x ∈ seen, valid c wt x.1 w = false) ∨
      ∃ x ∈ seen, r = (some x.1, iso - x.2) ∧ valid c wt x.1 w = true ∧ ∀ y ∈ seen, valid c wt y.1 w = true → y.2 ≤ x.2) →
    (pick c wt w iso l r = (none, iso) ∧ ∀ x ∈ seen ++ l, valid c wt x.1 w = false) ∨
      ∃ x ∈ seen ++ l, pick c wt w iso l r = (some x.1, iso - x.2) ∧ valid c wt x.1 w = true ∧ ∀ y ∈ seen ++ l, valid c wt y.1 w = true → y.2 ≤ x.2 := by
  intro l
  induction l with
  | nil => intro seen r _ h; rw [List.append_nil]; exact h
  | cons z l ih =>
    intro seen r hl h
    have hz := hl z List.mem_cons_self
    rw [show seen ++ z :: l = (seen ++ [z]) ++ l by simp]
    refine ih (seen ++ [z]) _ (fun x hx => hl x (List.mem_cons_of_mem _ hx)) ?_
    dsimp only
    rcases h with ⟨h1, h2⟩ | ⟨x, hx, h1, h2, h3⟩
    · subst h1
      by_cases hv : valid c wt z.1 w = true
      · rw [if_pos ⟨by dsimp only; omega, hv⟩]
        refine Or.inr ⟨z, by simp, rfl, hv, fun y hy hyv => ?_⟩
        rcases List.mem_append.1 hy with hy | hy
        · rw [h2 y hy] at hyv; cases hyv
        · rw [List.mem_singleton.1 hy]
      · rw [if_neg (fun hh => hv hh.2)]
        refine Or.inl ⟨rfl, fun y hy => ?_⟩
        rcases List.mem_append.1 hy with hy | hy
        · exact h2 y hy
        · rw [List.mem_singleton.1 hy]; simpa using hv
    · subst h1
      by_cases hv : iso - z.2 ≤ iso - x.2 ∧ valid c wt z.1 w = true
      · rw [if_pos hv]
        refine Or.inr ⟨z, by simp, rfl, hv.2, fun y hy hyv => ?_⟩
        rcases List.mem_append.1 hy with hy | hy
        · have := h3 y hy hyv; omega
        · rw [List.mem_singleton.1 hy]
      · rw [if_neg hv]
        refine Or.inr ⟨x, by simp [hx], rfl, h2, fun y hy hyv => ?_⟩
        rcases List.mem_append.1 hy with hy | hy
        · exact h3 y hy hyv
        · rw [List.mem_singleton.1 hy] at hyv ⊢
          by_contra hlt
          exact hv ⟨by omega, hyv⟩

variable {σ : Type} {C : ConInfo σ} {m mx : Nat}

/-- the partition data of a state without running moves -/
theorem good_sim {L : C.Lawful m c.k mx} (hw : c.H.WF) {s : CSt σ} (hG : Good L c.H s) : Sim L c.H ⟨s.part, s.wt, s.con⟩ s.part where
  part := rfl
  range := hG.inv.range
  wt := fun b hb => hG.weight hw hb
  con := by
    obtain ⟨T, h1, h2⟩ := hG.inv.con
    refine ⟨T, h1, fun e he b hb => ?_⟩
    rw [h2 e he b hb]
    exact HG.pinsIn_congr (view_quiescent ((quiescent_iff s).1 hG.quiet) hw e he) b

theorem good_assigned {L : C.Lawful m c.k mx} {s : CSt σ} (hG : Good L c.H s) : ∀ v ∈ c.H.nodes, s.part v ≠ none := by
  intro v hv h
  obtain ⟨b, _, hb⟩ := hG.inv.assigned v hv
  rw [h] at hb; cases hb

/-- The proposed block of a node is a best one among the blocks that may receive it. -/
theorem target_spec {L : C.Lawful m c.k mx} (hw : c.H.WF) (hf : c.H.Fits m mx) (hew : ∀ e ∈ c.H.edges, 0 ≤ c.H.ew e) {s : CSt σ} (hG : Good L c.H s)
    {u a : Nat} (hu : u ∈ c.H.nodes) (hp : s.part u = some a) (ha : valid c s.wt a (c.H.nw u) = false) {scr : Scratch}
    (hs : scr.tmp.size = 0 ∧ scr.iso = 0) :
    let t := targetOf c s.wt (precompute c.o C c.H s.con a u scr) u
    (t.1 = none ∧ ∀ b < c.k, valid c s.wt b (c.H.nw u) = false) ∨
    ∃ b, t.1 = some b ∧ b < c.k ∧ b ≠ a ∧ valid c s.wt b (c.H.nw u) = true ∧ t.2 = c.prio (change c.H c.o s.part u b) (c.H.nw u) ∧
      ∀ b' < c.k, b' ≠ a → valid c s.wt b' (c.H.nw u) = true → change c.H c.o s.part u b ≤ change c.H c.o s.part u b' := by
  intro t
  obtain ⟨mp, i1, i2, i3, i4⟩ := precompute_spec c.o hw hf (good_sim hw hG) hu hp (good_assigned hG) hs.1 hs.2
  set q := precompute c.o C c.H s.con a u scr with hq
  have hlist := i1.toDenseInv.lists
  have hmem : ∀ x : Nat × Int, x ∈ q.tmp.toList ↔ mp x.1 = some x.2 := fun x => hlist.2 x.1 x.2
  have hnn : ∀ x ∈ q.tmp.toList, 0 ≤ x.2 := by
    intro x hx
    have h1 := (hmem x).1 hx
    have := (i4 x.1 (i2.lt _ _ h1) (i2.ne _ _ h1)).2 hew
    rwa [h1] at this
  have hch : ∀ b < c.k, b ≠ a → q.iso - (mp b).getD 0 = change c.H c.o s.part u b := fun b hb hne => (i4 b hb hne).1
  have hpos : ∀ b < c.k, b ≠ a → 0 ≤ (mp b).getD 0 := fun b hb hne => (i4 b hb hne).2 hew
  rcases pick_spec (c := c) (wt := s.wt) (w := c.H.nw u) (iso := q.iso) q.tmp.toList [] (none, q.iso) hnn (Or.inl ⟨rfl, by simp⟩) with ⟨h1, h2⟩ | ⟨x, hx, h1, h2, h3⟩
  · -- no adjacent block
    rw [List.nil_append] at h2
    have hadj : ∀ b, mp b ≠ none → valid c s.wt b (c.H.nw u) = false := by
      intro b hb
      obtain ⟨x, hx⟩ := Option.ne_none_iff_exists'.1 hb
      exact h2 (b, x) ((hmem (b, x)).2 hx)
    have ht : t = ((cyclic c.k u).find? (fun b => valid c s.wt b (c.H.nw u) && !q.tmp.contains b), c.prio q.iso (c.H.nw u)) := by
      show targetOf c s.wt q u = _
      unfold targetOf
      dsimp only
      rw [h1]
    cases hfd : (cyclic c.k u).find? (fun b => valid c s.wt b (c.H.nw u) && !q.tmp.contains b) with
    | none =>
      left
      refine ⟨by rw [ht, hfd], fun b hb => ?_⟩
      by_cases hm : mp b = none
      · have := List.find?_eq_none.1 hfd b (mem_cyclic.2 hb)
        rw [i1.contains_iff, hm] at this
        simpa using this
      · exact hadj b hm
    | some b =>
      right
      have hb1 := List.find?_some hfd
      have hb2 := mem_cyclic.1 (List.mem_of_find?_eq_some hfd)
      rw [Bool.and_eq_true, i1.contains_iff] at hb1
      have hmb : mp b = none := by
        cases hmb : mp b with
        | none => rfl
        | some x => rw [hmb] at hb1; simp at hb1
      have hne : b ≠ a := by rintro rfl; rw [ha] at hb1; exact absurd hb1.1 (by simp)
      have hc0 := hch b hb2 hne
      rw [hmb] at hc0
      have hc0' : q.iso = change c.H c.o s.part u b := by simpa using hc0
      refine ⟨b, by rw [ht, hfd], hb2, hne, hb1.1, by rw [ht, ← hc0'], fun b' hb' hne' hv => ?_⟩
      have hm' : mp b' = none := by
        by_contra hm
        rw [hadj b' hm] at hv; cases hv
      have := hch b' hb' hne'
      rw [hm'] at this
      have h0 : q.iso = change c.H c.o s.part u b' := by simpa using this
      omega
  · right
    rw [List.nil_append] at hx h3
    have hxm := (hmem x).1 hx
    have hlt := i2.lt _ _ hxm
    have hne := i2.ne _ _ hxm
    have hcx := hch x.1 hlt hne
    rw [hxm] at hcx
    have hcx' : q.iso - x.2 = change c.H c.o s.part u x.1 := hcx
    have ht : t = (some x.1, c.prio (q.iso - x.2) (c.H.nw u)) := by
      show targetOf c s.wt q u = _
      unfold targetOf
      dsimp only
      rw [h1]
    refine ⟨x.1, by rw [ht], hlt, hne, h2, by rw [ht, hcx'], fun b' hb' hne' hv => ?_⟩
    have hcb := hch b' hb' hne'
    rw [← hcx', ← hcb]
    cases hmb : mp b' with
    | none => have := hnn x hx; simp; omega
    | some y =>
      have := h3 (b', y) ((hmem (b', y)).2 hmb) hv
      have h5 : y ≤ x.2 := this
      show q.iso - x.2 ≤ q.iso - y
      omega

theorem find?_congr' {α : Type} {p q : α → Bool} : ∀ {l : List α}, (∀ x ∈ l, p x = q x) → l.find? p = l.find? q := by
  intro l
  induction l with
  | nil => intro _; rfl
  | cons x l ih =>
    intro h
    rw [List.find?_cons, List.find?_cons, h x List.mem_cons_self, ih (fun y hy => h y (List.mem_cons_of_mem _ hy))]

theorem valid_congr {wt wt' : Nat → Int} {b : Nat} {w : Int} (h : wt b = wt' b) : valid c wt b w = valid c wt' b w := by
  unfold valid; rw [h]

theorem targetOf_congr {wt wt' : Nat → Int} (hwt : ∀ b < c.k, wt b = wt' b) {q q' : Scratch} (hs : Same q.tmp q'.tmp) (hi : q.iso = q'.iso)
    (hk : ∀ x ∈ q.tmp.toList, x.1 < c.k) (u : Nat) : targetOf c wt q u = targetOf c wt' q' u := by
  unfold targetOf
  have hp : ∀ (l : List (Nat × Int)) (r : Option Nat × Int), (∀ x ∈ l, x.1 < c.k) →
      pick c wt (c.H.nw u) q.iso l r = pick c wt' (c.H.nw u) q.iso l r := by
    intro l
    unfold pick
    induction l with
    | nil => intro r _; rfl
    | cons x l ih =>
      intro r hl
      rw [List.foldl_cons, List.foldl_cons, valid_congr (hwt x.1 (hl x List.mem_cons_self))]
      exact ih _ (fun y hy => hl y (List.mem_cons_of_mem _ hy))
  have e1 := hp q.tmp.toList (none, q.iso) hk
  have e2 : (cyclic c.k u).find? (fun b => valid c wt b (c.H.nw u) && !q.tmp.contains b) =
      (cyclic c.k u).find? (fun b => valid c wt' b (c.H.nw u) && !q'.tmp.contains b) :=
    find?_congr' (fun b hb => by rw [valid_congr (hwt b (mem_cyclic.1 hb)), hs.contains])
  rw [← hi, hs.toList]
  dsimp only
  rw [e1, e2]

/-- The proposed move depends only on the partition. -/
theorem target_det (hw : c.H.WF) (hf : c.H.Fits m mx) {s s' : CSt (Packed × ConnSets)} (hG : Good (denseLawful m c.k mx) c.H s)
    (hG' : Good (denseLawful m c.k mx) c.H s') (hpt : s.part = s'.part)
    {u a : Nat} (hu : u ∈ c.H.nodes) (hp : s.part u = some a) {scr scr' : Scratch} (hs : scr.tmp.size = 0 ∧ scr.iso = 0) (hs' : scr'.tmp.size = 0 ∧ scr'.iso = 0) :
    targetOf c s.wt (precompute c.o denseCon c.H s.con a u scr) u = targetOf c s'.wt (precompute c.o denseCon c.H s'.con a u scr') u := by
  have S := good_sim hw hG
  have S' := good_sim hw hG'
  rw [← hpt] at S'
  have hinc : ∀ e ∈ c.H.inc u, e ∈ c.H.edges := fun e he => ((hw.inc_iff u hu e).1 he).1
  obtain ⟨d1, d2⟩ := precompute_det (H := c.H) (k := c.k) (C := denseCon) (C' := denseCon) (con := s.con) (con' := s'.con) (Φ := s.part) c.o (hG.inv.range u a hp) (c.H.inc u)
    (fun e he => ⟨edgeOk hf S (hinc e he), edgeOk hf S' (hinc e he), by
      have h1 := dense_connSet hf S (hinc e he)
      have h2 := dense_connSet hf S' (hinc e he)
      exact h2.trans h1.symm⟩) (Same.empty hs.1 hs'.1) (hs.2.trans hs'.2.symm)
  obtain ⟨mp, i1, i2, _, _⟩ := precompute_spec c.o hw hf S hu hp (good_assigned hG) hs.1 hs.2
  refine targetOf_congr (fun b hb => by rw [hG.weight hw hb, hG'.weight hw hb, hpt]) d1 d2 (fun x hx => ?_) u
  exact i2.lt _ _ ((i1.toDenseInv.lists.2 x.1 x.2).1 hx)

end DReb
end Verif
