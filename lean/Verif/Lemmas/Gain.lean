import Verif.Model.GainCache
import Verif.Lemmas.Hypergraph
namespace Verif

theorem HG.pinsIn_congr {H : HG} {Φ Ψ : Assign} {e : Nat} (h : ∀ v ∈ H.pins e, Φ v = Ψ v) (b : Nat) :
    H.pinsIn Φ e b = H.pinsIn Ψ e b := by
  unfold pinsIn
  apply List.countP_congr
  intro v hv
  rw [h v hv]

theorem HG.blocksOf_congr {H : HG} {Φ Ψ : Assign} {e : Nat} (h : ∀ v ∈ H.pins e, Φ v = Ψ v) :
    H.blocksOf Φ e = H.blocksOf Ψ e := by
  ext b; rw [mem_blocksOf, mem_blocksOf, pinsIn_congr h]

theorem HG.lam_congr {H : HG} {Φ Ψ : Assign} {e : Nat} (h : ∀ v ∈ H.pins e, Φ v = Ψ v) :
    H.lam Φ e = H.lam Ψ e := by unfold lam; rw [blocksOf_congr h]

/-- objective term of one hyperedge -/
def HG.term (H : HG) (Φ : Assign) (e : Nat) : Metrics.Obj → Int
  | .cut => if H.lam Φ e > 1 then H.ew e else 0
  | .km1 => ((H.lam Φ e : Int) - 1) * H.ew e
  | .soed => if H.lam Φ e > 1 then (H.lam Φ e : Int) * H.ew e else 0

theorem HG.term_congr {H : HG} {Φ Ψ : Assign} {e : Nat} (h : ∀ v ∈ H.pins e, Φ v = Ψ v)
    (o : Metrics.Obj) : H.term Φ e o = H.term Ψ e o := by
  cases o <;> simp only [term, lam_congr h]

theorem HG.pinsIn_add_le {H : HG} {Φ : Assign} {e b c : Nat} (h : b ≠ c) :
    H.pinsIn Φ e b + H.pinsIn Φ e c ≤ (H.pins e).length := by
  unfold pinsIn
  induction H.pins e with
  | nil => simp
  | cons a l ih =>
    simp only [List.countP_cons, List.length_cons, decide_eq_true_eq]
    by_cases h1 : Φ a = some b
    · have : ¬ Φ a = some c := by rw [h1]; simp [h]
      simp only [h1, if_true, if_false, Option.some.injEq, h]; omega
    · by_cases h2 : Φ a = some c
      · have : ¬ c = b := fun hh => h hh.symm
        simp only [h2, Option.some.injEq, this, if_true, if_false]; omega
      · simp only [h1, h2, if_false]; omega

/-- Connectivity change when pin `u` moves from `src` to `dst`. -/
theorem HG.lam_put {H : HG} {Φ : Assign} {e u src dst : Nat} (hn : (H.pins e).Nodup)
    (hu : u ∈ H.pins e) (hs : Φ u = some src) (hne : src ≠ dst) :
    H.lam (Φ.put u dst) e + (if H.pinsIn (Φ.put u dst) e src = 0 then 1 else 0) =
      H.lam Φ e + (if H.pinsIn (Φ.put u dst) e dst = 1 then 1 else 0) := by
  have key : ∀ c, H.pinsIn (Φ.put u dst) e c + (if Φ u = some c then 1 else 0) =
    H.pinsIn Φ e c + (if c = dst then 1 else 0) := fun c => HG.pinsIn_put_mem hn hu
  simp only [hs, Option.some.injEq] at key
  have ks := key src
  have kd := key dst
  simp only [if_true, if_neg hne] at ks kd
  have hsrc : src ∈ H.blocksOf Φ e := by rw [mem_blocksOf]; omega
  have hdst : dst ∈ H.blocksOf (Φ.put u dst) e := by rw [mem_blocksOf]; omega
  unfold lam
  have hmem : ∀ c, c ≠ src → c ≠ dst →
      (c ∈ H.blocksOf (Φ.put u dst) e ↔ c ∈ H.blocksOf Φ e) := by
    intro c h1 h2
    have := key c
    rw [if_neg (fun h => h1 h.symm), if_neg h2] at this
    rw [mem_blocksOf, mem_blocksOf]; omega
  have hA : ∀ (S : Finset Nat), S.card = ((S.erase src).erase dst).card +
      (if src ∈ S then 1 else 0) + (if dst ∈ S then 1 else 0) := by
    intro S
    by_cases h1 : src ∈ S
    · have e1 := Finset.card_erase_add_one h1
      by_cases h2 : dst ∈ S
      · have : dst ∈ S.erase src := Finset.mem_erase.2 ⟨hne.symm, h2⟩
        have e2 := Finset.card_erase_add_one this
        simp [h1, h2]; omega
      · have : dst ∉ S.erase src := fun h => h2 (Finset.mem_of_mem_erase h)
        rw [Finset.erase_eq_of_notMem this]; simp [h1, h2]; omega
    · rw [Finset.erase_eq_of_notMem h1]
      by_cases h2 : dst ∈ S
      · have e2 := Finset.card_erase_add_one h2
        simp [h1, h2]; omega
      · rw [Finset.erase_eq_of_notMem h2]; simp [h1, h2]
  have hB : ((H.blocksOf (Φ.put u dst) e).erase src).erase dst =
      ((H.blocksOf Φ e).erase src).erase dst := by
    ext c
    simp only [Finset.mem_erase]
    constructor
    · rintro ⟨a, b, c'⟩; exact ⟨a, b, (hmem c b a).1 c'⟩
    · rintro ⟨a, b, c'⟩; exact ⟨a, b, (hmem c b a).2 c'⟩
  rw [hA (H.blocksOf (Φ.put u dst) e), hA (H.blocksOf Φ e), hB]
  simp only [hsrc, hdst, if_true]
  have p1 : (src ∈ H.blocksOf (Φ.put u dst) e) ↔ ¬ H.pinsIn (Φ.put u dst) e src = 0 := by
    rw [mem_blocksOf]; omega
  have p2 : (dst ∈ H.blocksOf Φ e) ↔ ¬ H.pinsIn (Φ.put u dst) e dst = 1 := by
    rw [mem_blocksOf]; omega
  simp only [p1, p2]
  by_cases q1 : H.pinsIn (Φ.put u dst) e src = 0 <;>
    by_cases q2 : H.pinsIn (Φ.put u dst) e dst = 1 <;>
    simp only [q1, q2, not_true_eq_false, not_false_eq_true, if_true, if_false]

/-- If all pins are assigned, a net containing a pin in `b` is cut iff not all pins are in `b`. -/
theorem HG.cut_iff {H : HG} {Φ : Assign} {e b u : Nat} (hu : u ∈ H.pins e) (hb : Φ u = some b)
    (hall : ∀ v ∈ H.pins e, Φ v ≠ none) : H.lam Φ e > 1 ↔ H.pinsIn Φ e b < (H.pins e).length := by
  have hbm : b ∈ H.blocksOf Φ e := by
    rw [blocksOf, List.mem_toFinset, List.mem_filterMap]; exact ⟨u, hu, hb⟩
  unfold lam
  constructor
  · intro h
    obtain ⟨c, hc', hcb⟩ := Finset.exists_mem_ne h b
    rw [mem_blocksOf] at hc'
    have := H.pinsIn_add_le (Φ := Φ) (e := e) hcb
    omega
  · intro h
    by_contra hnt
    have hnt := Finset.card_le_one.1 (Nat.le_of_not_lt hnt)
    have : H.pinsIn Φ e b = (H.pins e).length := by
      unfold pinsIn
      rw [List.countP_eq_length]
      intro v hv
      cases hc : Φ v with
      | none => exact absurd hc (hall v hv)
      | some c =>
        have hcm : c ∈ H.blocksOf Φ e := by
          rw [blocksOf, List.mem_toFinset, List.mem_filterMap]; exact ⟨v, hv, hc⟩
        have : c = b := hnt c hcm b hbm
        simp [this]
    omega

/-- the update reported for hyperedge `e` when `u` moves from `src` to `dst` in view `Φ` -/
def HG.mkUpdate (H : HG) (Φ : Assign) (e u src dst : Nat) : EdgeUpdate :=
  { he := e, src := src, dst := dst, weight := H.ew e, size := (H.pins e).length,
    srcAfter := H.pinsIn (Φ.put u dst) e src, dstAfter := H.pinsIn (Φ.put u dst) e dst }


theorem attr_arith {a b l l' n : Nat} (w : Int) (e src dst : Nat)
    (hl : l' + (if a = 0 then 1 else 0) = l + (if b = 1 then 1 else 0))
    (c1 : l > 1 ↔ a + 1 < n) (c2 : l' > 1 ↔ b < n) (ad : a + b ≤ n) (hn : 0 < n) (hl1 : 0 < l)
    (hb : 0 < b) (o : Metrics.Obj) :
    attrGain o { he := e, src := src, dst := dst, weight := w, size := n, srcAfter := a, dstAfter := b }
    = (match o with
      | .cut => if l' > 1 then w else 0
      | .km1 => ((l' : Int) - 1) * w
      | .soed => if l' > 1 then (l' : Int) * w else 0) -
      (match o with
      | .cut => if l > 1 then w else 0
      | .km1 => ((l : Int) - 1) * w
      | .soed => if l > 1 then (l : Int) * w else 0) := by
  cases o with
  | km1 =>
    simp only [attrGain, attrKm1]
    by_cases h1 : a = 0 <;> by_cases h2 : b = 1 <;> simp only [h1, h2, if_true, if_false] at hl ⊢
    · have : l' = l := by omega
      rw [this]; ring
    · have : l = l' + 1 := by omega
      rw [this]; push_cast; ring
    · have : l' = l + 1 := by omega
      rw [this]; push_cast; ring
    · have : l' = l := by omega
      rw [this]; ring
  | cut =>
    simp only [attrGain, attrCut, c1, c2, b2i, decide_eq_true_eq]
    split_ifs <;> omega
  | soed =>
    simp only [attrGain, attrSoed, b2i, decide_eq_true_eq]
    by_cases g1 : l > 1
    · have hh := c1.1 g1
      by_cases g2 : l' > 1
      · have hh2 := c2.1 g2
        have n1 : ¬ b = n := by omega
        have n2 : ¬ a = n - 1 := by omega
        have n3 : n > 1 := by omega
        simp only [g1, g2, n1, n2, n3, if_true, if_false]
        by_cases h1 : a = 0 <;> by_cases h2 : b = 1 <;>
          simp only [h1, h2, if_true, if_false] at hl ⊢
        · have : l' = l := by omega
          rw [this]; ring
        · have : l = l' + 1 := by omega
          rw [this]; push_cast; ring
        · have : l' = l + 1 := by omega
          rw [this]; push_cast; ring
        · have : l' = l := by omega
          rw [this]; ring
      · have n1 : b = n := by omega
        have n0 : a = 0 := by omega
        have n2 : ¬ 0 = n - 1 := by omega
        have n3 : n > 1 := by omega
        have n4 : ¬ n = 1 := by omega
        have n5 : l = 2 := by
          rw [if_pos n0, n1, if_neg n4] at hl; omega
        simp [g2, n0, n1, n2, n3, n4, n5]
    · have n1 : a = n - 1 := by omega
      have n2 : b = 1 := by omega
      by_cases g2 : l' > 1
      · have hh2 := c2.1 g2
        have n3 : n > 1 := by omega
        have n4 : ¬ 1 = n := by omega
        have n5 : l' = 2 := by
          rw [n2, if_neg (by omega)] at hl; simp at hl; omega
        have n6 : ¬ n - 1 = 0 := by omega
        simp [g1, n1, n2, n3, n4, n5, n6]
      · have n3 : ¬ n > 1 := by omega
        simp only [g1, g2, n3, if_false]; ring

/-- The attributed gain of an update is the change of the objective term of the net. -/
theorem attrGain_eq {H : HG} {Φ : Assign} {e u src dst : Nat} (hn : (H.pins e).Nodup)
    (hu : u ∈ H.pins e) (hs : Φ u = some src) (hne : src ≠ dst)
    (hall : ∀ v ∈ H.pins e, Φ v ≠ none) (o : Metrics.Obj) :
    attrGain o (H.mkUpdate Φ e u src dst) = H.term (Φ.put u dst) e o - H.term Φ e o := by
  have hl := HG.lam_put hn hu hs hne
  have key : ∀ c, H.pinsIn (Φ.put u dst) e c + (if Φ u = some c then 1 else 0) =
    H.pinsIn Φ e c + (if c = dst then 1 else 0) := fun c => HG.pinsIn_put_mem hn hu
  simp only [hs, Option.some.injEq] at key
  have ks := key src
  have kd := key dst
  simp only [if_true, if_neg hne] at ks kd
  have c1 := HG.cut_iff hu hs hall
  have hall' : ∀ v ∈ H.pins e, Φ.put u dst v ≠ none := by
    intro v hv; unfold Assign.put; split
    · simp
    · exact hall v hv
  have c2 := HG.cut_iff (Φ := Φ.put u dst) hu (Assign.put_same Φ u dst) hall'
  have ad := H.pinsIn_add_le (Φ := Φ.put u dst) (e := e) hne
  have ad' := H.pinsIn_add_le (Φ := Φ) (e := e) hne
  have hlen : 0 < (H.pins e).length := List.length_pos_of_mem hu
  have hl1 : 0 < H.lam Φ e := by
    unfold HG.lam; rw [Finset.card_pos]
    exact ⟨src, by rw [HG.blocksOf, List.mem_toFinset, List.mem_filterMap]; exact ⟨u, hu, hs⟩⟩
  have := attr_arith (H.ew e) e src dst hl (by rw [c1]; omega) c2 ad hlen hl1 (by omega) o
  unfold HG.mkUpdate
  rw [this]
  cases o <;> rfl

end Verif
