import Verif.Lemmas.GainComp1
import Verif.Lemmas.GainInit
/-! # Lemmas: the precomputed gains are exact (cut, km1, soed) -/
namespace Verif
namespace GainComp
open PHG CSt

theorem pinsIn_pos_iff {H : HG} {Φ : Assign} {e b : Nat} : 0 < H.pinsIn Φ e b ↔ b ∈ H.blocksOf Φ e := by
  unfold HG.pinsIn HG.blocksOf
  rw [List.countP_pos_iff, List.mem_toFinset, List.mem_filterMap]
  simp

theorem two_blocks {H : HG} {Φ : Assign} {e b c : Nat} (hne : b ≠ c) (hall : ∀ v ∈ H.pins e, Φ v ≠ none)
    (hb : 0 < H.pinsIn Φ e b) (hc : 0 < H.pinsIn Φ e c) (h2 : H.lam Φ e = 2) :
    H.pinsIn Φ e b + H.pinsIn Φ e c = (H.pins e).length := by
  have hsub : ({b, c} : Finset Nat) = H.blocksOf Φ e := by
    apply Finset.eq_of_subset_of_card_le
    · intro x hx
      rw [Finset.mem_insert, Finset.mem_singleton] at hx
      rcases hx with rfl | rfl
      · exact pinsIn_pos_iff.1 hb
      · exact pinsIn_pos_iff.1 hc
    · show H.lam Φ e ≤ _
      rw [h2, Finset.card_pair hne]
  have hm : ∀ v ∈ H.pins e, Φ v = some b ∨ Φ v = some c := by
    intro v hv
    obtain ⟨x, hx⟩ := Option.ne_none_iff_exists'.1 (hall v hv)
    have : x ∈ H.blocksOf Φ e := by
      unfold HG.blocksOf; rw [List.mem_toFinset, List.mem_filterMap]; exact ⟨v, hv, hx⟩
    rw [← hsub, Finset.mem_insert, Finset.mem_singleton] at this
    rcases this with rfl | rfl
    · exact Or.inl hx
    · exact Or.inr hx
  unfold HG.pinsIn
  revert hm
  generalize H.pins e = l
  induction l with
  | nil => simp
  | cons v l ih =>
    intro hm
    have := ih (fun v hv => hm v (by simp [hv]))
    rw [List.countP_cons, List.countP_cons, List.length_cons]
    rcases hm v (by simp) with h | h
    · simp only [h, Option.some.injEq, decide_true, if_true, hne, decide_false]
      simp; omega
    · simp only [h, Option.some.injEq, decide_true, if_true, Ne.symm hne, decide_false]
      simp; omega

section
variable {σ : Type} {C : ConInfo σ} {H : HG} {mm k mx : Nat}

/-- what the queries of the partition return for a hyperedge -/
structure EdgeOk (C : ConInfo σ) (H : HG) (k : Nat) (con : σ) (Φ : Assign) (e : Nat) : Prop where
  pc : ∀ b, b < k → C.pinCount con e b = H.pinsIn Φ e b
  cs : ∀ b, b ∈ C.connSet con e ↔ b < k ∧ 0 < H.pinsIn Φ e b
  nodup : (C.connSet con e).Nodup
  conn : C.connectivity con e = H.lam Φ e

theorem edgeOk {L : C.Lawful mm k mx} (hf : H.Fits mm mx) {P : PHG σ} {Φ : Assign}
    (hS : Sim L H P Φ) {e : Nat} (heE : e ∈ H.edges) : EdgeOk C H k P.con Φ e := by
  obtain ⟨T, hR, hT⟩ := hS.con
  have hem := (hf e heE).1
  refine ⟨fun b hb => by rw [L.pinCount_eq hR hem hb, hT e heE b hb], fun b => ?_, L.connSet_nodup hR hem, (hS.connSet_lam hf heE).1⟩
  rw [L.connSet_mem hR hem b]
  constructor
  · rintro ⟨h1, h2⟩; exact ⟨h1, hT e heE b h1 ▸ h2⟩
  · rintro ⟨h1, h2⟩; exact ⟨h1, (hT e heE b h1).symm ▸ h2⟩

/-- entries of the rating map: target blocks with nonnegative scores -/
structure MapOk (k src : Nat) (m : FMap Int) : Prop where
  lt : ∀ b x, m b = some x → b < k
  ne : ∀ b x, m b = some x → b ≠ src

theorem MapOk.add {k src : Nat} {m : FMap Int} (h : MapOk k src m) {cs : List Nat} {x : Nat → Int} (hcs : ∀ b ∈ cs, b < k) :
    MapOk k src (fun b => if b ∈ cs ∧ b ≠ src then some ((m b).getD 0 + x b) else m b) := by
  constructor
  · intro b y hb
    split at hb
    · rename_i hc; exact hcs b hc.1
    · exact h.lt b y hb
  · intro b y hb
    split at hb
    · rename_i hc; exact hc.2
    · exact h.ne b y hb

/-- one hyperedge -/
theorem edgeScores_spec (o : Metrics.Obj) {con : σ} {Φ : Assign} {e src : Nat} (hE : EdgeOk C H k con Φ e) (hk : src < k)
    (hsrc : 0 < H.pinsIn Φ e src) (hall : ∀ v ∈ H.pins e, Φ v ≠ none) {s : Scratch} {m : FMap Int} (hI : s.tmp.Inv m)
    (hM : MapOk k src m) :
    ∃ m', (edgeScores o C H con src s e).tmp.Inv m' ∧ MapOk k src m' ∧
      (edgeScores o C H con src s e).iso = s.iso + H.ew e * penMult o (H.pins e).length (H.pinsIn Φ e src) ∧
      ∀ b, b < k → b ≠ src → (m' b).getD 0 = (m b).getD 0 + H.ew e * benMult o (H.pins e).length (H.pinsIn Φ e b) := by
  have hle : ∀ b, H.pinsIn Φ e b ≤ (H.pins e).length := fun b => List.countP_le_length
  have hlam := fun b => HG.lam_add_le (H := H) (Φ := Φ) (e := e) (b := b)
  have hadd : ∀ b, b ≠ src → H.pinsIn Φ e src + H.pinsIn Φ e b ≤ (H.pins e).length := fun b hb => H.pinsIn_add_le (Ne.symm hb)
  have hcut : H.lam Φ e > 1 ↔ H.pinsIn Φ e src < (H.pins e).length := by
    obtain ⟨v, hv, hv2⟩ := List.countP_pos_iff.1 (show 0 < (H.pins e).countP (fun v => Φ v = some src) from hsrc)
    exact HG.cut_iff hv (by simpa using hv2) hall
  have hlpos : 0 < H.lam Φ e := Finset.card_pos.2 ⟨src, pinsIn_pos_iff.1 hsrc⟩
  have hlt : ∀ b ∈ C.connSet con e, b < k := fun b hb => ((hE.cs b).1 hb).1
  cases o with
  | km1 =>
    refine ⟨_, addScores_inv (C.connSet con e) hE.nodup hI, hM.add hlt, ?_, fun b hb hne => ?_⟩
    · simp only [edgeScores, hE.pc src hk, penMult]
      split <;> simp
    · simp only [hE.cs b, benMult]
      by_cases h : 0 < H.pinsIn Φ e b
      · rw [if_pos ⟨⟨hb, h⟩, hne⟩, if_pos (by omega)]; simp
      · rw [if_neg (by tauto), if_neg (by omega)]; simp
  | cut =>
    simp only [edgeScores, hE.pc src hk, hE.conn, penMult, benMult]
    by_cases h1 : H.lam Φ e = 1 ∧ (H.pins e).length > 1
    · rw [if_pos h1]
      refine ⟨m, hI, hM, ?_, fun b hb hne => ?_⟩
      · rw [if_pos ⟨by have := hle src; omega, h1.2⟩]; simp
      · rw [if_neg]
        · simp
        · rintro ⟨h2, _⟩; have := hadd b hne; have := hle src; omega
    · rw [if_neg h1]
      have hp : ¬ (H.pinsIn Φ e src = (H.pins e).length ∧ (H.pins e).length > 1) := by
        rintro ⟨h2, h3⟩; apply h1; omega
      rw [if_neg hp]
      by_cases h2 : H.lam Φ e = 2 ∧ H.pinsIn Φ e src = 1
      · rw [if_pos h2]
        refine ⟨_, addScores_inv (C.connSet con e) hE.nodup hI, hM.add hlt, by simp, fun b hb hne => ?_⟩
        simp only [hE.cs b]
        by_cases h : 0 < H.pinsIn Φ e b
        · have := two_blocks (Ne.symm hne) hall hsrc h h2.1
          rw [if_pos ⟨⟨hb, h⟩, hne⟩, if_pos (by omega)]; simp
        · rw [if_neg (by tauto), if_neg (by omega)]; simp
      · rw [if_neg h2]
        refine ⟨m, hI, hM, by simp, fun b hb hne => ?_⟩
        rw [if_neg]
        · simp
        · rintro ⟨h3, h4⟩
          have := hadd b hne
          have := hlam b
          apply h2
          omega
  | soed =>
    simp only [edgeScores, hE.pc src hk, penMult, benMult]
    by_cases h1 : (H.pins e).length > 1
    · rw [if_pos h1]
      refine ⟨_, addScores_inv (C.connSet con e) hE.nodup hI, hM.add hlt, ?_, fun b hb hne => ?_⟩
      · simp only [b2i, h1, decide_true, if_true, decide_eq_true_eq]
        have := hle src
        split_ifs <;> first | omega | (ring; done) | skip
      · simp only [hE.cs b, hE.pc b hb, if_pos h1]
        by_cases h : 0 < H.pinsIn Φ e b
        · rw [if_pos ⟨⟨hb, h⟩, hne⟩, Option.getD_some, if_pos (show H.pinsIn Φ e b ≥ 1 from h)]
          split <;> ring
        · rw [if_neg (by tauto), if_neg (by omega), if_neg (by omega)]; simp
    · rw [if_neg h1]
      refine ⟨m, hI, hM, by simp [b2i, h1], fun b hb hne => ?_⟩
      rw [if_neg h1]; simp

theorem precompute_fold (o : Metrics.Obj) {con : σ} {Φ : Assign} {src : Nat} (hk : src < k) :
    ∀ (es : List Nat), (∀ e ∈ es, EdgeOk C H k con Φ e ∧ 0 < H.pinsIn Φ e src ∧ ∀ v ∈ H.pins e, Φ v ≠ none) →
    ∀ {s : Scratch} {m : FMap Int}, s.tmp.Inv m → MapOk k src m →
    ∃ m', (es.foldl (edgeScores o C H con src) s).tmp.Inv m' ∧ MapOk k src m' ∧
      (es.foldl (edgeScores o C H con src) s).iso = s.iso + (es.map (fun e => H.ew e * penMult o (H.pins e).length (H.pinsIn Φ e src))).sum ∧
      ∀ b, b < k → b ≠ src → (m' b).getD 0 = (m b).getD 0 + (es.map (fun e => H.ew e * benMult o (H.pins e).length (H.pinsIn Φ e b))).sum := by
  intro es
  induction es with
  | nil => intro _ s m hI hM; exact ⟨m, hI, hM, by simp, by simp⟩
  | cons e es ih =>
    intro hes s m hI hM
    obtain ⟨h1, h2, h3⟩ := hes e (by simp)
    obtain ⟨m1, i1, i2, i3, i4⟩ := edgeScores_spec o h1 hk h2 h3 hI hM
    obtain ⟨m2, j1, j2, j3, j4⟩ := ih (fun e he => hes e (by simp [he])) i1 i2
    refine ⟨m2, j1, j2, ?_, fun b hb hne => ?_⟩
    · rw [List.foldl_cons, j3, i3, List.map_cons, List.sum_cons]; ring
    · rw [j4 b hb hne, i4 b hb hne, List.map_cons, List.sum_cons]; ring

/-- the scores of a node: `iso - score` is the change of the objective -/
theorem precompute_spec (o : Metrics.Obj) {L : C.Lawful mm k mx} (hw : H.WF) (hf : H.Fits mm mx) {P : PHG σ} {Φ : Assign}
    (hS : Sim L H P Φ) {u src : Nat} (hu : u ∈ H.nodes) (hp : Φ u = some src) (hall : ∀ v ∈ H.nodes, Φ v ≠ none)
    {s : Scratch} (ht : s.tmp.size = 0) (hi : s.iso = 0) :
    ∃ m, (precompute o C H P.con src u s).tmp.Inv m ∧ MapOk k src m ∧
      ((∀ e ∈ H.edges, 0 ≤ H.ew e) → 0 ≤ (precompute o C H P.con src u s).iso) ∧
      ∀ b, b < k → b ≠ src → (precompute o C H P.con src u s).iso - (m b).getD 0 = H.objective (Φ.put u b) o - H.objective Φ o ∧
        ((∀ e ∈ H.edges, 0 ≤ H.ew e) → 0 ≤ (m b).getD 0) := by
  have hk : src < k := hS.range u src hp
  obtain ⟨m, h1, h2, h3, h4⟩ := precompute_fold (C := C) (H := H) o (con := P.con) (Φ := Φ) hk (H.inc u) (fun e he => by
    obtain ⟨heE, hpin⟩ := (hw.inc_iff u hu e).1 he
    refine ⟨edgeOk hf hS heE, ?_, fun v hv => hall v (hw.pins_mem e heE v hv)⟩
    unfold HG.pinsIn; rw [List.countP_pos_iff]; exact ⟨u, hpin, by simp [hp]⟩) (inv_empty ht) ⟨by simp, by simp⟩
  refine ⟨m, h1, h2, fun hpos => ?_, fun b hb hne => ⟨?_, fun hpos => ?_⟩⟩
  · unfold precompute
    rw [h3, hi]
    have : 0 ≤ ((H.inc u).map (fun e => H.ew e * penMult o (H.pins e).length (H.pinsIn Φ e src))).sum := by
      apply List.sum_nonneg
      intro x hx
      obtain ⟨e, he, rfl⟩ := List.mem_map.1 hx
      refine Int.mul_nonneg (hpos e ((hw.inc_iff u hu e).1 he).1) ?_
      cases o <;> simp only [penMult, b2i] <;> split_ifs <;> decide
    omega
  swap
  · rw [h4 b hb hne, Option.getD_none]
    have : 0 ≤ ((H.inc u).map (fun e => H.ew e * benMult o (H.pins e).length (H.pinsIn Φ e b))).sum := by
      apply List.sum_nonneg
      intro x hx
      obtain ⟨e, he, rfl⟩ := List.mem_map.1 hx
      refine Int.mul_nonneg (hpos e ((hw.inc_iff u hu e).1 he).1) ?_
      cases o <;> simp only [benMult] <;> split_ifs <;> decide
    omega
  have := mult_gain_eq hw hu hp (Ne.symm hne) hall o
  simp only [multSum] at this
  unfold precompute
  rw [h3, h4 b hb hne, hi]
  simp only [Option.getD_none]
  omega

end
end GainComp
end Verif
