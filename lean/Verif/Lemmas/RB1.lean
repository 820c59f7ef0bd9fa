import Verif.Model.RecursiveBipartitioning
import Verif.Props.C23
/-! Recursive bipartitioning: weights, extraction during the visits of the other task. -/
namespace Verif
namespace RBip
open SMap (wr)
open Extract PHG HG

theorem adapt_adapt (H : SHG) {mult : Int} (h0 : mult ≠ 0) (old : Nat → Bool) : adapt (adapt H mult old false) mult old true = H := by
  unfold adapt
  by_cases h1 : mult = 1
  · simp [h1]
  · simp only [ne_eq, h1, not_false_eq_true, if_true]
    have : (fun e => if (H.heEnabled e && !old e) = true then
        (if True then (if (H.heEnabled e && !old e) = true then (if False then (H.heWeight e).tdiv mult else mult * H.heWeight e) else H.heWeight e).tdiv mult
          else mult * if (H.heEnabled e && !old e) = true then (if False then (H.heWeight e).tdiv mult else mult * H.heWeight e) else H.heWeight e)
        else if (H.heEnabled e && !old e) = true then (if False then (H.heWeight e).tdiv mult else mult * H.heWeight e) else H.heWeight e) = H.heWeight := by
      funext e
      by_cases h : (H.heEnabled e && !old e) = true
      · simp only [h, if_true, if_false]
        exact Int.mul_tdiv_cancel_left _ h0
      · simp only [h]; rfl
    simp only [if_true, if_false, reduceCtorEq] at this ⊢
    rw [this]

/-- the hypergraph given to the bipartitioning -/
theorem adapt_spec (H : SHG) {mult : Int} (old : Nat → Bool) :
    let Ha := adapt H mult old false
    Ha.nodes = H.nodes ∧ Ha.edges = H.edges ∧ Ha.pins = H.pins ∧ Ha.inc = H.inc ∧ Ha.hnWeight = H.hnWeight ∧
      ∀ e ∈ H.edges, Ha.heWeight e = if mult ≠ 1 ∧ old e = false then mult * H.heWeight e else H.heWeight e := by
  intro Ha
  by_cases h1 : mult = 1
  · have : Ha = H := by show adapt H mult old false = H; unfold adapt; simp [h1]
    rw [this]
    exact ⟨rfl, rfl, rfl, rfl, rfl, fun e _ => by simp [h1]⟩
  · have : Ha = { H with heWeight := fun e => if H.heEnabled e && !old e then mult * H.heWeight e else H.heWeight e } := by
      show adapt H mult old false = _; unfold adapt; simp [h1]
    rw [this]
    refine ⟨rfl, rfl, rfl, rfl, rfl, fun e he => ?_⟩
    have he' : H.heEnabled e = true := (List.mem_filter.1 he).2
    simp only [he', Bool.true_and, h1, ne_eq, not_false_eq_true, true_and]
    cases old e <;> simp

theorem number_congr {l : List Nat} {s s' : Nat → Bool} (h : ∀ e ∈ l, s e = s' e) : number l s = number l s' := by
  unfold number
  apply List.foldl_ext
  intro a e he
  rw [h e he]

theorem extractWith_congr {H : SHG} {part : Assign} {com : Nat → Nat} {b : Nat} {cut : Option (Nat → Bool)} {stable : Bool}
    {s : XSched} (hs : s.Legal H) {s1 s2 s1' s2' : Nat → Bool} (h1 : ∀ e ∈ H.edges, s1 e = s1' e) (h2 : ∀ e ∈ H.edges, s2 e = s2' e) :
    extractWith H part com b cut stable s s1 s2 = extractWith H part com b cut stable s s1' s2' := by
  unfold extractWith
  rw [number_congr h1]
  have e1 : s.pinOrder.foldl (fun ev e => if s2 e = true then pushPins part b (number H.nodes (fun v => decide (part v = some b))).1
      ((number H.edges s1').1 e) (H.pins e) ev else ev) (fun _ => []) =
      s.pinOrder.foldl (fun ev e => if s2' e = true then pushPins part b (number H.nodes (fun v => decide (part v = some b))).1
      ((number H.edges s1').1 e) (H.pins e) ev else ev) (fun _ => []) := by
    apply List.foldl_ext
    intro a e he
    rw [h2 e (hs.pin.subset he)]
  have e2 : s.pinOrder.foldl (fun (w : Nat → Int) e => if s2 e = true then wr w ((number H.edges s1').1 e) (H.heWeight e) else w) (fun _ => 0) =
      s.pinOrder.foldl (fun (w : Nat → Int) e => if s2' e = true then wr w ((number H.edges s1').1 e) (H.heWeight e) else w) (fun _ => 0) := by
    apply List.foldl_ext
    intro a e he
    rw [h2 e (hs.pin.subset he)]
  simp only [e1, e2]

section
variable {H : HG} {Φ Ψ : Assign} {b : Nat}

theorem pinsIn_congr (h : ∀ v ∈ H.nodes, (Φ v = some b ↔ Ψ v = some b)) (hw : H.WF) {e : Nat} (he : e ∈ H.edges) :
    H.pinsIn Φ e b = H.pinsIn Ψ e b := by
  unfold HG.pinsIn
  apply List.countP_congr
  intro v hv
  simpa using h v (hw.pins_mem e he v hv)

theorem lam_one_iff (hw : H.WF) {e : Nat} (he : e ∈ H.edges) (hΦ : ∀ v ∈ H.nodes, Φ v ≠ none) (hp : 2 ≤ H.pinsIn Φ e b) :
    H.lam Φ e = 1 ↔ ∀ v ∈ H.pins e, Φ v = some b := by
  have hmem : b ∈ H.blocksOf Φ e := (HG.mem_blocksOf).2 (by omega)
  unfold HG.lam
  constructor
  · intro h v hv
    obtain ⟨c, hc⟩ := Finset.card_eq_one.1 h
    rw [hc, Finset.mem_singleton] at hmem
    cases hx : Φ v with
    | none => exact absurd hx (hΦ v (hw.pins_mem e he v hv))
    | some d =>
      have : d ∈ H.blocksOf Φ e := by
        unfold HG.blocksOf
        exact List.mem_toFinset.2 (List.mem_filterMap.2 ⟨v, hv, hx⟩)
      rw [hc, Finset.mem_singleton] at this
      rw [this, hmem]
  · intro h
    rw [Finset.card_eq_one]
    refine ⟨b, Finset.eq_singleton_iff_unique_mem.2 ⟨hmem, fun d hd => ?_⟩⟩
    unfold HG.blocksOf at hd
    obtain ⟨v, hv, hx⟩ := List.mem_filterMap.1 (List.mem_toFinset.1 hd)
    rw [h v hv] at hx
    cases hx; rfl

/-- what is extracted for a block does not depend on the distribution of the other nodes -/
theorem keeps_congr (hw : H.WF) (h1 : ∀ v ∈ H.nodes, Φ v ≠ none) (h2 : ∀ v ∈ H.nodes, Ψ v ≠ none)
    (h : ∀ v ∈ H.nodes, (Φ v = some b ↔ Ψ v = some b)) (split : Bool) {e : Nat} (he : e ∈ H.edges) :
    H.keeps Φ b split e ↔ H.keeps Ψ b split e := by
  unfold HG.keeps
  rw [pinsIn_congr h hw he]
  constructor
  · rintro ⟨hp, hs⟩
    refine ⟨hp, hs.imp id (fun hl => ?_)⟩
    rw [lam_one_iff hw he h1 (by rw [pinsIn_congr h hw he]; exact hp)] at hl
    rw [lam_one_iff hw he h2 hp]
    exact fun v hv => (h v (hw.pins_mem e he v hv)).1 (hl v hv)
  · rintro ⟨hp, hs⟩
    refine ⟨hp, hs.imp id (fun hl => ?_)⟩
    rw [lam_one_iff hw he h2 hp] at hl
    rw [lam_one_iff hw he h1 (by rw [pinsIn_congr h hw he]; exact hp)]
    exact fun v hv => (h v (hw.pins_mem e he v hv)).2 (hl v hv)

end

/-- the extraction of a block while the other task visits nodes of other blocks -/
theorem during_spec {σ : Type} {C : ConInfo σ} {m k mx : Nat} {L : C.Lawful m k mx} {H : SHG} {com : Nat → Nat} {cut : Option (Nat → Bool)}
    {split stable : Bool} (hok : Ok H) (hf : H.toHG.Fits m mx) {st : Nat → PHG σ} {Φs : Nat → Assign} {Φ : Assign}
    (hS : ∀ j, Sim L H.toHG (st j) (Φs j)) (hall : ∀ j, ∀ v ∈ H.nodes, Φs j v ≠ none) (hΦ : ∀ v ∈ H.nodes, Φ v ≠ none)
    {b : Nat} (hb : b < k) (hinv : ∀ j, ∀ v ∈ H.nodes, (Φs j v = some b ↔ Φ v = some b)) {s : XSched} (hs : s.Legal H) (j1 j2 : Nat → Nat) (jp : Nat) :
    Extracted H Φ b split com cut (extractDuring C H st com b cut split stable s j1 j2 jp) := by
  have hw := hok.wf
  have hk : ∀ j, ∀ e ∈ H.edges, (select C (st j).con b split e = true ↔ H.toHG.keeps Φ b split e) := by
    intro j e he
    rw [select_iff hf (hS j) hb he]
    exact keeps_congr hw (hall j) hΦ (hinv j) split he
  have hd : ∀ j e, e ∈ H.edges → select C (st j).con b split e = decide (H.toHG.keeps Φ b split e) := by
    intro j e he
    rw [Bool.eq_iff_iff, hk j e he, decide_eq_true_eq]
  unfold extractDuring
  rw [extractWith_congr hs (s1' := fun e => decide (H.toHG.keeps Φ b split e)) (s2' := fun e => decide (H.toHG.keeps Φ b split e))
    (fun e he => hd _ e he) (fun e he => hd _ e he)]
  obtain ⟨H', g, a1, a2, a3, a4, _⟩ := extractWith_spec (stable := stable) (com := com) (cut := cut) (part := (st jp).part) hok hs
    (sel := fun e => decide (H.toHG.keeps Φ b split e)) (Φ := Φ) (b := b) (split := split) (fun e he => by rw [decide_eq_true_eq])
    (fun v hv => by rw [(hS jp).part]; exact hinv jp v hv)
  exact ⟨H', g, a1, a2, a3, a4⟩

end RBip
end Verif
