import Verif.Lemmas.Extract2
import Verif.Props.C01_C04
/-! The loops of `extract`. -/
namespace Verif
namespace Extract
open SMap (wr)
open Factory

theorem number_spec (sel : Nat → Bool) (ids : List Nat) (hn : ids.Nodup) :
    (∀ v ∈ ids.filter sel, (number ids sel).1 v = (ids.filter sel).idxOf v) ∧
    (∀ v, v ∉ ids.filter sel → (number ids sel).1 v = kInvalid) ∧
    (number ids sel).2 = (ids.filter sel).length := by
  unfold number
  induction ids using List.reverseRecOn with
  | nil => simp
  | append_singleton l a ih =>
    have hn' : l.Nodup := (List.nodup_append.1 hn).1
    have ha : a ∉ l := fun h => (List.nodup_append.1 hn).2.2 a h a (by simp) rfl
    obtain ⟨h1, h2, h3⟩ := ih hn'
    rw [List.foldl_append, List.filter_append]
    generalize l.foldl (fun st v => if sel v then (wr st.1 v st.2, st.2 + 1) else st) (fun _ => kInvalid, 0) = r at *
    have haf : a ∉ l.filter sel := fun h => ha (List.mem_filter.1 h).1
    by_cases hs : sel a
    · have e1 : [a].filter sel = [a] := by simp [hs]
      rw [e1]
      simp only [List.foldl_cons, List.foldl_nil, hs, if_true]
      refine ⟨?_, ?_, ?_⟩
      · intro v hv
        rw [List.mem_append, List.mem_singleton] at hv
        by_cases hva : v = a
        · subst hva
          rw [wr_same, List.idxOf_append, if_neg haf, h3]; simp
        · have hv' : v ∈ l.filter sel := hv.resolve_right hva
          rw [wr_other _ _ hva, List.idxOf_append, if_pos hv', h1 v hv']
      · intro v hv
        rw [List.mem_append, List.mem_singleton, not_or] at hv
        rw [wr_other _ _ hv.2, h2 v hv.1]
      · simp [h3]
    · have e1 : [a].filter sel = [] := by simp [hs]
      rw [e1, List.append_nil]
      simp only [List.foldl_cons, List.foldl_nil, hs]
      exact ⟨h1, h2, h3⟩

theorem pushPins_spec (part : Assign) (b : Nat) (f : Nat → Nat) (i : Nat) (pins : List Nat) :
    ∀ ev : Nat → List Nat, (pushPins part b f i pins ev) i = ev i ++ (pins.filter (fun v => decide (part v = some b))).map f ∧
      ∀ j, j ≠ i → pushPins part b f i pins ev j = ev j := by
  unfold pushPins
  induction pins with
  | nil => intro ev; simp
  | cons a l ih =>
    intro ev
    rw [List.foldl_cons]
    obtain ⟨h1, h2⟩ := ih (if part a = some b then wr ev i (ev i ++ [f a]) else ev)
    refine ⟨?_, ?_⟩
    · rw [h1]
      by_cases h : part a = some b
      · rw [if_pos h, wr_same, List.filter_cons, if_pos (by simpa using h), List.map_cons, List.append_assoc]; rfl
      · rw [if_neg h, List.filter_cons, if_neg (by simpa using h)]
    · intro j hj
      rw [h2 j hj]
      split
      · rw [wr_other _ _ hj]
      · rfl

/-- a loop writing a value at an injective index for the selected entries -/
theorem writes_spec {α : Type} (order : List Nat) (hn : order.Nodup) (sel : Nat → Bool) (idx : Nat → Nat) (val : Nat → α)
    (hinj : ∀ u ∈ order, ∀ v ∈ order, sel u = true → sel v = true → idx u = idx v → u = v) (a0 : Nat → α) :
    ∀ v ∈ order, sel v = true → order.foldl (fun a v => if sel v = true then wr a (idx v) (val v) else a) a0 (idx v) = val v := by
  have := foldl_local (fun (a : Nat → α) v => if sel v = true then wr a (idx v) (val v) else a) (fun _ _ => True)
    (fun v a => sel v = true → a (idx v) = val v) order a0 hn
    (by intro s c _ _ hs; simp only [hs, if_true]; exact wr_same _ _ _)
    (fun _ _ _ _ _ _ _ => trivial)
    (by
      intro s c d hc hd hdc hQ hs
      by_cases hsc : sel c = true
      · simp only [hsc, if_true]
        rw [wr_other _ _ (fun h => hdc (hinj d hd c hc hs hsc h))]
        exact hQ hs
      · simp only [hsc]
        exact hQ hs)
    (fun _ _ => trivial)
  exact this

/-- the loop filling the edge vector -/
theorem pushAll_spec (order : List Nat) (hn : order.Nodup) (sel : Nat → Bool) (idx : Nat → Nat) (pins : Nat → List Nat)
    (part : Assign) (b : Nat) (f : Nat → Nat)
    (hinj : ∀ u ∈ order, ∀ v ∈ order, sel u = true → sel v = true → idx u = idx v → u = v) :
    ∀ e ∈ order, sel e = true → order.foldl (fun ev e => if sel e = true then pushPins part b f (idx e) (pins e) ev else ev) (fun _ => []) (idx e) =
      ((pins e).filter (fun v => decide (part v = some b))).map f := by
  have := foldl_local (fun (ev : Nat → List Nat) e => if sel e = true then pushPins part b f (idx e) (pins e) ev else ev)
    (fun e ev => sel e = true → ev (idx e) = [])
    (fun e ev => sel e = true → ev (idx e) = ((pins e).filter (fun v => decide (part v = some b))).map f) order (fun _ => []) hn
    (by
      intro s c _ hP hs
      simp only [hs, if_true]
      rw [(pushPins_spec part b f (idx c) (pins c) s).1, hP hs, List.nil_append])
    (by
      intro s c d hc hd hdc hQ hs
      by_cases hsc : sel c = true
      · simp only [hsc, if_true]
        rw [(pushPins_spec part b f (idx c) (pins c) s).2 _ (fun h => hdc (hinj d hd c hc hs hsc h))]
        exact hQ hs
      · simp only [hsc]
        exact hQ hs)
    (by
      intro s c d hc hd hdc hQ hs
      by_cases hsc : sel c = true
      · simp only [hsc, if_true]
        rw [(pushPins_spec part b f (idx c) (pins c) s).2 _ (fun h => hdc (hinj d hd c hc hs hsc h))]
        exact hQ hs
      · simp only [hsc]
        exact hQ hs)
    (fun _ _ _ => rfl)
  exact this

theorem filter_length_le (n : Nat) (p q : Nat → Bool) : (((List.range n).filter p).filter q).length ≤ n :=
  le_trans (List.length_filter_le _ _) (le_trans (List.length_filter_le _ _) (by simp))

variable {H : SHG} {Φ : Assign} {b : Nat} {split stable : Bool}

/-- extraction when the condition is evaluated consistently -/
theorem extractWith_spec (hok : Ok H) {part : Assign} {com : Nat → Nat} {cut : Option (Nat → Bool)} {s : XSched} (hs : s.Legal H)
    {sel : Nat → Bool} (hsel : ∀ e ∈ H.edges, (sel e = true ↔ H.toHG.keeps Φ b split e))
    (hpart : ∀ v ∈ H.nodes, (part v = some b ↔ Φ v = some b)) :
    ∃ H' g, (extractWith H part com b cut stable s sel sel).hg = some H' ∧
      IsBlock H Φ b split H' (extractWith H part com b cut stable s sel sel).hnMap g ∧
      (∀ c, cut = some c → ∀ e ∈ (H.toHG.restrict Φ b split).edges, (extractWith H part com b cut stable s sel sel).cut (g e) = c e) ∧
      (∀ v ∈ (H.toHG.restrict Φ b split).nodes, (extractWith H part com b cut stable s sel sel).com ((extractWith H part com b cut stable s sel sel).hnMap v) = com v) ∧
      (∀ v ∈ H.nodes, Φ v ≠ some b → (extractWith H part com b cut stable s sel sel).hnMap v = kInvalid) := by
  obtain ⟨hw, hsm, hsmE, hpos, htot⟩ := hok
  have hnodesH : H.nodes.Nodup := hw.nodes_nodup
  have hedgesH : H.edges.Nodup := hw.edges_nodup
  set L := H.nodes.filter (fun v => decide (part v = some b)) with hLdef
  set S := H.edges.filter sel with hSdef
  have hL : L = H.nodes.filter (fun v => decide (Φ v = some b)) := by
    apply List.filter_congr; intro v hv; rw [decide_eq_decide]; exact hpart v hv
  have hS : S = H.edges.filter (fun e => decide (H.toHG.keeps Φ b split e)) := by
    apply List.filter_congr; intro e he
    rw [Bool.eq_iff_iff, decide_eq_true_eq]; exact hsel e he
  obtain ⟨n1, n2, n3⟩ := number_spec (fun v => decide (part v = some b)) H.nodes hnodesH
  obtain ⟨m1, m2, m3⟩ := number_spec sel H.edges hedgesH
  rw [← hLdef] at n1 n2 n3
  rw [← hSdef] at m1 m2 m3
  have hSlen : S.length ≤ kInvalid := le_trans (filter_length_le _ _ _) hsmE
  have hLinj : ∀ u ∈ L, ∀ v ∈ L, (number H.nodes (fun v => decide (part v = some b))).1 u =
      (number H.nodes (fun v => decide (part v = some b))).1 v → u = v := by
    intro u hu v hv h
    rw [n1 u hu, n1 v hv] at h
    exact idxOf_inj hu h
  have hSinj : ∀ d ∈ S, ∀ e ∈ S, (number H.edges sel).1 d = (number H.edges sel).1 e → d = e := by
    intro u hu v hv h
    rw [m1 u hu, m1 v hv] at h
    exact idxOf_inj hu h
  have memS : ∀ e, e ∈ S ↔ e ∈ H.edges ∧ sel e = true := fun e => List.mem_filter
  have memL : ∀ v, v ∈ L ↔ v ∈ H.nodes ∧ part v = some b := fun v => by rw [hLdef, List.mem_filter, decide_eq_true_eq]
  have hpn := hs.pin.nodup_iff.2 hedgesH
  have hwn := hs.weight.nodup_iff.2 hnodesH
  have hpin : ∀ u ∈ s.pinOrder, ∀ v ∈ s.pinOrder, sel u = true → sel v = true →
      (number H.edges sel).1 u = (number H.edges sel).1 v → u = v := by
    intro u hu v hv h1 h2 h
    exact hSinj u ((memS u).2 ⟨hs.pin.mem_iff.1 hu, h1⟩) v ((memS v).2 ⟨hs.pin.mem_iff.1 hv, h2⟩) h
  have a1 := pushAll_spec s.pinOrder hpn sel (number H.edges sel).1 H.pins part b (number H.nodes (fun v => decide (part v = some b))).1 hpin
  have a2 := writes_spec s.pinOrder hpn sel (number H.edges sel).1 H.heWeight hpin (fun _ => 0)
  have a3 := writes_spec s.weightOrder hwn (fun v => decide (part v = some b)) (number H.nodes (fun v => decide (part v = some b))).1 H.hnWeight
    (by
      intro u hu v hv h1 h2 h
      exact hLinj u ((memL u).2 ⟨hs.weight.mem_iff.1 hu, by simpa using h1⟩) v ((memL v).2 ⟨hs.weight.mem_iff.1 hv, by simpa using h2⟩) h)
    (fun _ => 0)
  have a4 := writes_spec s.comOrder (hs.com.nodup_iff.2 hnodesH) (fun v => decide (part v = some b)) (number H.nodes (fun v => decide (part v = some b))).1 com
    (by
      intro u hu v hv h1 h2 h
      exact hLinj u ((memL u).2 ⟨hs.com.mem_iff.1 hu, by simpa using h1⟩) v ((memL v).2 ⟨hs.com.mem_iff.1 hv, by simpa using h2⟩) h)
    (fun _ => 0)
  simp only [decide_eq_true_eq] at a3 a4
  have hlegal := hs.build (number H.nodes (fun v => decide (part v = some b))).2 (number H.edges sel).2
    (s.pinOrder.foldl (fun ev e => if sel e = true then pushPins part b (number H.nodes (fun v => decide (part v = some b))).1 ((number H.edges sel).1 e) (H.pins e) ev else ev) (fun _ => []))
  have key := core (H := H) (Φ := Φ) (b := b) (split := split) (stable := stable) (L := L) (S := S)
    (f := (number H.nodes (fun v => decide (part v = some b))).1)
    (ev := s.pinOrder.foldl (fun ev e => if sel e = true then pushPins part b (number H.nodes (fun v => decide (part v = some b))).1 ((number H.edges sel).1 e) (H.pins e) ev else ev) (fun _ => []))
    (ew := s.pinOrder.foldl (fun (w : Nat → Int) e => if sel e = true then wr w ((number H.edges sel).1 e) (H.heWeight e) else w) (fun _ => 0))
    (nw := s.weightOrder.foldl (fun (w : Nat → Int) v => if part v = some b then wr w ((number H.nodes (fun v => decide (part v = some b))).1 v) (H.hnWeight v) else w) (fun _ => 0))
    (arr0 := s.arr0) (nets0 := s.nets0) hw (by rw [hL]) n1 (by rw [hS])
    (by
      intro e he
      obtain ⟨h1, h2⟩ := (memS e).1 he
      rw [← m1 e he, a1 e (hs.pin.mem_iff.2 h1) h2]
      congr 1
      apply List.filter_congr; intro v hv; rw [decide_eq_decide]; exact hpart v (hw.pins_mem e h1 v hv))
    (by
      intro e he
      obtain ⟨h1, h2⟩ := (memS e).1 he
      rw [← m1 e he, a2 e (hs.pin.mem_iff.2 h1) h2])
    (by
      intro v hv
      obtain ⟨h1, h2⟩ := (memL v).1 hv
      rw [← n1 v hv, a3 v (hs.weight.mem_iff.2 h1) h2])
    hsm hpos htot n3 m3 hlegal
  obtain ⟨H', hc, _, _, hB⟩ := key
  refine ⟨H', S.idxOf, hc, hB, ?_, ?_, ?_⟩
  · rintro c rfl e he
    have he' : e ∈ S := by rw [hS]; exact he
    have hval : ∀ e ∈ H.edges, ((number H.edges sel).1 e ≠ kInvalid ↔ sel e = true) := by
      intro e he
      constructor
      · intro h
        by_contra hc
        exact h (m2 e (fun h => hc ((memS e).1 h).2))
      · intro h
        have hm := (memS e).2 ⟨he, h⟩
        rw [m1 e hm]
        have := List.idxOf_lt_length_iff.2 hm
        omega
    have a5 := writes_spec s.cutOrder (hs.cut.nodup_iff.2 hedgesH) (fun e => decide ((number H.edges sel).1 e ≠ kInvalid)) (number H.edges sel).1 c
      (by
        intro u hu v hv h1 h2 h
        have hu' := hs.cut.mem_iff.1 hu
        have hv' := hs.cut.mem_iff.1 hv
        rw [decide_eq_true_eq] at h1 h2
        exact hSinj u ((memS u).2 ⟨hu', (hval u hu').1 h1⟩) v ((memS v).2 ⟨hv', (hval v hv').1 h2⟩) h)
      (fun _ => false)
    simp only [decide_eq_true_eq] at a5
    obtain ⟨h1, h2⟩ := (memS e).1 he'
    have e0 : (fun a => List.idxOf a S) e = (number H.edges sel).1 e := (m1 e he').symm
    rw [e0]
    exact a5 e (hs.cut.mem_iff.2 h1) ((hval e h1).2 h2)
  · intro v hv
    have hv' : v ∈ L := by rw [hL]; exact hv
    obtain ⟨h1, h2⟩ := (memL v).1 hv'
    exact a4 v (hs.com.mem_iff.2 h1) h2
  · intro v hv hne
    exact n2 v (fun h => hne ((hpart v hv).1 ((memL v).1 h).2))

end Extract
end Verif
