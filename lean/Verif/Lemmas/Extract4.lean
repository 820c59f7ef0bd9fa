import Verif.Lemmas.Extract3
/-! The loops of `extractAllBlocks`. -/
namespace Verif
namespace Extract
open SMap (wr)
open Factory

theorem numberAll_spec (part : Assign) (k : Nat) (order : List Nat) (hn : order.Nodup) :
    (∀ b < k, (∀ v ∈ order.filter (fun v => decide (part v = some b)), (numberAll part k order).1 v =
      (order.filter (fun v => decide (part v = some b))).idxOf v) ∧
      (numberAll part k order).2 b = (order.filter (fun v => decide (part v = some b))).length) ∧
    (∀ v, (∀ b < k, part v ≠ some b) → (numberAll part k order).1 v = kInvalid) := by
  unfold numberAll
  induction order using List.reverseRecOn with
  | nil => simp
  | append_singleton l a ih =>
    have hn' : l.Nodup := (List.nodup_append.1 hn).1
    have ha : a ∉ l := fun h => (List.nodup_append.1 hn).2.2 a h a (by simp) rfl
    obtain ⟨h1, h2⟩ := ih hn'
    simp only [List.foldl_append, List.foldl_cons, List.foldl_nil]
    generalize List.foldl _ ((fun _ => kInvalid, fun _ => 0) : (Nat → Nat) × (Nat → Nat)) l = r at *
    cases hp : part a with
    | none =>
      simp only [List.filter_append]
      refine ⟨fun b hb => ?_, h2⟩
      have e1 : [a].filter (fun v => decide (part v = some b)) = [] := by simp [hp]
      rw [e1, List.append_nil]
      exact h1 b hb
    | some c =>
      by_cases hc : c < k
      · simp only [hc, if_true]
        refine ⟨fun b hb => ?_, ?_⟩
        · rw [List.filter_append]
          have haf : a ∉ l.filter (fun v => decide (part v = some b)) := fun h => ha (List.mem_filter.1 h).1
          by_cases hcb : c = b
          · subst hcb
            have e1 : [a].filter (fun v => decide (part v = some c)) = [a] := by simp [hp]
            rw [e1]
            obtain ⟨g1, g2⟩ := h1 c hb
            refine ⟨?_, by rw [wr_same, g2]; simp⟩
            intro v hv
            rw [List.mem_append, List.mem_singleton] at hv
            by_cases hva : v = a
            · subst hva
              rw [wr_same, List.idxOf_append, if_neg haf, g2]; simp
            · have hv' := hv.resolve_right hva
              rw [wr_other _ _ hva, List.idxOf_append, if_pos hv', g1 v hv']
          · have e1 : [a].filter (fun v => decide (part v = some b)) = [] := by simp [hp, hcb]
            rw [e1, List.append_nil]
            obtain ⟨g1, g2⟩ := h1 b hb
            refine ⟨fun v hv => ?_, by rw [wr_other _ _ (fun h => hcb h.symm), g2]⟩
            have hva : v ≠ a := fun h => haf (h ▸ hv)
            rw [wr_other _ _ hva, g1 v hv]
        · intro v hv
          have hva : v ≠ a := fun h => hv c hc (h ▸ hp)
          rw [wr_other _ _ hva, h2 v hv]
      · simp only [hc, if_false]
        refine ⟨fun b hb => ?_, h2⟩
        rw [List.filter_append]
        have hcb : c ≠ b := fun h => hc (h ▸ hb)
        have e1 : [a].filter (fun v => decide (part v = some b)) = [] := by simp [hp, hcb]
        rw [e1, List.append_nil]
        exact h1 b hb

section
variable {σ : Type} {C : ConInfo σ} {con : σ} {split : Bool}

theorem toBlocks_spec {e : Nat} (hn : (C.connSet con e).Nodup) (b : Nat) (lists : Nat → List Nat) :
    toBlocks C con split lists e b = lists b ++ if b ∈ C.connSet con e ∧ select C con b split e = true then [e] else [] := by
  unfold toBlocks
  generalize C.connSet con e = l at *
  induction l generalizing lists with
  | nil => simp
  | cons a l ih =>
    have hn' := List.nodup_cons.1 hn
    rw [List.foldl_cons, ih _ hn'.2]
    by_cases hab : b = a
    · subst hab
      have : b ∉ l := hn'.1
      by_cases hs : select C con b split e = true
      · simp [hs, this, wr_same]
      · simp [hs]
    · by_cases hs : select C con a split e = true
      · simp only [hs, if_true, wr_other _ _ hab]
        simp [hab]
      · simp [hs, hab]

theorem toBlocks_foldl (es : List Nat) (hn : ∀ e ∈ es, (C.connSet con e).Nodup) (b : Nat) (lists : Nat → List Nat) :
    es.foldl (toBlocks C con split) lists b = lists b ++
      es.filter (fun e => decide (b ∈ C.connSet con e ∧ select C con b split e = true)) := by
  induction es generalizing lists with
  | nil => simp
  | cons a es ih =>
    rw [List.foldl_cons, ih (fun e he => hn e (by simp [he])), toBlocks_spec (hn a (by simp)), List.filter_cons]
    by_cases h : b ∈ C.connSet con a ∧ select C con b split a = true
    · rw [if_pos h, if_pos (by simpa using h)]; simp
    · rw [if_neg h, if_neg (by simpa using h)]; simp

theorem hes2block_eq (streams : List (List Nat)) (hn : ∀ e ∈ streams.flatten, (C.connSet con e).Nodup) (b : Nat) :
    hes2block C con split streams b =
      streams.flatten.filter (fun e => decide (b ∈ C.connSet con e ∧ select C con b split e = true)) := by
  unfold hes2block
  induction streams with
  | nil => rfl
  | cons a l ih =>
    rw [List.map_cons, List.flatten_cons, List.flatten_cons, List.filter_append,
      ih (fun e he => hn e (by rw [List.flatten_cons]; exact List.mem_append_right _ he)),
      toBlocks_foldl a (fun e he => hn e (by rw [List.flatten_cons]; exact List.mem_append_left _ he)), List.nil_append]

end

/-- a loop writing a value at an injective index of the block of each entry -/
theorem writes2_spec {α : Type} (order : List Nat) (hn : order.Nodup) (part : Assign) (k : Nat) (idx : Nat → Nat) (val : Nat → α)
    (hinj : ∀ b < k, ∀ u ∈ order, ∀ v ∈ order, part u = some b → part v = some b → idx u = idx v → u = v) (a0 : Nat → Nat → α) :
    ∀ v ∈ order, ∀ b < k, part v = some b → order.foldl (fun (a : Nat → Nat → α) v => match part v with
      | some b => if b < k then wr a b (wr (a b) (idx v) (val v)) else a
      | none => a) a0 b (idx v) = val v := by
  have := foldl_local (fun (a : Nat → Nat → α) v => match part v with
      | some b => if b < k then wr a b (wr (a b) (idx v) (val v)) else a
      | none => a) (fun _ _ => True)
    (fun v a => ∀ b < k, part v = some b → a b (idx v) = val v) order a0 hn
    (by intro s c _ _ b hb hs; simp only [hs, hb, if_true]; rw [wr_same, wr_same])
    (fun _ _ _ _ _ _ _ => trivial)
    (by
      intro s c d hc hd hdc hQ b hb hs
      have hQ' := hQ b hb hs
      cases hp : part c with
      | none => exact hQ'
      | some b' =>
        simp only
        split
        · by_cases hbb : b = b'
          · subst hbb
            rw [wr_same, wr_other _ _ (fun h => hdc (hinj b hb d hd c hc hs hp h))]
            exact hQ'
          · rw [wr_other _ _ hbb]
            exact hQ'
        · exact hQ')
    (fun _ _ => trivial)
  exact this

variable {H : SHG} {Φ : Assign} {split stable : Bool}
variable {σ : Type} {C : ConInfo σ} {m k mx : Nat} {L : C.Lawful m k mx}

theorem select_iff (hf : H.toHG.Fits m mx) {P : PHG σ} (hS : PHG.Sim L H.toHG P Φ) {b : Nat} (hb : b < k) {e : Nat} (he : e ∈ H.edges) :
    select C P.con b split e = true ↔ H.toHG.keeps Φ b split e := by
  obtain ⟨T, hR, hT⟩ := hS.con
  have h1 := (hS.connSet_lam hf he).1
  have h2 : C.pinCount P.con e b = H.toHG.pinsIn Φ e b := by
    rw [L.pinCount_eq hR (hf e he).1 hb, hT e he b hb]
  unfold select HG.keeps
  rw [h1, h2]
  simp only [Bool.and_eq_true, decide_eq_true_eq, Bool.or_eq_true]
  exact Iff.rfl

theorem extractAll_spec (hok : Ok H) (hf : H.toHG.Fits m mx) {P : PHG σ} (hS : PHG.Sim L H.toHG P Φ)
    {com : Nat → Nat} {cut : Option (Nat → Bool)} {s : ASched} (hs : s.Legal C H P k split) :
    ∀ b < k, ∃ H' g, ((extractAll C H P k com cut split stable s).1 b).hg = some H' ∧
      IsBlock H Φ b split H' (extractAll C H P k com cut split stable s).2 g ∧
      (∀ c, cut = some c → ∀ e ∈ (H.toHG.restrict Φ b split).edges, ((extractAll C H P k com cut split stable s).1 b).cut (g e) = c e) ∧
      (∀ v ∈ (H.toHG.restrict Φ b split).nodes, ((extractAll C H P k com cut split stable s).1 b).com ((extractAll C H P k com cut split stable s).2 v) = com v) := by
  intro b hb
  obtain ⟨hw, hsm, hsmE, hpos, htot⟩ := hok
  have hnodesH : H.nodes.Nodup := hw.nodes_nodup
  have hedgesH : H.edges.Nodup := hw.edges_nodup
  have hpart : P.part = Φ := hS.part
  have hno := hs.node.nodup_iff.2 hnodesH
  obtain ⟨n1, _⟩ := numberAll_spec P.part k s.nodeOrder hno
  have hcn : ∀ e ∈ s.streams.flatten, (C.connSet P.con e).Nodup :=
    fun e he => (hS.connSet_lam hf (hs.streams.mem_iff.1 he)).2.1
  have hhes := fun p => hes2block_eq (split := split) s.streams hcn p
  have hLp : (s.nodeOrder.filter (fun v => decide (P.part v = some b))).Perm (H.nodes.filter (fun v => decide (Φ v = some b))) := by
    rw [hpart]; exact hs.node.filter _
  have hSp : (hes2block C P.con split s.streams b).Perm (H.edges.filter (fun e => decide (H.toHG.keeps Φ b split e))) := by
    rw [hhes]
    refine (hs.streams.filter _).trans ?_
    have : H.edges.filter (fun e => decide (b ∈ C.connSet P.con e ∧ select C P.con b split e = true)) =
        H.edges.filter (fun e => decide (H.toHG.keeps Φ b split e)) := by
      apply List.filter_congr
      intro e he
      rw [decide_eq_decide, select_iff hf hS hb he]
      constructor
      · exact fun h => h.2
      · intro h
        refine ⟨((hS.connSet_lam hf he).2.2 b).2 (HG.mem_blocksOf.2 ?_), h⟩
        have := h.1; omega
    rw [this]
  have hLn := hLp.nodup_iff.2 (hnodesH.filter _)
  have hSn := hSp.nodup_iff.2 (hedgesH.filter _)
  have hget : ∀ e ∈ hes2block C P.con split s.streams b,
      (hes2block C P.con split s.streams b).getD ((hes2block C P.con split s.streams b).idxOf e) 0 = e := by
    intro e he
    rw [List.getD_eq_getElem _ _ (List.idxOf_lt_length_iff.2 he), List.getElem_idxOf]
  have hinjN : ∀ b < k, ∀ u ∈ H.nodes, ∀ v ∈ H.nodes, P.part u = some b → P.part v = some b →
      (numberAll P.part k s.nodeOrder).1 u = (numberAll P.part k s.nodeOrder).1 v → u = v := by
    intro b hb u hu v hv h1 h2 h
    have hu' : u ∈ s.nodeOrder.filter (fun v => decide (P.part v = some b)) :=
      List.mem_filter.2 ⟨hs.node.mem_iff.2 hu, by simpa using h1⟩
    have hv' : v ∈ s.nodeOrder.filter (fun v => decide (P.part v = some b)) :=
      List.mem_filter.2 ⟨hs.node.mem_iff.2 hv, by simpa using h2⟩
    rw [(n1 b hb).1 u hu', (n1 b hb).1 v hv'] at h
    exact idxOf_inj hu' h
  have hpo := hs.pin b hb
  have hpn := hpo.nodup_iff.2 List.nodup_range
  have a1 := pushAll_spec (s.pinOrder b) hpn (fun _ => true) id (fun i => H.pins ((hes2block C P.con split s.streams b).getD i 0))
    P.part b (numberAll P.part k s.nodeOrder).1 (fun _ _ _ _ _ _ h => h)
  have a2 := writes_spec (s.pinOrder b) hpn (fun _ => true) id (fun i => H.heWeight ((hes2block C P.con split s.streams b).getD i 0))
    (fun _ _ _ _ _ _ h => h) (fun _ => 0)
  have a3 := writes2_spec s.weightOrder (hs.weight.nodup_iff.2 hnodesH) P.part k (numberAll P.part k s.nodeOrder).1 H.hnWeight
    (fun b hb u hu v hv => hinjN b hb u (hs.weight.mem_iff.1 hu) v (hs.weight.mem_iff.1 hv)) (fun _ _ => 0)
  have a4 := writes2_spec s.comOrder (hs.com.nodup_iff.2 hnodesH) P.part k (numberAll P.part k s.nodeOrder).1 com
    (fun b hb u hu v hv => hinjN b hb u (hs.com.mem_iff.1 hu) v (hs.com.mem_iff.1 hv)) (fun _ _ => 0)
  simp only [if_true, id_eq, forall_const] at a1 a2
  have hlegal := hs.build b ((numberAll P.part k s.nodeOrder).2 b) (hes2block C P.con split s.streams b).length
    ((s.pinOrder b).foldl (fun ev i => pushPins P.part b (numberAll P.part k s.nodeOrder).1 i (H.pins ((hes2block C P.con split s.streams b).getD i 0)) ev) (fun _ => []))
  have key := core (H := H) (Φ := Φ) (b := b) (split := split) (stable := stable)
    (L := s.nodeOrder.filter (fun v => decide (P.part v = some b))) (S := hes2block C P.con split s.streams b)
    (f := (numberAll P.part k s.nodeOrder).1)
    (ev := (s.pinOrder b).foldl (fun ev i => pushPins P.part b (numberAll P.part k s.nodeOrder).1 i (H.pins ((hes2block C P.con split s.streams b).getD i 0)) ev) (fun _ => []))
    (ew := (s.pinOrder b).foldl (fun (w : Nat → Int) i => wr w i (H.heWeight ((hes2block C P.con split s.streams b).getD i 0))) (fun _ => 0))
    (nw := s.weightOrder.foldl (fun (w : Nat → Nat → Int) v => match P.part v with
      | some b => if b < k then wr w b (wr (w b) ((numberAll P.part k s.nodeOrder).1 v) (H.hnWeight v)) else w
      | none => w) (fun _ _ => 0) b)
    (arr0 := s.arr0 b) (nets0 := s.nets0 b) hw hLp (n1 b hb).1 hSp
    (by
      intro e he
      rw [a1 _ (hpo.mem_iff.2 (List.mem_range.2 (List.idxOf_lt_length_iff.2 he))), hget e he, hpart])
    (by
      intro e he
      rw [a2 _ (hpo.mem_iff.2 (List.mem_range.2 (List.idxOf_lt_length_iff.2 he))), hget e he])
    (by
      intro v hv
      rw [← (n1 b hb).1 v hv]
      obtain ⟨h1, h2⟩ := List.mem_filter.1 hv
      exact a3 v (hs.weight.mem_iff.2 (hs.node.mem_iff.1 h1)) b hb (by simpa using h2))
    hsm hpos htot (n1 b hb).2 rfl hlegal
  obtain ⟨H', hc, _, _, hB⟩ := key
  refine ⟨H', fun e => (hes2block C P.con split s.streams b).idxOf e, hc, hB, ?_, ?_⟩
  · rintro c rfl e he
    have he' := hSp.mem_iff.2 he
    have hco := hs.cut b hb
    have a5 := writes_spec (s.cutOrder b) (hco.nodup_iff.2 List.nodup_range) (fun _ => true) id (fun i => c ((hes2block C P.con split s.streams b).getD i 0))
      (fun _ _ _ _ _ _ h => h) (fun _ => false)
    simp only [if_true, id_eq, forall_const] at a5
    have := a5 _ (hco.mem_iff.2 (List.mem_range.2 (List.idxOf_lt_length_iff.2 he')))
    rw [hget e he'] at this
    exact this
  · intro v hv
    obtain ⟨h1, h2⟩ := List.mem_filter.1 hv
    exact a4 v (hs.com.mem_iff.2 h1) b hb (by rw [hpart]; simpa using h2)

end Extract
end Verif
