import Verif.Lemmas.FNet2
/-! Sequential construction of the flow network: the result is the merge of the nets of the hyperedges. -/
namespace Verif
namespace FNet
open DFlow (set set_same set_other set_apply)

variable {c : NCfg} {r : Region}

/-- insert a net: raise the capacity of the net with the same pins, or append -/
def mergeInto : Nets → Int × List Nat → Nets
  | [], x => [x]
  | p :: l, x => if p.2 = x.2 then (p.1 + x.1, p.2) :: l else p :: mergeInto l x

def mergeOpt (M : Nets) : Option (Int × List Nat) → Nets
  | none => M
  | some x => mergeInto M x

theorem mergeInto_not {M : Nets} {x : Int × List Nat} (h : x.2 ∉ M.map Prod.snd) : mergeInto M x = M ++ [x] := by
  induction M with
  | nil => rfl
  | cons p l ih =>
    simp only [List.map_cons, List.mem_cons, not_or] at h
    simp only [mergeInto, if_neg (Ne.symm h.1), ih h.2, List.cons_append]

theorem mergeInto_mem {M : Nets} (hn : (M.map Prod.snd).Nodup) {i : Nat} {p x : Int × List Nat} (hi : M[i]? = some p) (hp : p.2 = x.2) :
    mergeInto M x = M.modify i (fun q => (q.1 + x.1, q.2)) := by
  induction M generalizing i with
  | nil => simp at hi
  | cons q l ih =>
    rw [List.map_cons, List.nodup_cons] at hn
    cases i with
    | zero =>
      simp only [List.getElem?_cons_zero, Option.some.injEq] at hi
      subst hi
      simp only [mergeInto, if_pos hp, List.modify_zero_cons]
    | succ i =>
      rw [List.getElem?_cons_succ] at hi
      have hne : q.2 ≠ x.2 := fun h => hn.1 (List.mem_map.2 ⟨p, List.mem_of_getElem? hi, by rw [hp, h]⟩)
      simp only [mergeInto, if_neg hne, List.modify_succ_cons, ih hn.2 hi]

theorem mergeInto_snd {M : Nets} {x : Int × List Nat} : (mergeInto M x).map Prod.snd = if x.2 ∈ M.map Prod.snd then M.map Prod.snd else M.map Prod.snd ++ [x.2] := by
  induction M with
  | nil => simp [mergeInto]
  | cons p l ih =>
    by_cases h : p.2 = x.2
    · simp [mergeInto, h]
    · simp only [mergeInto, if_neg h, List.map_cons, ih, List.mem_cons, Ne.symm h, false_or]
      by_cases h2 : x.2 ∈ l.map Prod.snd
      · simp only [if_pos h2]
      · simp only [if_neg h2, List.cons_append]

theorem mergeInto_nodup {M : Nets} {x : Int × List Nat} (h : (M.map Prod.snd).Nodup) : ((mergeInto M x).map Prod.snd).Nodup := by
  rw [mergeInto_snd]
  by_cases hx : x.2 ∈ M.map Prod.snd
  · rwa [if_pos hx]
  · rw [if_neg hx, List.nodup_append]
    exact ⟨h, by simp, by rintro a ha b hb rfl; simp only [List.mem_singleton] at hb; exact hx (hb ▸ ha)⟩

theorem mergeInto_netCut (S : Nat → Bool) (M : Nets) (x : Int × List Nat) : netCut S (mergeInto M x) = netCut S M + netVal S (some x) := by
  induction M with
  | nil => simp [mergeInto, netCut, netVal]
  | cons p l ih =>
    by_cases h : p.2 = x.2
    · rw [show mergeInto (p :: l) x = (p.1 + x.1, p.2) :: l from if_pos h]
      simp only [netCut, netVal, List.map_cons, List.sum_cons, ← h]
      by_cases hc : isCut S p.2 = true
      · simp only [if_pos hc]; omega
      · simp only [if_neg hc]; omega
    · simp only [mergeInto, if_neg h]
      simp only [netCut, List.map_cons, List.sum_cons] at ih ⊢
      omega

theorem mergeOpt_netCut (S : Nat → Bool) (M : Nets) (x : Option (Int × List Nat)) : netCut S (mergeOpt M x) = netCut S M + netVal S x := by
  cases x with
  | none => simp [mergeOpt, netVal]
  | some x => exact mergeInto_netCut S M x

theorem mergeOpt_nodup {M : Nets} {x : Option (Int × List Nat)} (h : (M.map Prod.snd).Nodup) : ((mergeOpt M x).map Prod.snd).Nodup := by
  cases x with
  | none => exact h
  | some x => exact mergeInto_nodup h

structure SInv (c : NCfg) (s : SSt) (M : Nets) : Prop where
  len : s.hg.cur.length ≠ 1
  fin : s.hg.finish.edges = M
  he : s.he = M.length
  nodup : (M.map Prod.snd).Nodup
  bk : ∀ k h i, (h, i) ∈ s.bucket k ↔ ∃ p, M[i]? = some p ∧ h = hashOf c p.2 ∧ k = h % c.nb

theorem SInv.init (c : NCfg) : SInv c SSt.empty [] :=
  ⟨by simp [SSt.empty], by simp [SSt.empty, Builder.finish], rfl, by simp, by simp [SSt.empty]⟩

theorem start_edges (b : Builder) (x : Int) : (b.start x).edges = b.finish.edges ∧ (b.start x).cur = [] := by
  refine ⟨rfl, ?_⟩
  unfold Builder.start Builder.finish
  by_cases h : b.cur.length = 1
  · simp [h]
  · by_cases h2 : b.cur.length > 0
    · simp [h, h2]
    · simp only [h, if_false, h2]
      exact List.eq_nil_of_length_eq_zero (by omega)

/-- after `startHyperedge`: nothing is open -/
theorem SInv.start {s : SSt} {M : Nets} (h : SInv c s M) (x : Int) : SInv c { s with hg := s.hg.start x } M ∧ (s.hg.start x).edges = M ∧ (s.hg.start x).cur = [] := by
  obtain ⟨h1, h2⟩ := start_edges s.hg x
  refine ⟨⟨by simp [h2], ?_, h.he, h.nodup, h.bk⟩, h1.trans h.fin, h2⟩
  show (Builder.finish (s.hg.start x)).edges = M
  unfold Builder.finish
  simp [h2, h1, h.fin]

theorem emit_spec {s : SSt} {M : Nets} (h : SInv c s M) (hM : s.hg.edges = M) (hc : s.hg.cur = []) {cap : Int} (hcap : s.hg.cap = cap) {pins : List Nat} :
    SInv c (emit c s cap pins) (if pins.length > 1 then mergeInto M (cap, pins) else M) ∧
    (emit c s cap pins).total = s.total ∧ (emit c s cap pins).nonrem = s.nonrem := by
  unfold emit
  by_cases hl : pins.length > 1
  swap
  · rw [if_neg hl, if_neg hl]; exact ⟨h, rfl, rfl⟩
  rw [if_pos hl, if_pos hl]
  dsimp only
  cases hf : findIdentical s.hg (s.bucket (hashOf c pins % c.nb)) (hashOf c pins) pins with
  | some t =>
    obtain ⟨th, ti⟩ := t
    have h2 := List.find?_some hf
    simp only [Bool.and_eq_true, decide_eq_true_eq, hM] at h2
    obtain ⟨_, h3⟩ := h2
    obtain ⟨p, hp, hpp⟩ := Option.map_eq_some_iff.1 h3
    have hmerge := mergeInto_mem h.nodup hp (x := (cap, pins)) hpp
    refine ⟨⟨by simp [Builder.raise, hc], ?_, ?_, mergeInto_nodup h.nodup, ?_⟩, rfl, rfl⟩
    · rw [hmerge]; simp [Builder.raise, Builder.finish, hc, hM]
    · rw [hmerge, List.length_modify]; exact h.he
    · intro k hh i
      dsimp only
      rw [h.bk, hmerge]
      simp only [List.getElem?_modify]
      constructor
      · rintro ⟨q, hq, e1, e2⟩
        by_cases hi : ti = i
        · exact ⟨(q.1 + cap, q.2), by simp [hi, hq], e1, e2⟩
        · exact ⟨q, by simp [hi, hq], e1, e2⟩
      · rintro ⟨q, hq, e1, e2⟩
        by_cases hi : ti = i
        · simp only [hi, if_true, Option.map_eq_map, Option.map_eq_some_iff] at hq
          obtain ⟨q', hq', rfl⟩ := hq
          exact ⟨q', hq', e1, e2⟩
        · simp only [hi, if_false, Option.map_eq_map, Option.map_id'] at hq
          exact ⟨q, hq, e1, e2⟩
  | none =>
    have hnot : pins ∉ M.map Prod.snd := by
      intro hp
      obtain ⟨p, hp, hpp⟩ := List.mem_map.1 hp
      obtain ⟨i, hi⟩ := List.getElem?_of_mem hp
      have := List.find?_eq_none.1 hf (hashOf c pins, i) ((h.bk _ _ _).2 ⟨p, hi, by rw [hpp], rfl⟩)
      simp [hM, hi, hpp] at this
    rw [mergeInto_not hnot]
    refine ⟨⟨?_, ?_, ?_, ?_, ?_⟩, rfl, rfl⟩
    · simp [Builder.addPins, hc]; omega
    · have : pins.length ≠ 1 := by omega
      have h0 : 0 < pins.length := by omega
      simp [Builder.addPins, Builder.finish, hc, hM, this, h0, hcap]
    · simp [h.he]
    · rw [← mergeInto_not hnot]; exact mergeInto_nodup h.nodup
    · intro k hh i
      dsimp only
      rw [set_apply]
      have hlast : ∀ p, (M ++ [(cap, pins)])[i]? = some p ↔ M[i]? = some p ∨ (i = M.length ∧ p = (cap, pins)) := by
        intro p
        by_cases hi : i < M.length
        · rw [List.getElem?_append_left hi]; constructor
          · exact Or.inl
          · rintro (h | ⟨h, _⟩)
            · exact h
            · omega
        · rw [List.getElem?_append_right (by omega), List.getElem?_eq_none (l := M) (by omega)]
          by_cases h2 : i = M.length
          · subst h2; simp [eq_comm]
          · rw [List.getElem?_eq_none (by simp; omega)]; simp [h2]
      simp only [hlast]
      by_cases hk : k = hashOf c pins % c.nb
      · simp only [hk, if_true, List.mem_append, h.bk, List.mem_singleton, Prod.mk.injEq, h.he]
        constructor
        · rintro (⟨p, a, b, d⟩ | ⟨rfl, rfl⟩)
          · exact ⟨p, Or.inl a, b, d⟩
          · exact ⟨_, Or.inr ⟨rfl, rfl⟩, rfl, rfl⟩
        · rintro ⟨p, (a | ⟨a, rfl⟩), b, d⟩
          · exact Or.inl ⟨p, a, b, d⟩
          · exact Or.inr ⟨b, a⟩
      · simp only [hk, if_false, h.bk]
        constructor
        · rintro ⟨p, a, b, d⟩
          exact ⟨p, Or.inl a, b, d⟩
        · rintro ⟨p, (a | ⟨a, rfl⟩), b, d⟩
          · exact ⟨p, a, b, d⟩
          · exact absurd (by rw [d, b]) hk

theorem defaultStep_spec {s : SSt} {M : Nets} (h : SInv c s M) (e : Nat) :
    SInv c (defaultStep c r s e) (mergeOpt M (entryDefault c r e).net) ∧ (defaultStep c r s e).total = s.total + (entryDefault c r e).total ∧
    (defaultStep c r s e).nonrem = s.nonrem + (entryDefault c r e).nonrem := by
  unfold defaultStep entryDefault
  dsimp only
  by_cases h0 : capacity c e = 0
  · rw [if_pos h0, if_pos h0]; exact ⟨h, by simp, by simp⟩
  rw [if_neg h0, if_neg h0]
  generalize (c.H.pins e).any (fun v => (nodeMap r v).isNone && decide (c.Φ v = some c.b0)) = cs
  generalize (c.H.pins e).any (fun v => (nodeMap r v).isNone && decide (c.Φ v = some c.b1)) = ct
  generalize (c.H.pins e).filterMap (nodeMap r) = pins
  obtain ⟨hs, hE, hC⟩ := h.start (capacity c e)
  have hcap : (s.hg.start (capacity c e)).cap = capacity c e := rfl
  set s1 : SSt := (if 0 < c.H.pinsIn c.Φ e c.b0 ∧ 0 < c.H.pinsIn c.Φ e c.b1 then
    { ({ s with hg := s.hg.start (capacity c e) } : SSt) with total := ({ s with hg := s.hg.start (capacity c e) } : SSt).total + capacity c e }
    else { s with hg := s.hg.start (capacity c e) }) with hs1
  have hh : s1.hg = s.hg.start (capacity c e) := by rw [hs1]; split <;> rfl
  have ht : s1.total = s.total + (if 0 < c.H.pinsIn c.Φ e c.b0 ∧ 0 < c.H.pinsIn c.Φ e c.b1 then capacity c e else 0) := by
    rw [hs1]
    by_cases hb : 0 < c.H.pinsIn c.Φ e c.b0 ∧ 0 < c.H.pinsIn c.Φ e c.b1
    · rw [if_pos hb, if_pos hb]
    · rw [if_neg hb, if_neg hb]; simp
  have hnr : s1.nonrem = s.nonrem := by rw [hs1]; split <;> rfl
  have hI : SInv c s1 M := by
    rw [hs1]
    by_cases hb : 0 < c.H.pinsIn c.Φ e c.b0 ∧ 0 < c.H.pinsIn c.Φ e c.b1
    · rw [if_pos hb]; exact ⟨hs.1, hs.2, hs.3, hs.4, hs.5⟩
    · rw [if_neg hb]; exact hs
  clear_value s1
  have hrem : SInv c { s1 with hg := s1.hg.removeCurrent, nonrem := s1.nonrem + (if cs && ct then capacity c e else 0) } M := by
    refine ⟨by simp [Builder.removeCurrent], ?_, hI.he, hI.nodup, hI.bk⟩
    rw [← hI.fin]
    simp [Builder.removeCurrent, Builder.finish, hh, hC]
  by_cases hcc : (cs && ct) = true
  · rw [if_pos (by simp [hcc]), if_pos hcc]
    rw [if_pos hcc] at hrem ⊢
    exact ⟨hrem, ht, by simp [hnr]⟩
  · rw [if_neg hcc]
    by_cases he : pins.isEmpty = true
    · rw [if_pos (by simp [he]), if_pos he, if_neg hcc]
      rw [if_neg hcc] at hrem
      exact ⟨hrem, ht, by simp [hnr]⟩
    · rw [if_neg (by simp only [Bool.or_eq_true, not_or]; exact ⟨hcc, he⟩), if_neg he]
      generalize (if cs = true then pushFront pins 0 else if ct = true then pushFront pins (sinkOf r) else pins) = q
      have := emit_spec hI (by rw [hh, hE]) (by rw [hh, hC]) (cap := capacity c e) (by rw [hh]; rfl) (pins := sortPins (sinkOf r) q)
      rw [(sortPins_perm (sinkOf r) q).length_eq] at this
      by_cases hl : q.length > 1
      · rw [if_pos hl] at this ⊢
        rw [if_neg hcc]
        exact ⟨this.1, this.2.1.trans ht, this.2.2.trans (by simp [hnr])⟩
      · rw [if_neg hl] at this ⊢
        rw [if_neg hcc]
        exact ⟨this.1, this.2.1.trans ht, this.2.2.trans (by simp [hnr])⟩

def mergeAll (l : List Entry) : Nets := l.foldl (fun M x => mergeOpt M x.net) []

theorem defaultFold {l : List Nat} : ∀ {s : SSt} {M : Nets}, SInv c s M →
    SInv c (l.foldl (defaultStep c r) s) ((l.map (entryDefault c r)).foldl (fun M x => mergeOpt M x.net) M) ∧
    (l.foldl (defaultStep c r) s).total = s.total + ((l.map (entryDefault c r)).map Entry.total).sum ∧
    (l.foldl (defaultStep c r) s).nonrem = s.nonrem + ((l.map (entryDefault c r)).map Entry.nonrem).sum := by
  induction l with
  | nil => intro s M h; exact ⟨h, by simp, by simp⟩
  | cons e l ih =>
    intro s M h
    obtain ⟨h1, h2, h3⟩ := defaultStep_spec (r := r) h e
    obtain ⟨i1, i2, i3⟩ := ih h1
    simp only [List.foldl_cons, List.map_cons, List.sum_cons]
    exact ⟨i1, by rw [i2, h2]; omega, by rw [i3, h3]; omega⟩

/-- the entries of the hyperedges of the region -/
def entries (c : NCfg) (r : Region) : List Entry := r.hes.map (entryDefault c r)

theorem constructDefault_eq (c : NCfg) (r : Region) :
    (constructDefault c r).hg.finish.edges = mergeAll (entries c r) ∧ (constructDefault c r).total = ((entries c r).map Entry.total).sum ∧
    (constructDefault c r).nonrem = ((entries c r).map Entry.nonrem).sum := by
  obtain ⟨h1, h2, h3⟩ := defaultFold (r := r) (l := r.hes) (SInv.init c)
  exact ⟨h1.fin, by unfold constructDefault; rw [h2]; simp [SSt.empty, entries], by unfold constructDefault; rw [h3]; simp [SSt.empty, entries]⟩

theorem foldl_netCut (S : Nat → Bool) (l : List Entry) : ∀ M : Nets, netCut S (l.foldl (fun M x => mergeOpt M x.net) M) = netCut S M + (l.map (fun x => netVal S x.net)).sum := by
  induction l with
  | nil => intro M; simp
  | cons x l ih => intro M; rw [List.foldl_cons, ih, mergeOpt_netCut, List.map_cons, List.sum_cons]; omega

theorem mergeAll_netCut (S : Nat → Bool) (l : List Entry) : netCut S (mergeAll l) = (l.map (fun x => netVal S x.net)).sum := by
  unfold mergeAll; rw [foldl_netCut]; simp [netCut]

/-- the entries determine the change of the objective -/
theorem entries_exact (h : NOK c r) {S : Nat → Bool} (h0 : S 0 = true) (h1 : S (sinkOf r) = false) :
    c.H.objective (assignOf c r S) c.o - c.H.objective c.Φ c.o =
    ((entries c r).map (fun x => netVal S x.net)).sum + ((entries c r).map Entry.nonrem).sum - ((entries c r).map Entry.total).sum := by
  have hsub : ∀ e ∈ r.hes, e ∈ c.H.edges := fun e he => (h.edge he).1
  have hd : ∀ e ∈ c.H.edges, c.H.term (assignOf c r S) e c.o - c.H.term c.Φ e c.o =
      if e ∈ r.hes then netVal S (entryDefault c r e).net + (entryDefault c r e).nonrem - (entryDefault c r e).total else 0 := by
    intro e he
    by_cases hr : e ∈ r.hes
    · rw [if_pos hr, term_diff h hr]
      obtain ⟨a, b⟩ := entry_val h hr h0 h1
      omega
    · rw [if_neg hr, term_out h he hr]; omega
  have hsum : ∀ l : List Nat, (∀ e ∈ l, e ∈ c.H.edges) → (l.map (fun e => c.H.term (assignOf c r S) e c.o)).sum - (l.map (fun e => c.H.term c.Φ e c.o)).sum =
      (l.map (fun e => if e ∈ r.hes then netVal S (entryDefault c r e).net + (entryDefault c r e).nonrem - (entryDefault c r e).total else 0)).sum := by
    intro l
    induction l with
    | nil => intro _; rfl
    | cons a l ih =>
      intro hl
      have := ih (fun e he => hl e (List.mem_cons_of_mem _ he))
      have h2 := hd a (hl a List.mem_cons_self)
      simp only [List.map_cons, List.sum_cons]
      omega
  have hrange : (c.H.edges.map (fun e => if e ∈ r.hes then netVal S (entryDefault c r e).net + (entryDefault c r e).nonrem - (entryDefault c r e).total else 0)).sum =
      (r.hes.map (fun e => netVal S (entryDefault c r e).net + (entryDefault c r e).nonrem - (entryDefault c r e).total)).sum := by
    rw [← List.sum_toFinset _ h.wf.edges_nodup, ← List.sum_toFinset _ h.hes, ← Finset.sum_filter]
    apply Finset.sum_congr _ (fun _ _ => rfl)
    ext e
    simp only [Finset.mem_filter, List.mem_toFinset]
    exact ⟨fun h => h.2, fun h => ⟨hsub e h, h⟩⟩
  have hfin : ∀ l : List Nat, (l.map (fun e => netVal S (entryDefault c r e).net + (entryDefault c r e).nonrem - (entryDefault c r e).total)).sum =
      ((l.map (entryDefault c r)).map (fun x => netVal S x.net)).sum + ((l.map (entryDefault c r)).map Entry.nonrem).sum - ((l.map (entryDefault c r)).map Entry.total).sum := by
    intro l
    induction l with
    | nil => rfl
    | cons a l ih => simp only [List.map_cons, List.sum_cons, ih]; omega
  have hob : ∀ Θ : Assign, c.H.objective Θ c.o = (c.H.edges.map (fun e => c.H.term Θ e c.o)).sum := by
    intro Θ; unfold HG.objective; cases c.o <;> rfl
  unfold entries
  rw [hob, hob, hsum _ (fun _ h => h), hrange, hfin]

end FNet
end Verif
