import Verif.Lemmas.Map3
/-! # Lemmas: result of the greedy mapping, choice of the processor -/
namespace Verif
namespace OneMap
open DFlow (set set_same set_other set_apply)

variable {c : GCfg}

theorem minProcs_ne {un : Nat → Bool} {w : Int} (h : ∃ p ∈ freeProcs c un, c.indiv = true → w ≤ c.mx p) : (minProcs c un w).2 ≠ [] := by
  unfold minProcs
  have key : ∀ (l : List Nat) (x : Option Int × List Nat), (x.2 = [] → x.1 = none) → ((∃ p ∈ l, c.indiv = true → w ≤ c.mx p) ∨ x.2 ≠ []) →
      (l.foldl (fun x p =>
        if c.indiv ∧ c.mx p < w then x
        else match x.1 with
          | none => (some (c.deg p), [p])
          | some d => if c.deg p < d then (some (c.deg p), [p]) else if c.deg p = d then (x.1, x.2 ++ [p]) else x) x).2 ≠ [] := by
    intro l
    induction l with
    | nil =>
      rintro x - (⟨p, hp, -⟩ | h)
      · cases hp
      · exact h
    | cons a l ih =>
      intro x hx h
      rw [List.foldl_cons]
      have hstep : ∀ y : Option Int × List Nat, y.2 ≠ [] → (l.foldl (fun x p =>
        if c.indiv ∧ c.mx p < w then x
        else match x.1 with
          | none => (some (c.deg p), [p])
          | some d => if c.deg p < d then (some (c.deg p), [p]) else if c.deg p = d then (x.1, x.2 ++ [p]) else x) y).2 ≠ [] :=
        fun y hy => ih y (fun h => absurd h hy) (Or.inr hy)
      by_cases hc : c.indiv = true ∧ c.mx a < w
      · rw [if_pos hc]
        refine ih x hx ?_
        rcases h with ⟨p, hp, hpw⟩ | h
        · rcases List.mem_cons.mp hp with rfl | hp
          · have := hpw hc.1
            omega
          · exact Or.inl ⟨p, hp, hpw⟩
        · exact Or.inr h
      · rw [if_neg hc]
        apply hstep
        cases hx1 : x.1 with
        | none => simp
        | some d =>
          dsimp only
          by_cases h1 : c.deg a < d
          · rw [if_pos h1]; simp
          · rw [if_neg h1]
            by_cases h2 : c.deg a = d
            · rw [if_pos h2]; simp
            · rw [if_neg h2]
              intro hh
              have := hx hh
              rw [hx1] at this; cases this
  obtain ⟨p, hp, hpw⟩ := h
  exact key _ _ (fun _ => rfl) (Or.inl ⟨p, hp, hpw⟩)

/-- the seed node can be used -/
def SeedOk (c : GCfg) (seed : Nat) : Prop :=
  if c.fixed seed then (∀ v ∈ c.H.nodes, c.fixed v = true) ∨ ∃ e ∈ c.H.edges, (∃ v ∈ c.H.pins e, c.fixed v = true) ∧ ∃ v ∈ c.H.pins e, c.fixed v = false
  else c.indiv = true → ∃ p < c.k, (∀ v ∈ c.H.nodes, c.fixed v = true → c.fixedBlock v ≠ p) ∧ c.H.nw seed ≤ c.mx p

theorem greedy_spec (hw : c.H.WF) (hk : c.H.nodes.length = c.k) (hpk : PickOk c) (hF : FixOk c) {seed : Nat} (hs : seed ∈ c.H.nodes) (hS : SeedOk c seed) :
    ∃ Φ N, (∀ n ≥ N, greedy c n seed = some Φ) ∧ (∀ v ∈ c.H.nodes, ∃ b < c.k, Φ v = some b) ∧ (∀ v w b, Φ v = some b → Φ w = some b → v = w) ∧
      (∀ v ∈ c.H.nodes, c.fixed v = true → Φ v = some (c.fixedBlock v)) ∧ (∀ v, v ∉ c.H.nodes → Φ v = none) := by
  obtain ⟨p1, p2, p3⟩ := preassign_spec hw hF
  have fin : ∀ g : GSt, GInv c g → GDone c g → (∀ n, greedy c n seed = (greedyLoop c n g).map (·.Φ)) →
      ∃ Φ N, (∀ n ≥ N, greedy c n seed = some Φ) ∧ (∀ v ∈ c.H.nodes, ∃ b < c.k, Φ v = some b) ∧ (∀ v w b, Φ v = some b → Φ w = some b → v = w) ∧
      (∀ v ∈ c.H.nodes, c.fixed v = true → Φ v = some (c.fixedBlock v)) ∧ (∀ v, v ∉ c.H.nodes → Φ v = none) := by
    intro g hg hD hgr
    obtain ⟨g', N, h1, h2, h3⟩ := greedyLoop_ends hw hk hpk g hg hD
    refine ⟨g'.Φ, N, fun n hn => by rw [hgr, h1 n hn]; rfl, ?_, h2.inj, ?_, h2.out⟩
    · intro v hv
      obtain ⟨b, hb⟩ := Option.ne_none_iff_exists'.mp (h3 v hv)
      exact ⟨b, h2.lt v b hb, hb⟩
    · intro v hv hf
      obtain ⟨b, hb⟩ := Option.ne_none_iff_exists'.mp (h3 v hv)
      rw [hb, h2.fix v hv hf b hb]
  unfold SeedOk at hS
  by_cases hf : c.fixed seed = true
  · rw [if_pos hf] at hS
    refine fin (preassign c) p1 ⟨?_, fun v hv hvf => (p2 v hv).mpr hvf⟩ (fun n => by unfold greedy; rw [if_pos hf])
    intro hq
    rcases hS with hS | ⟨e, he, hv, w, hw', hwf⟩
    · exact fun v hv => (p2 v hv).mpr (hS v hv)
    · obtain ⟨m, hm, -⟩ := p3 e he hv w hw' hwf
      rw [hq] at hm; cases hm
  · rw [if_neg hf] at hS
    have hn : (preassign c).Φ seed = none := by
      by_contra hh
      exact hf ((p2 seed hs).mp hh)
    have hne : (minProcs c (preassign c).un (c.H.nw seed)).2 ≠ [] := by
      apply minProcs_ne
      cases hi : c.indiv with
      | false =>
        obtain ⟨p, hp⟩ := List.exists_mem_of_ne_nil _ (free_ne hw hk p1 hs hn)
        exact ⟨p, hp, fun h => by cases h⟩
      | true =>
        obtain ⟨p, hpk, hpf, hpw⟩ := hS hi
        refine ⟨p, List.mem_filter.mpr ⟨List.mem_range.mpr hpk, (p1.un p).mpr ⟨hpk, fun v hv => ?_⟩⟩, fun _ => hpw⟩
        have hvn : v ∈ c.H.nodes := by
          by_contra hh
          rw [p1.out v hh] at hv; cases hv
        have hvf := (p2 v hvn).mp (by rw [hv]; simp)
        exact hpf v hvn hvf (p1.fix v hvn hvf _ hv).symm
    have hpi := minProcs_sub _ (hpk seed _ hne)
    have hA := assign_inv hw p1 hs hn hpi.1 (fun h => absurd h hf)
    have hΦ := (assign_spec hw (preassign c) (p := c.pick seed (minProcs c (preassign c).un (c.H.nw seed)).2) hs).1
    obtain ⟨c1, c2, -, -, -⟩ := checkAll_spec hA (fun v hv hvf => by
      rw [hΦ]
      show (if v = seed then _ else (preassign c).Φ v) ≠ none
      by_cases hvs : v = seed
      · rw [if_pos hvs]; simp
      · rw [if_neg hvs]; exact (p2 v hv).mpr hvf)
    exact fin _ c1 c2 (fun n => by unfold greedy; rw [if_neg hf, if_neg hne])

/-- the rating of a processor is the increase of the metric -/
theorem procRating_eq (hw : c.H.WF) (hd0 : c.dist ∅ = 0) {Φ : Assign} {u : Nat} (hu : u ∈ c.H.nodes) (hn : Φ u = none) (p : Nat) :
    procRating c Φ u p = c.H.steiner c.dist (Φ.put u p) - c.H.steiner c.dist Φ := by
  have hb : ∀ e, u ∈ c.H.pins e → c.H.blocksOf (Φ.put u p) e = insert p (c.H.blocksOf Φ e) := by
    intro e he
    ext b
    rw [Finset.mem_insert, mem_blocksOf, mem_blocksOf]
    constructor
    · rintro ⟨x, hx, hxb⟩
      have hxb : (if x = u then some p else Φ x) = some b := hxb
      by_cases hxu : x = u
      · rw [if_pos hxu] at hxb; injection hxb with hxb; exact Or.inl hxb.symm
      · rw [if_neg hxu] at hxb; exact Or.inr ⟨x, hx, hxb⟩
    · rintro (rfl | ⟨x, hx, hxb⟩)
      · exact ⟨u, he, if_pos rfl⟩
      · refine ⟨x, hx, ?_⟩
        show (if x = u then some p else Φ x) = some b
        rw [if_neg (by rintro rfl; rw [hn] at hxb; cases hxb)]; exact hxb
  have hb' : ∀ e, u ∉ c.H.pins e → c.H.blocksOf (Φ.put u p) e = c.H.blocksOf Φ e := by
    intro e he
    ext b
    rw [mem_blocksOf, mem_blocksOf]
    refine exists_congr (fun x => and_congr_right (fun hx => ?_))
    show (if x = u then some p else Φ x) = some b ↔ _
    rw [if_neg (by rintro rfl; exact he hx)]
  unfold HG.steiner
  rw [GainComp.sum_change hw hu (f := fun e => c.dist (c.H.blocksOf (Φ.put u p) e) * c.H.ew e) (g := fun e => c.dist (c.H.blocksOf Φ e) * c.H.ew e)
    (fun e _ he => by rw [hb' e he])]
  unfold procRating
  congr 1
  apply List.map_congr_left
  intro e he
  have hue := ((hw.inc_iff u hu e).mp he).2
  rw [hb e hue]
  have : (if 0 < c.H.lam Φ e then c.dist (c.H.blocksOf Φ e) else 0) = c.dist (c.H.blocksOf Φ e) := by
    by_cases h : 0 < c.H.lam Φ e
    · rw [if_pos h]
    · rw [if_neg h]
      have : c.H.blocksOf Φ e = ∅ := by
        unfold HG.lam at h
        exact Finset.card_eq_zero.mp (by omega)
      rw [this, hd0]
  rw [this]; ring

/-- what the selection returns -/
structure SelOk (r : Nat → Int) (bal : Nat → Bool) (seen : List Nat) (x : Option Int × Bool × List Nat) : Prop where
  none : x.1 = none → seen = []
  mem : ∀ q ∈ x.2.2, x.1 = some (r q)
  le : ∀ q ∈ seen, bal q = true → ∃ b, x.1 = some b ∧ b ≤ r q
  bal : x.2.1 = true ↔ ∃ q ∈ seen, bal q = true

theorem selectStep_ok {r : Nat → Int} {bal : Nat → Bool} {seen : List Nat} {x : Option Int × Bool × List Nat} (h : SelOk r bal seen x) (p : Nat) :
    SelOk r bal (p :: seen) (selectStep r bal x p) := by
  obtain ⟨bst, bb, ties⟩ := x
  obtain ⟨h1, h2, h3, h4⟩ := h
  dsimp only at h1 h2 h3 h4
  have hbb : (bb || bal p) = true ↔ ∃ q ∈ p :: seen, bal q = true := by
    rw [Bool.or_eq_true, h4]
    simp [or_comm]
  cases bst with
  | none =>
    have hs := h1 rfl
    subst hs
    have hbf : bb = false := by
      cases bb with
      | false => rfl
      | true => obtain ⟨q, hq, -⟩ := h4.mp rfl; cases hq
    subst hbf
    have e : selectStep r bal (none, false, ties) p = (some (r p), bal p, [p]) := by
      unfold selectStep; simp
    rw [e]
    refine ⟨(fun h => by cases h), ?_, ?_, ?_⟩
    · intro q hq; rw [List.mem_singleton.mp hq]
    · intro q hq _; rw [List.mem_singleton.mp hq]; exact ⟨_, rfl, le_refl _⟩
    · simpa using hbb
  | some b =>
    by_cases hal : (bal p || !bb) = true
    · by_cases hlt : r p < b
      · have e : selectStep r bal (some b, bb, ties) p = (some (r p), (bb || bal p), [p]) := by
          unfold selectStep; dsimp only; rw [hal]; simp [hlt]
        rw [e]
        refine ⟨(fun h => by cases h), ?_, ?_, hbb⟩
        · intro q hq; rw [List.mem_singleton.mp hq]
        · intro q hq hqb
          refine ⟨_, rfl, ?_⟩
          rcases List.mem_cons.mp hq with rfl | hq
          · exact le_refl _
          · obtain ⟨b', hb', hle⟩ := h3 q hq hqb
            injection hb' with hb'
            omega
      · have hle' : ∀ q ∈ p :: seen, bal q = true → ∃ b', (some b : Option Int) = some b' ∧ b' ≤ r q := by
          intro q hq hqb
          rcases List.mem_cons.mp hq with rfl | hq
          · exact ⟨b, rfl, by omega⟩
          · exact h3 q hq hqb
        have hdead : ∀ y z : Bool, (y && !(z || y)) = false := by decide
        by_cases heq : b = r p
        · have e : selectStep r bal (some b, bb, ties) p = (some b, (bb || bal p), ties ++ [p]) := by
            unfold selectStep; dsimp only; rw [hal, hdead]; simp [hlt, heq]
          rw [e]
          refine ⟨(fun h => by cases h), ?_, hle', hbb⟩
          intro q hq
          rcases List.mem_append.mp hq with hq | hq
          · exact h2 q hq
          · rw [List.mem_singleton.mp hq, heq]
        · have e : selectStep r bal (some b, bb, ties) p = (some b, (bb || bal p), ties) := by
            unfold selectStep; dsimp only; rw [hal, hdead]; simp [hlt, heq]
          rw [e]
          exact ⟨(fun h => by cases h), h2, hle', hbb⟩
    · have hal' : bal p = false ∧ bb = true := by
        cases hx : bal p <;> cases bb <;> simp [hx] at hal ⊢
      have e : selectStep r bal (some b, bb, ties) p = (some b, true, ties) := by
        unfold selectStep; dsimp only; rw [hal'.1, hal'.2]; simp
      rw [e]
      refine ⟨(fun h => by cases h), h2, ?_, ?_⟩
      · intro q hq hqb
        rcases List.mem_cons.mp hq with rfl | hq
        · rw [hal'.1] at hqb; cases hqb
        · exact h3 q hq hqb
      · rw [← hbb, hal'.2]; simp

theorem select_ok (r : Nat → Int) (bal : Nat → Bool) (l : List Nat) : ∃ seen : List Nat, (∀ q, q ∈ seen ↔ q ∈ l) ∧ SelOk r bal seen (select r bal l) := by
  have key : ∀ (l seen : List Nat) (x : Option Int × Bool × List Nat), SelOk r bal seen x →
      ∃ seen' : List Nat, (∀ q, q ∈ seen' ↔ q ∈ seen ∨ q ∈ l) ∧ SelOk r bal seen' (l.foldl (selectStep r bal) x) := by
    intro l
    induction l with
    | nil => intro seen x h; exact ⟨seen, by simp, h⟩
    | cons a l ih =>
      intro seen x h
      obtain ⟨s', h1, h2⟩ := ih _ _ (selectStep_ok h a)
      refine ⟨s', fun q => ?_, h2⟩
      rw [h1 q, List.mem_cons, List.mem_cons]
      tauto
  obtain ⟨s', h1, h2⟩ := key l [] (none, false, []) ⟨fun _ => rfl, by simp, by simp, by simp⟩
  exact ⟨s', fun q => by rw [h1 q]; simp, h2⟩

/-- the chosen processor is at least as good as all free processors that fit -/
theorem chosen_min (hw : c.H.WF) (hd0 : c.dist ∅ = 0) (hpk : PickOk c) {g : GSt} {u : Nat} (hu : u ∈ c.H.nodes) (hn : g.Φ u = none)
    {q : Nat} (hq : q ∈ freeProcs c g.un) (hqw : c.indiv = true → c.H.nw u ≤ c.mx q) :
    c.H.steiner c.dist (g.Φ.put u (chosen c g u)) ≤ c.H.steiner c.dist (g.Φ.put u q) := by
  obtain ⟨seen, h1, h2⟩ := select_ok (procRating c g.Φ u) (fun p => !c.indiv || decide (c.H.nw u ≤ c.mx p)) (freeProcs c g.un)
  have hm : chosen c g u ∈ _ := hpk u _ (select_ne (procRating c g.Φ u) (fun p => !c.indiv || decide (c.H.nw u ≤ c.mx p)) (List.ne_nil_of_mem hq))
  have e1 := h2.mem _ hm
  obtain ⟨b, hb, hle⟩ := h2.le q ((h1 q).mpr hq) (by
    cases hi : c.indiv with
    | false => rfl
    | true => simpa using hqw hi)
  rw [e1] at hb
  injection hb with hb
  have := procRating_eq hw hd0 hu hn (chosen c g u)
  have := procRating_eq hw hd0 hu hn q
  omega

end OneMap
end Verif
