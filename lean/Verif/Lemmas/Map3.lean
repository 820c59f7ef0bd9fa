import Verif.Lemmas.Map2
/-! # Lemmas: greedy mapping -/
namespace Verif
namespace OneMap
open DFlow (set set_same set_other set_apply)

variable {c : GCfg}

structure UOk (c : GCfg) (upd0 : Nat → Bool) (Q : Nat → Prop) (x : Upd) : Prop where
  upd : ∀ v, x.upd v = true ↔ upd0 v = true ∧ v ∉ x.todo
  todo : ∀ v ∈ x.todo, upd0 v = true ∧ c.fixed v = false ∧ Q v

theorem pinStep_spec {upd0 : Nat → Bool} {Q : Nat → Prop} {x : Upd} (h : UOk c upd0 Q x) (w : Int) {v : Nat} (hQ : Q v) :
    UOk c upd0 Q (pinStep c w x v) ∧ (pinStep c w x v).visited = x.visited ∧ (∀ y ∈ x.todo, y ∈ (pinStep c w x v).todo) ∧
    (upd0 v = true → c.fixed v = false → v ∈ (pinStep c w x v).todo) := by
  unfold pinStep
  dsimp only
  by_cases hc : (x.upd v && !c.fixed v) = true
  · rw [if_pos hc]
    rw [Bool.and_eq_true, Bool.not_eq_true'] at hc
    refine ⟨⟨?_, ?_⟩, rfl, ?_, ?_⟩
    · intro y
      show set x.upd v false y = true ↔ _ ∧ y ∉ x.todo ++ [v]
      rw [set_apply]
      by_cases hy : y = v
      · subst hy; simp
      · rw [if_neg hy, h.upd y]; simp [hy]
    · intro y hy
      rcases List.mem_append.mp hy with hy | hy
      · exact h.todo y hy
      · rw [List.mem_singleton.mp hy]
        exact ⟨((h.upd v).mp hc.1).1, hc.2, hQ⟩
    · intro y hy; exact List.mem_append_left _ hy
    · intro _ _; exact List.mem_append_right _ (by simp)
  · rw [if_neg hc]
    refine ⟨⟨h.upd, h.todo⟩, rfl, fun _ hy => hy, ?_⟩
    intro h1 h2
    by_contra hn
    apply hc
    rw [(h.upd v).mpr ⟨h1, hn⟩, h2]; rfl

theorem pins_fold {upd0 : Nat → Bool} {Q : Nat → Prop} (w : Int) : ∀ (l : List Nat) (x : Upd), UOk c upd0 Q x → (∀ v ∈ l, Q v) →
    UOk c upd0 Q (l.foldl (pinStep c w) x) ∧ (l.foldl (pinStep c w) x).visited = x.visited ∧ (∀ y ∈ x.todo, y ∈ (l.foldl (pinStep c w) x).todo) ∧
    (∀ v ∈ l, upd0 v = true → c.fixed v = false → v ∈ (l.foldl (pinStep c w) x).todo)
  | [], x, h, _ => ⟨h, rfl, fun _ hy => hy, by simp⟩
  | a :: l, x, h, hQ => by
    obtain ⟨h1, h2, h3, h4⟩ := pinStep_spec h w (hQ a List.mem_cons_self)
    obtain ⟨i1, i2, i3, i4⟩ := pins_fold w l _ h1 (fun v hv => hQ v (List.mem_cons_of_mem _ hv))
    refine ⟨i1, i2.trans h2, fun y hy => i3 y (h3 y hy), ?_⟩
    intro v hv hu hf
    rcases List.mem_cons.mp hv with rfl | hv
    · exact i3 _ (h4 hu hf)
    · exact i4 v hv hu hf

theorem edges_fold {upd0 : Nat → Bool} {Q : Nat → Prop} : ∀ (l : List Nat) (x : Upd), UOk c upd0 Q x → (∀ e ∈ l, ∀ v ∈ c.H.pins e, Q v) →
    UOk c upd0 Q (l.foldl (edgeStep c) x) ∧ (∀ y ∈ x.todo, y ∈ (l.foldl (edgeStep c) x).todo) ∧
    (∀ e, (l.foldl (edgeStep c) x).visited e = true ↔ x.visited e = true ∨ e ∈ l) ∧
    (∀ e ∈ l, x.visited e = false → ∀ v ∈ c.H.pins e, upd0 v = true → c.fixed v = false → v ∈ (l.foldl (edgeStep c) x).todo)
  | [], x, h, _ => ⟨h, fun _ hy => hy, by simp, by simp⟩
  | a :: l, x, h, hQ => by
    rw [List.foldl_cons]
    by_cases ha : x.visited a = true
    · have e1 : edgeStep c x a = x := by unfold edgeStep; rw [if_pos ha]
      rw [e1]
      obtain ⟨i1, i2, i3, i4⟩ := edges_fold l x h (fun e he => hQ e (List.mem_cons_of_mem _ he))
      refine ⟨i1, i2, ?_, ?_⟩
      · intro e
        rw [i3 e, List.mem_cons]
        constructor
        · rintro (h | h)
          exacts [Or.inl h, Or.inr (Or.inr h)]
        · rintro (h | rfl | h)
          exacts [Or.inl h, Or.inl ha, Or.inr h]
      · intro e he hv
        rcases List.mem_cons.mp he with rfl | he
        · rw [ha] at hv; cases hv
        · exact i4 e he hv
    · obtain ⟨h1, h2, h3, h4⟩ := pins_fold (c.H.ew a) (c.H.pins a) x h (hQ a List.mem_cons_self)
      have e1 : edgeStep c x a = { (c.H.pins a).foldl (pinStep c (c.H.ew a)) x with visited := set x.visited a true } := by
        unfold edgeStep; rw [if_neg ha, h2]
      rw [e1]
      obtain ⟨i1, i2, i3, i4⟩ := edges_fold l { (c.H.pins a).foldl (pinStep c (c.H.ew a)) x with visited := set x.visited a true } ⟨h1.upd, h1.todo⟩
        (fun e he => hQ e (List.mem_cons_of_mem _ he))
      refine ⟨i1, fun y hy => i2 y (h3 y hy), ?_, ?_⟩
      · intro e
        rw [i3 e, List.mem_cons]
        show set x.visited a true e = true ∨ _ ↔ _
        rw [set_apply]
        by_cases hea : e = a
        · subst hea; simp
        · rw [if_neg hea]
          simp [hea]
      · intro e he hv v hvp hu hf
        by_cases hea : e = a
        · subst hea
          exact i2 v (h4 v hvp hu hf)
        · rcases List.mem_cons.mp he with rfl | he
          · exact absurd rfl hea
          · refine i4 e he ?_ v hvp hu hf
            show set x.visited a true e = false
            rw [set_apply, if_neg hea]; exact hv

theorem set_true_fold : ∀ (l : List Nat) (f : Nat → Bool) (v : Nat), l.foldl (fun f v => set f v true) f v = true ↔ f v = true ∨ v ∈ l
  | [], f, v => by simp
  | a :: l, f, v => by
    rw [List.foldl_cons, set_true_fold l, set_apply]
    by_cases h : v = a
    · subst h; simp
    · rw [if_neg h]; simp [h]

theorem assign_spec (hw : c.H.WF) (g : GSt) {u p : Nat} (hu : u ∈ c.H.nodes) :
    (assign c g u p).Φ = g.Φ.put u p ∧ (assign c g u p).un = set g.un p false ∧ (assign c g u p).upd = set g.upd u false ∧
    (∃ new : List (Int × Nat), (assign c g u p).pq = g.pq ++ new ∧ ∀ m ∈ new, m.2 ∈ c.H.nodes ∧ c.fixed m.2 = false ∧ g.upd m.2 = true ∧ m.2 ≠ u) ∧
    (∀ e, (assign c g u p).visited e = true ↔ g.visited e = true ∨ e ∈ c.H.inc u) ∧
    (∀ e ∈ c.H.inc u, g.visited e = false → ∀ v ∈ c.H.pins e, g.upd v = true → v ≠ u → c.fixed v = false → ∃ m ∈ (assign c g u p).pq, m.2 = v) := by
  have hQ : ∀ e ∈ c.H.inc u, ∀ v ∈ c.H.pins e, v ∈ c.H.nodes := fun e he v hv => hw.pins_mem e ((hw.inc_iff u hu e).mp he).1 v hv
  obtain ⟨h1, -, h3, h4⟩ := edges_fold (c := c) (upd0 := set g.upd u false) (Q := (· ∈ c.H.nodes)) (c.H.inc u)
    { rating := g.rating, upd := set g.upd u false, todo := [], visited := g.visited } ⟨by simp, by simp⟩ hQ
  refine ⟨rfl, rfl, ?_, ⟨_, rfl, ?_⟩, h3, ?_⟩
  · funext v
    have : ∀ a b : Bool, (a = true ↔ b = true) → a = b := by decide
    apply this
    unfold assign
    dsimp only
    rw [set_true_fold, h1.upd v]
    constructor
    · rintro (h | h)
      · exact h.1
      · exact (h1.todo v h).1
    · intro h
      by_cases hm : v ∈ ((c.H.inc u).foldl (edgeStep c) { rating := g.rating, upd := set g.upd u false, todo := [], visited := g.visited }).todo
      · exact Or.inr hm
      · exact Or.inl ⟨h, hm⟩
  · intro m hm
    obtain ⟨v, hv, rfl⟩ := List.mem_map.mp hm
    obtain ⟨t1, t2, t3⟩ := h1.todo v hv
    rw [set_apply] at t1
    by_cases hvu : v = u
    · rw [if_pos hvu] at t1; cases t1
    · rw [if_neg hvu] at t1
      exact ⟨t3, t2, t1, hvu⟩
  · intro e he hv v hvp hu' hne hf
    refine ⟨(_, v), List.mem_append_right _ (List.mem_map_of_mem (h4 e he hv v hvp ?_ hf)), rfl⟩
    rw [set_apply, if_neg hne]; exact hu'

/-- invariant of the greedy mapping; `D` are the assigned nodes -/
structure GInv (c : GCfg) (g : GSt) : Prop where
  upd : ∀ v ∈ c.H.nodes, (g.upd v = false ↔ g.Φ v ≠ none)
  out : ∀ v, v ∉ c.H.nodes → g.Φ v = none
  lt : ∀ v b, g.Φ v = some b → b < c.k
  un : ∀ p, g.un p = true ↔ p < c.k ∧ ∀ v, g.Φ v ≠ some p
  inj : ∀ v w b, g.Φ v = some b → g.Φ w = some b → v = w
  fix : ∀ v ∈ c.H.nodes, c.fixed v = true → ∀ b, g.Φ v = some b → b = c.fixedBlock v
  pq : ∀ m ∈ g.pq, m.2 ∈ c.H.nodes ∧ c.fixed m.2 = false

theorem assign_inv (hw : c.H.WF) {g : GSt} (h : GInv c g) {u p : Nat} (hu : u ∈ c.H.nodes) (hn : g.Φ u = none) (hp : g.un p = true)
    (hf : c.fixed u = true → p = c.fixedBlock u) : GInv c (assign c g u p) := by
  obtain ⟨a1, a2, a3, ⟨new, a4, a5⟩, -, -⟩ := assign_spec hw g (p := p) hu
  have hpu := (h.un p).mp hp
  have hput : ∀ v, (assign c g u p).Φ v = if v = u then some p else g.Φ v := fun v => by rw [a1]; rfl
  refine ⟨?_, ?_, ?_, ?_, ?_, ?_, ?_⟩
  · intro v hv
    rw [a3, hput, set_apply]
    by_cases hvu : v = u
    · rw [if_pos hvu, if_pos hvu]; simp
    · rw [if_neg hvu, if_neg hvu]; exact h.upd v hv
  · intro v hv
    rw [hput, if_neg (by rintro rfl; exact hv hu)]; exact h.out v hv
  · intro v b
    rw [hput]
    by_cases hvu : v = u
    · rw [if_pos hvu]; intro hb; injection hb with hb; rw [← hb]; exact hpu.1
    · rw [if_neg hvu]; exact h.lt v b
  · intro q
    rw [a2, set_apply]
    by_cases hqp : q = p
    · rw [if_pos hqp]
      constructor
      · intro hh; cases hh
      · rintro ⟨-, hh⟩
        exact absurd (by rw [hput, if_pos rfl, hqp]) (hh u)
    · rw [if_neg hqp, h.un q]
      refine and_congr_right (fun _ => forall_congr' (fun v => ?_))
      rw [hput]
      by_cases hvu : v = u
      · rw [if_pos hvu, hvu, hn]
        simp [Ne.symm hqp]
      · rw [if_neg hvu]
  · intro v w b
    rw [hput, hput]
    by_cases hvu : v = u
    · rw [if_pos hvu]
      intro hb; injection hb with hb
      by_cases hwu : w = u
      · intro _; rw [hvu, hwu]
      · rw [if_neg hwu, ← hb]; intro hh; exact absurd hh (hpu.2 w)
    · rw [if_neg hvu]
      intro hb
      by_cases hwu : w = u
      · rw [if_pos hwu]; intro hh; injection hh with hh
        rw [← hh] at hb; exact absurd hb (hpu.2 v)
      · rw [if_neg hwu]; exact h.inj v w b hb
  · intro v hv hfv b
    rw [hput]
    by_cases hvu : v = u
    · rw [if_pos hvu]; intro hb; injection hb with hb
      rw [← hb, hvu]; exact hf (hvu ▸ hfv)
    · rw [if_neg hvu]; exact h.fix v hv hfv b
  · intro m hm
    rw [a4] at hm
    rcases List.mem_append.mp hm with hm | hm
    · exact h.pq m hm
    · exact ⟨(a5 m hm).1, (a5 m hm).2.1⟩

/-- all nodes are assigned if the queue is empty; fixed nodes are assigned -/
structure GDone (c : GCfg) (g : GSt) : Prop where
  empty : g.pq = [] → ∀ v ∈ c.H.nodes, g.Φ v ≠ none
  fixd : ∀ v ∈ c.H.nodes, c.fixed v = true → g.Φ v ≠ none

theorem checkAll_spec {g : GSt} (h : GInv c g) (hf : ∀ v ∈ c.H.nodes, c.fixed v = true → g.Φ v ≠ none) :
    GInv c (checkAll c g) ∧ GDone c (checkAll c g) ∧ (checkAll c g).Φ = g.Φ ∧ (checkAll c g).upd = g.upd ∧
    ((checkAll c g).pq = g.pq ∨ ∃ v ∈ c.H.nodes, g.Φ v = none ∧ (checkAll c g).pq = [(g.rating v, v)]) := by
  unfold checkAll
  by_cases hq : g.pq = []
  · rw [if_pos hq]
    cases hfi : c.H.nodes.find? (fun v => (g.Φ v).isNone) with
    | none =>
      refine ⟨h, ⟨fun _ v hv => ?_, hf⟩, rfl, rfl, Or.inl rfl⟩
      have := List.find?_eq_none.mp hfi v hv
      simpa using this
    | some v =>
      have hv := List.mem_of_find?_eq_some hfi
      have hn : g.Φ v = none := by simpa using List.find?_some hfi
      refine ⟨⟨h.upd, h.out, h.lt, h.un, h.inj, h.fix, ?_⟩, ⟨fun hh => by simp at hh, hf⟩, rfl, rfl, Or.inr ⟨v, hv, hn, rfl⟩⟩
      intro m hm
      rw [List.mem_singleton.mp hm]
      refine ⟨hv, ?_⟩
      cases hfx : c.fixed v with
      | false => rfl
      | true => exact absurd hn (hf v hv hfx)
  · rw [if_neg hq]
    exact ⟨h, ⟨fun hh => absurd hh hq, hf⟩, rfl, rfl, Or.inl rfl⟩

theorem foldl_maxG_mem (a : Int × Nat) : ∀ (l : List (Int × Nat)) , l.foldl (fun m x => if lessG m x then x else m) a ∈ a :: l := by
  intro l
  induction l generalizing a with
  | nil => simp
  | cons b l ih =>
    rw [List.foldl_cons]
    rcases List.mem_cons.mp (ih (if lessG a b then b else a)) with h | h
    · rw [h]
      by_cases hl : lessG a b = true
      · rw [if_pos hl]; simp
      · rw [if_neg hl]; simp
    · exact List.mem_cons_of_mem _ (List.mem_cons_of_mem _ h)

theorem popG_spec {q rest : List (Int × Nat)} {m : Int × Nat} (h : popG q = some (m, rest)) : q.Perm (m :: rest) := by
  cases q with
  | nil => cases h
  | cons a l =>
    injection h with h
    injection h with h1 h2
    subst h1
    rw [← h2]
    exact List.perm_cons_erase (foldl_maxG_mem a l)

theorem popG_none {q : List (Int × Nat)} (h : popG q = none) : q = [] := by
  cases q with
  | nil => rfl
  | cons a l => cases h

/-- the choice returns an element of the list -/
def PickOk (c : GCfg) : Prop := ∀ u l, l ≠ [] → c.pick u l ∈ l

theorem select_sub (r : Nat → Int) (bal : Nat → Bool) : ∀ (l : List Nat) (x : Option Int × Bool × List Nat) (P : Nat → Prop), (∀ p ∈ l, P p) → (∀ p ∈ x.2.2, P p) →
    (∀ p ∈ (l.foldl (selectStep r bal) x).2.2, P p) ∧ (x.2.2 ≠ [] → (l.foldl (selectStep r bal) x).2.2 ≠ [])
  | [], _, _, _, h => ⟨h, fun h => h⟩
  | a :: l, x, P, hl, h => by
    rw [List.foldl_cons]
    have hs : (∀ p ∈ (selectStep r bal x a).2.2, P p) ∧ (x.2.2 ≠ [] → (selectStep r bal x a).2.2 ≠ []) := by
      unfold selectStep
      dsimp only
      have key : ∀ (b1 b2 : Bool) (y1 y2 y3 : Option Int × Bool × List Nat), y1.2.2 = [a] → y2.2.2 = x.2.2 ++ [a] → y3.2.2 = x.2.2 →
          (∀ p ∈ (if b1 = true then y1 else if b2 = true then y2 else y3).2.2, P p) ∧
          (x.2.2 ≠ [] → (if b1 = true then y1 else if b2 = true then y2 else y3).2.2 ≠ []) := by
        intro b1 b2 y1 y2 y3 e1 e2 e3
        cases b1 with
        | true =>
          rw [if_pos rfl, e1]
          refine ⟨fun p hp => ?_, fun _ => by simp⟩
          rw [List.mem_singleton.mp hp]; exact hl a List.mem_cons_self
        | false =>
          rw [if_neg (by simp)]
          cases b2 with
          | true =>
            rw [if_pos rfl, e2]
            refine ⟨fun p hp => ?_, fun _ => by simp⟩
            rcases List.mem_append.mp hp with hp | hp
            · exact h p hp
            · rw [List.mem_singleton.mp hp]; exact hl a List.mem_cons_self
          | false =>
            rw [if_neg (by simp), e3]
            exact ⟨h, fun h => h⟩
      exact key _ _ _ _ _ rfl rfl rfl
    have := select_sub r bal l _ P (fun p hp => hl p (List.mem_cons_of_mem _ hp)) hs.1
    exact ⟨this.1, fun hx => this.2 (hs.2 hx)⟩

theorem select_ne (r : Nat → Int) (bal : Nat → Bool) {l : List Nat} (h : l ≠ []) : (select r bal l).2.2 ≠ [] := by
  cases l with
  | nil => exact absurd rfl h
  | cons a l =>
    unfold select
    rw [List.foldl_cons]
    refine (select_sub r bal l _ (fun _ => True) (fun _ _ => trivial) (fun _ _ => trivial)).2 ?_
    unfold selectStep
    simp

theorem chosen_un {g : GSt} (hpk : PickOk c) (hne : freeProcs c g.un ≠ []) (u : Nat) : g.un (chosen c g u) = true := by
  have h1 : chosen c g u ∈ _ := hpk u _ (select_ne (procRating c g.Φ u) (fun p => !c.indiv || decide (c.H.nw u ≤ c.mx p)) hne)
  have h2 := (select_sub (procRating c g.Φ u) (fun p => !c.indiv || decide (c.H.nw u ≤ c.mx p)) (freeProcs c g.un) (none, false, []) (fun p => g.un p = true)
    (fun p hp => (List.mem_filter.mp hp).2) (by simp)).1
  exact h2 _ h1

/-- there is an unassigned processor as long as there is an unassigned node -/
theorem free_ne (hw : c.H.WF) (hk : c.H.nodes.length = c.k) {g : GSt} (h : GInv c g) {u : Nat} (hu : u ∈ c.H.nodes) (hn : g.Φ u = none) :
    freeProcs c g.un ≠ [] := by
  intro he
  have hall : ∀ p < c.k, ∃ v, g.Φ v = some p := by
    intro p hp
    by_contra hne
    have : g.un p = true := (h.un p).mpr ⟨hp, fun v hv => hne ⟨v, hv⟩⟩
    have : p ∈ freeProcs c g.un := List.mem_filter.mpr ⟨List.mem_range.mpr hp, this⟩
    rw [he] at this; simp at this
  have hsub : (List.range c.k).map some ⊆ ((c.H.nodes.erase u).map g.Φ) := by
    intro x hx
    obtain ⟨p, hp, rfl⟩ := List.mem_map.mp hx
    obtain ⟨v, hv⟩ := hall p (List.mem_range.mp hp)
    have hvn : v ∈ c.H.nodes := by
      by_contra hh
      rw [h.out v hh] at hv; cases hv
    have hvu : v ≠ u := by rintro rfl; rw [hn] at hv; cases hv
    exact List.mem_map.mpr ⟨v, (List.mem_erase_of_ne hvu).mpr hvn, hv⟩
  have hnd : ((List.range c.k).map (some : Nat → Option Nat)).Nodup := List.nodup_range.map (fun a b h => by injection h)
  have := (List.subperm_of_subset hnd hsub).length_le
  rw [List.length_map, List.length_map, List.length_range, List.length_erase_of_mem hu, hk] at this
  have : 0 < c.H.nodes.length := List.length_pos_of_mem hu
  omega

def unassignedCount (c : GCfg) (g : GSt) : Nat := c.H.nodes.countP (fun v => (g.Φ v).isNone)

def staleG (g : GSt) : Nat := g.pq.countP (fun m => !g.upd m.2)

theorem greedyLoop_ends (hw : c.H.WF) (hk : c.H.nodes.length = c.k) (hpk : PickOk c) (g : GSt) (h : GInv c g) (hD : GDone c g) :
    ∃ g' N, (∀ n ≥ N, greedyLoop c n g = some g') ∧ GInv c g' ∧ ∀ v ∈ c.H.nodes, g'.Φ v ≠ none := by
  cases hq : popG g.pq with
  | none =>
    refine ⟨g, 1, fun n hn => ?_, h, hD.empty (popG_none hq)⟩
    obtain ⟨n, rfl⟩ : ∃ k, n = k + 1 := ⟨n - 1, by omega⟩
    rw [greedyLoop]
    have : greedyStep c g = none := by unfold greedyStep; rw [hq]
    rw [this]
  | some x =>
    obtain ⟨m, rest⟩ := x
    have hp := popG_spec hq
    have hm := h.pq m (hp.symm.subset List.mem_cons_self)
    have finish : ∀ g1, greedyStep c g = some g1 → (∃ g' N, (∀ n ≥ N, greedyLoop c n g1 = some g') ∧ GInv c g' ∧ ∀ v ∈ c.H.nodes, g'.Φ v ≠ none) →
        ∃ g' N, (∀ n ≥ N, greedyLoop c n g = some g') ∧ GInv c g' ∧ ∀ v ∈ c.H.nodes, g'.Φ v ≠ none := by
      rintro g1 hs ⟨g', N, h1, h2⟩
      refine ⟨g', N + 1, fun n hn => ?_, h2⟩
      obtain ⟨n, rfl⟩ : ∃ k, n = k + 1 := ⟨n - 1, by omega⟩
      rw [greedyLoop, hs]
      exact h1 n (by omega)
    have hI : GInv c { g with pq := rest } := ⟨h.upd, h.out, h.lt, h.un, h.inj, h.fix, fun x hx => h.pq x (hp.symm.subset (List.mem_cons_of_mem _ hx))⟩
    by_cases hu : g.upd m.2 = false
    · have hs : greedyStep c g = some (checkAll c { g with pq := rest }) := by
        unfold greedyStep; rw [hq]; dsimp only; rw [if_pos hu]
      obtain ⟨c1, c2, c3, c4, c5⟩ := checkAll_spec hI hD.fixd
      have hd1 : unassignedCount c (checkAll c { g with pq := rest }) = unassignedCount c g := by
        unfold unassignedCount; rw [c3]
      have hd2 : staleG (checkAll c { g with pq := rest }) < staleG g := by
        unfold staleG
        rw [c4, hp.countP_eq, List.countP_cons, if_pos (by simp [hu])]
        rcases c5 with c5 | ⟨v, hv, hv', c5⟩
        · rw [c5]; exact Nat.lt_succ_self _
        · rw [c5, List.countP_cons]
          have : g.upd v = true := by
            by_contra hh
            exact ((h.upd v hv).mp (by simpa using hh)) hv'
          rw [if_neg (by simp [this])]
          simp
      exact finish _ hs (greedyLoop_ends hw hk hpk _ c1 c2)
    · have hun : g.Φ m.2 = none := by
        by_contra hh
        exact hu ((h.upd m.2 hm.1).mpr hh)
      have hs : greedyStep c g = some (checkAll c (assign c { g with pq := rest } m.2 (chosen c { g with pq := rest } m.2))) := by
        unfold greedyStep; rw [hq]; dsimp only; rw [if_neg hu]
      have hA := assign_inv hw hI hm.1 (p := chosen c { g with pq := rest } m.2) hun
        (chosen_un (g := { g with pq := rest }) hpk (free_ne hw hk hI hm.1 hun) m.2) (fun hf => by rw [hm.2] at hf; cases hf)
      have hΦ := (assign_spec hw { g with pq := rest } (p := chosen c { g with pq := rest } m.2) hm.1).1
      obtain ⟨c1, c2, c3, c4, c5⟩ := checkAll_spec hA (fun v hv hf => by
        rw [hΦ]
        show (if v = m.2 then _ else g.Φ v) ≠ none
        by_cases hvm : v = m.2
        · rw [if_pos hvm]; simp
        · rw [if_neg hvm]; exact hD.fixd v hv hf)
      have hd1 : unassignedCount c (checkAll c (assign c { g with pq := rest } m.2 (chosen c { g with pq := rest } m.2))) < unassignedCount c g := by
        unfold unassignedCount
        rw [c3, hΦ]
        refine countP_lt (fun x _ hx => ?_) hm.1 (by rw [hun]; rfl) ?_
        · have hx' : ((if x = m.2 then some (chosen c { g with pq := rest } m.2) else g.Φ x).isNone) = true := hx
          by_cases hxm : x = m.2
          · rw [if_pos hxm] at hx'; cases hx'
          · rw [if_neg hxm] at hx'; exact hx'
        · show ((if m.2 = m.2 then some (chosen c { g with pq := rest } m.2) else g.Φ m.2).isNone) = false
          rw [if_pos rfl]; rfl
      exact finish _ hs (greedyLoop_ends hw hk hpk _ c1 c2)
termination_by (unassignedCount c g, staleG g)
decreasing_by
  · rw [hd1]; exact Prod.Lex.right _ hd2
  · exact Prod.Lex.left _ _ hd1

/-- the fixed nodes can be assigned to different processors -/
structure FixOk (c : GCfg) : Prop where
  lt : ∀ v ∈ c.H.nodes, c.fixed v = true → c.fixedBlock v < c.k
  inj : ∀ v ∈ c.H.nodes, ∀ w ∈ c.H.nodes, c.fixed v = true → c.fixed w = true → c.fixedBlock v = c.fixedBlock w → v = w

theorem greedyInit_inv : GInv c (greedyInit c) where
  upd := fun v _ => by simp [greedyInit]
  out := fun _ _ => rfl
  lt := fun v b h => by simp [greedyInit] at h
  un := fun p => by simp [greedyInit]
  inj := fun v w b h => by simp [greedyInit] at h
  fix := fun v _ _ b h => by simp [greedyInit] at h
  pq := by simp [greedyInit]

theorem preassign_fold (hw : c.H.WF) (hF : FixOk c) : ∀ (l : List Nat) (g : GSt), l.Nodup → (∀ v ∈ l, v ∈ c.H.nodes ∧ c.fixed v = true ∧ g.Φ v = none) → GInv c g →
    (∀ v, g.Φ v ≠ none → c.fixed v = true) → (∀ e, g.visited e = true → ∀ v ∈ c.H.pins e, c.fixed v = false → ∃ m ∈ g.pq, m.2 = v) →
    GInv c (l.foldl (fun g v => assign c g v (c.fixedBlock v)) g) ∧
    (∀ v, (l.foldl (fun g v => assign c g v (c.fixedBlock v)) g).Φ v ≠ none ↔ g.Φ v ≠ none ∨ v ∈ l) ∧
    (∀ e, g.visited e = true ∨ (∃ v ∈ l, e ∈ c.H.inc v) → ∀ v ∈ c.H.pins e, c.fixed v = false → ∃ m ∈ (l.foldl (fun g v => assign c g v (c.fixedBlock v)) g).pq, m.2 = v)
  | [], g, _, _, h, _, hq => ⟨h, by simp, fun e he => hq e (by simpa using he)⟩
  | a :: l, g, hn, hl, h, hfx, hq => by
    obtain ⟨hnl, hn'⟩ := List.nodup_cons.mp hn
    obtain ⟨l1, l2, l3⟩ := hl a List.mem_cons_self
    obtain ⟨a1, a2, a3, ⟨new, a4, -⟩, a6, a7⟩ := assign_spec hw g (p := c.fixedBlock a) l1
    have hun : g.un (c.fixedBlock a) = true := by
      rw [h.un]
      refine ⟨hF.lt a l1 l2, fun v hv => ?_⟩
      have hvn : v ∈ c.H.nodes := by
        by_contra hh
        rw [h.out v hh] at hv; cases hv
      have hvf := hfx v (by rw [hv]; simp)
      have := h.fix v hvn hvf _ hv
      have := hF.inj a l1 v hvn l2 hvf this
      rw [← this, l3] at hv; cases hv
    have hA := assign_inv hw h l1 l3 hun (fun _ => rfl)
    have hput : ∀ v, (assign c g a (c.fixedBlock a)).Φ v = if v = a then some (c.fixedBlock a) else g.Φ v := fun v => by rw [a1]; rfl
    have hq' : ∀ e, (assign c g a (c.fixedBlock a)).visited e = true → ∀ v ∈ c.H.pins e, c.fixed v = false → ∃ m ∈ (assign c g a (c.fixedBlock a)).pq, m.2 = v := by
      intro e he v hv hvf
      cases hve : g.visited e with
      | true =>
        obtain ⟨m, hm, rfl⟩ := hq e hve v hv hvf
        exact ⟨m, by rw [a4]; exact List.mem_append_left _ hm, rfl⟩
      | false =>
        have hei : e ∈ c.H.inc a := by
          rcases (a6 e).mp he with h' | h'
          · rw [hve] at h'; cases h'
          · exact h'
        have hvn := hw.pins_mem e ((hw.inc_iff a l1 e).mp hei).1 v hv
        refine a7 e hei hve v hv ?_ ?_ hvf
        · by_contra hh
          have := (h.upd v hvn).mp (by simpa using hh)
          rw [hfx v this] at hvf; cases hvf
        · rintro rfl; rw [l2] at hvf; cases hvf
    obtain ⟨i1, i2, i3⟩ := preassign_fold hw hF l (assign c g a (c.fixedBlock a)) hn' (fun v hv => by
        obtain ⟨x1, x2, x3⟩ := hl v (List.mem_cons_of_mem _ hv)
        refine ⟨x1, x2, ?_⟩
        rw [hput, if_neg (by rintro rfl; exact hnl hv)]; exact x3) hA (fun v hv => by
        rw [hput] at hv
        by_cases hva : v = a
        · rw [hva]; exact l2
        · rw [if_neg hva] at hv; exact hfx v hv) hq'
    refine ⟨i1, ?_, ?_⟩
    · intro v
      rw [List.foldl_cons, i2 v, hput, List.mem_cons]
      by_cases hva : v = a
      · rw [if_pos hva]; simp [hva]
      · rw [if_neg hva]; simp [hva]
    · intro e he
      refine i3 e ?_
      rcases he with he | ⟨v, hv, hev⟩
      · exact Or.inl ((a6 e).mpr (Or.inl he))
      · rcases List.mem_cons.mp hv with rfl | hv
        · exact Or.inl ((a6 e).mpr (Or.inr hev))
        · exact Or.inr ⟨v, hv, hev⟩

theorem preassign_spec (hw : c.H.WF) (hF : FixOk c) : GInv c (preassign c) ∧ (∀ v ∈ c.H.nodes, (preassign c).Φ v ≠ none ↔ c.fixed v = true) ∧
    (∀ e ∈ c.H.edges, (∃ v ∈ c.H.pins e, c.fixed v = true) → ∀ v ∈ c.H.pins e, c.fixed v = false → ∃ m ∈ (preassign c).pq, m.2 = v) := by
  obtain ⟨h1, h2, h3⟩ := preassign_fold hw hF (c.H.nodes.filter c.fixed) (greedyInit c) (hw.nodes_nodup.filter _)
    (fun v hv => ⟨(List.mem_filter.mp hv).1, (List.mem_filter.mp hv).2, rfl⟩) greedyInit_inv (fun v hv => absurd rfl hv) (fun e he => by simp [greedyInit] at he)
  refine ⟨h1, fun v hv => ?_, ?_⟩
  · have := h2 v
    rw [List.mem_filter] at this
    unfold preassign
    rw [this]
    constructor
    · rintro (h | h)
      · exact absurd rfl h
      · exact h.2
    · intro h; exact Or.inr ⟨hv, h⟩
  · rintro e he ⟨v, hv, hf⟩
    have hvn := hw.pins_mem e he v hv
    exact h3 e (Or.inr ⟨v, List.mem_filter.mpr ⟨hvn, hf⟩, (hw.inc_iff v hvn e).mpr ⟨he, hv⟩⟩)

theorem minProcs_sub {un : Nat → Bool} {w : Int} : ∀ p ∈ (minProcs c un w).2, un p = true ∧ (c.indiv = true → w ≤ c.mx p) := by
  unfold minProcs
  have : ∀ (l : List Nat) (x : Option Int × List Nat), (∀ p ∈ l, un p = true) → (∀ p ∈ x.2, un p = true ∧ (c.indiv = true → w ≤ c.mx p)) →
      ∀ p ∈ (l.foldl (fun x p =>
        if c.indiv ∧ c.mx p < w then x
        else match x.1 with
          | none => (some (c.deg p), [p])
          | some d => if c.deg p < d then (some (c.deg p), [p]) else if c.deg p = d then (x.1, x.2 ++ [p]) else x) x).2, un p = true ∧ (c.indiv = true → w ≤ c.mx p) := by
    intro l
    induction l with
    | nil => intro x _ h; exact h
    | cons a l ih =>
      intro x hl h
      rw [List.foldl_cons]
      apply ih _ (fun p hp => hl p (List.mem_cons_of_mem _ hp))
      by_cases hc : c.indiv = true ∧ c.mx a < w
      · rw [if_pos hc]; exact h
      · rw [if_neg hc]
        have ha : un a = true ∧ (c.indiv = true → w ≤ c.mx a) := ⟨hl a List.mem_cons_self, fun hi => by
          by_contra hh; exact hc ⟨hi, by omega⟩⟩
        have hs : ∀ p ∈ [a], un p = true ∧ (c.indiv = true → w ≤ c.mx p) := fun p hp => by rw [List.mem_singleton.mp hp]; exact ha
        cases x.1 with
        | none => exact hs
        | some d =>
          dsimp only
          by_cases h1 : c.deg a < d
          · rw [if_pos h1]; exact hs
          · rw [if_neg h1]
            by_cases h2 : c.deg a = d
            · rw [if_pos h2]
              intro p hp
              rcases List.mem_append.mp hp with hp | hp
              · exact h p hp
              · exact hs p hp
            · rw [if_neg h2]; exact h
  exact this _ _ (fun p hp => (List.mem_filter.mp hp).2) (by simp)

end OneMap
end Verif
