import Verif.Lemmas.Pool3
/-!
# C47  The best initial partition is selected, independently of the schedule

Specification: a run commits a partition together with its objective and imbalance. `AsGood eps r o` (in `Verif/Lemmas/Pool1.lean`) is the
documented preference: feasible partitions are preferred to infeasible ones, among feasible ones a smaller objective counts, then a smaller
imbalance; among infeasible ones the smaller imbalance.
-/
namespace Verif
namespace Pool

variable {ι : Type} [LinearOrder ι] {α : Type}

/-- `AsGood` spelled out for a feasible and an infeasible competitor -/
theorem asGood_iff (eps : ι) (r o : Res ι) : AsGood eps r o ↔
    if o.imb ≤ eps then r.imb ≤ eps ∧ (r.obj < o.obj ∨ (r.obj = o.obj ∧ r.imb ≤ o.imb)) else r.imb ≤ eps ∨ r.imb ≤ o.imb := by
  unfold AsGood
  by_cases h : o.imb ≤ eps <;> simp [h]

theorem fold_local (eps : ι) : ∀ (c : List (Entry ι α)) (x : Entry ι α), c.foldl (commitLocal eps) x = bestOf eps x c := by
  intro c
  induction c with
  | nil => intro x; rfl
  | cons y c ih => intro x; rfl

theorem refineBest_asGood (eps : ι) (f x : Entry ι α) : AsGood eps (refineBest eps f x).1 x.1 := by
  unfold refineBest
  split_ifs with h
  · exact asGood_of_better h
  · exact AsGood.refl _ _

/-- **C47, nondeterministic mode.** However the runs are distributed among the threads, and whatever the refinement of the best partition of each
thread computes, the selected partition is at least as good as every committed one. It is one of the committed partitions, a
refined one, or (only if a thread did not commit) the default. -/
theorem C47_best_local (eps : ι) (dflt : Entry ι α) (refine : Entry ι α → Entry ι α) (c : List (Entry ι α)) (cs : List (List (Entry ι α))) :
    let x := applyLocal eps dflt refine c cs
    (∀ d ∈ c :: cs, ∀ y ∈ d, AsGood eps x.1 y.1) ∧
    ∃ d ∈ c :: cs, ∃ y ∈ dflt :: d, (x = y ∨ x = refine y) ∧ AsGood eps x.1 y.1 := by
  intro x
  have hx : ∀ d ∈ c :: cs, AsGood eps x.1 (refineBest eps (refine (bestOf eps dflt d)) (bestOf eps dflt d)).1 := by
    intro d hd
    have h1 := bestOf_asGood eps (cs.map (fun c => refineBest eps (refine (c.foldl (commitLocal eps) dflt)) (c.foldl (commitLocal eps) dflt)))
      (refineBest eps (refine (c.foldl (commitLocal eps) dflt)) (c.foldl (commitLocal eps) dflt))
    refine h1 _ ?_
    rw [← fold_local]
    rcases List.mem_cons.1 hd with rfl | hd
    · exact List.mem_cons_self
    · exact List.mem_cons_of_mem _ (List.mem_map.2 ⟨d, hd, rfl⟩)
  constructor
  · intro d hd y hy
    exact ((hx d hd).trans (refineBest_asGood _ _ _)).trans (bestOf_asGood eps d dflt y (by simp [hy]))
  · have hm := bestOf_mem eps (cs.map (fun c => refineBest eps (refine (c.foldl (commitLocal eps) dflt)) (c.foldl (commitLocal eps) dflt)))
      (refineBest eps (refine (c.foldl (commitLocal eps) dflt)) (c.foldl (commitLocal eps) dflt))
    have hm' : ∃ d ∈ c :: cs, x = refineBest eps (refine (bestOf eps dflt d)) (bestOf eps dflt d) := by
      rcases List.mem_cons.1 hm with h | h
      · exact ⟨c, by simp, by rw [← fold_local]; exact h⟩
      · obtain ⟨d, hd, hh⟩ := List.mem_map.1 h
        exact ⟨d, by simp [hd], by rw [← fold_local]; exact hh.symm⟩
    obtain ⟨d, hd, hxd⟩ := hm'
    refine ⟨d, hd, bestOf eps dflt d, bestOf_mem eps d dflt, ?_, ?_⟩
    · rw [hxd]
      unfold refineBest
      split_ifs <;> simp
    · rw [hxd]; exact refineBest_asGood _ _ _

/-- A finished execution of the runs `0, ..., n - 1` in deterministic mode with a population of `p` entries, and the sorted population. -/
structure Finished (n p : Nat) (eps : ι) (e : Nat → Entry ι α) (dflt : Entry ι α) (s : St ι α) (sorted : List (Entry ι α)) : Prop where
  steps : Steps eps e (initial p dflt) s
  done : ∀ t, t < n → s.pc t = .done
  out : ∀ t, n ≤ t → s.pc t = .start
  perm : sorted.Perm s.pop

theorem applyPool_some {p : Nat} (hp : 0 < p) {eps : ι} {refine : Option (Nat → Entry ι α → Entry ι α)} {l : List (Entry ι α)} (hl : l.length = p) :
    ∃ x, applyPool eps refine l = some x ∧ (∀ y ∈ l, AsGood eps x.1 y.1) ∧ (refine = none → x ∈ l) := by
  cases refine with
  | none =>
    cases l with
    | nil => simp at hl; omega
    | cons a l => exact ⟨bestOf eps a l, rfl, bestOf_asGood eps l a, fun _ => bestOf_mem eps l a⟩
  | some f =>
    cases l with
    | nil => simp at hl; omega
    | cons a l =>
      obtain ⟨b, l', hb⟩ : ∃ b l', refineAll eps f (a :: l) = b :: l' := by
        unfold refineAll
        rw [List.mapIdx_cons]
        exact ⟨_, _, rfl⟩
      refine ⟨bestOf eps b l', by unfold applyPool; dsimp only; rw [hb], ?_, fun h => by simp at h⟩
      intro y hy
      obtain ⟨i, hi, rfl⟩ := List.getElem_of_mem hy
      have hlen : (refineAll eps f (a :: l)).length = (a :: l).length := by unfold refineAll; simp
      have hmem : refineBest eps (f i (a :: l)[i]) (a :: l)[i] ∈ b :: l' := by
        rw [← hb]
        unfold refineAll
        refine List.mem_iff_getElem.2 ⟨i, by rw [List.length_mapIdx]; exact hi, ?_⟩
        rw [List.getElem_mapIdx]
      exact (bestOf_asGood eps l' b _ hmem).trans (refineBest_asGood _ _ _)

/-- **C47, deterministic mode: quality.** In every interleaving the selected partition is at least as good as every committed one, with or
without refinement of the population. Without refinement it is one of the committed partitions (if there is one; the default
entry has a larger imbalance than every committed partition and is infeasible). -/
theorem C47_best (n p : Nat) (hp : 0 < p) (eps : ι) (e : Nat → Entry ι α) (dflt : Entry ι α) (refine : Option (Nat → Entry ι α → Entry ι α))
    {s : St ι α} {sorted : List (Entry ι α)} (h : Finished n p eps e dflt s sorted) :
    ∃ x, applyPool eps refine sorted = some x ∧ (∀ t, t < n → AsGood eps x.1 (e t).1) ∧
      (refine = none → 0 < n → eps < dflt.1.imb → (∀ t, (e t).1.imb < dflt.1.imb) → ∃ t, t < n ∧ x = e t) := by
  have hcov := (Cover.initial (p := p) (e := e) (dflt := dflt) (R := AsGood eps)).steps (agrees_asGood eps e dflt) h.steps
  obtain ⟨x, h1, h2, h3⟩ := applyPool_some hp (eps := eps) (refine := refine) (l := sorted) (by rw [h.perm.length_eq, hcov.len])
  have hgood : ∀ t, t < n → AsGood eps x.1 (e t).1 := by
    intro t ht
    obtain ⟨y, hy, hyr⟩ := hcov.cover t (Or.inr (h.done t ht))
    exact (h2 y (h.perm.mem_iff.2 hy)).trans hyr
  refine ⟨x, h1, hgood, fun hr hn he hi => ?_⟩
  rcases hcov.origin x (h.perm.mem_iff.1 (h3 hr)) with hx | ⟨t, ht, hx⟩
  · exfalso
    have := hgood 0 hn
    rw [hx] at this
    by_cases hf : (e 0).1.imb ≤ eps
    · exact absurd (this.1 hf).1 (not_le.2 he)
    · rcases this.2 hf with h4 | h4
      · exact absurd h4 (not_le.2 he)
      · exact absurd h4 (not_le.2 (hi 0))
  · refine ⟨t, ?_, hx⟩
    by_contra hc
    rw [h.out t (by omega)] at ht
    simp at ht

/-- Assumptions on the runs for determinism: two infeasible results with the same imbalance have the same objective, the tags of the runs
are different, and the default entry is infeasible and has a larger imbalance than all results. -/
structure Distinct (eps : ι) (e : Nat → Entry ι α) (dflt : Entry ι α) : Prop where
  comparable : ∀ t u, ¬ (e t).1.imb ≤ eps → ¬ (e u).1.imb ≤ eps → (e t).1.imb = (e u).1.imb → (e t).1.obj = (e u).1.obj
  tags : ∀ t u, (e t).1.rtag = (e u).1.rtag → (e t).1.dtag = (e u).1.dtag → t = u
  dfltBad : eps < dflt.1.imb
  less : ∀ t, (e t).1.imb < dflt.1.imb

theorem Distinct.all {eps : ι} {e : Nat → Entry ι α} {dflt : Entry ι α} (h : Distinct eps e dflt) :
    ∀ x y, (x = dflt ∨ ∃ u, x = e u) → (y = dflt ∨ ∃ u, y = e u) → Comparable eps x.1 y.1 := by
  rintro x y (rfl | ⟨t, rfl⟩) (rfl | ⟨u, rfl⟩) h1 h2 h3
  · rfl
  · exact absurd h3 (h.less u).ne'
  · exact absurd h3 (h.less t).ne
  · exact h.comparable t u h1 h2 h3

theorem Distinct.inj {eps : ι} {e : Nat → Entry ι α} {dflt : Entry ι α} (h : Distinct eps e dflt) :
    ∀ x y, (x = dflt ∨ ∃ u, x = e u) → (y = dflt ∨ ∃ u, y = e u) → key eps x.1 = key eps y.1 → x = y := by
  rintro x y (rfl | ⟨t, rfl⟩) (rfl | ⟨u, rfl⟩) hk
  · rfl
  · have := congrArg Res.imb (key_inj hk)
    exact absurd this (h.less u).ne'
  · have := congrArg Res.imb (key_inj hk)
    exact absurd this (h.less t).ne
  · have h1 := key_inj hk
    have := h.tags t u (by rw [h1]) (by rw [h1])
    rw [this]

/-- **C47, deterministic mode: determinism.** Without refinement of the population (as in the deterministic presets) the selected partition
is the same in all interleavings and for all population sizes and orders of the population. -/
theorem C47_deterministic (n p p' : Nat) (hn : 0 < n) (hp : 0 < p) (hp' : 0 < p') (eps : ι) (e : Nat → Entry ι α) (dflt : Entry ι α) (hd : Distinct eps e dflt)
    {s s' : St ι α} {sorted sorted' : List (Entry ι α)} (h : Finished n p eps e dflt s sorted) (h' : Finished n p' eps e dflt s' sorted') :
    applyPool eps none sorted = applyPool eps none sorted' := by
  have key1 : ∀ (p : Nat) (s : St ι α) (sorted : List (Entry ι α)), 0 < p → Finished n p eps e dflt s sorted →
      ∃ x, applyPool eps none sorted = some x ∧ (∃ t, t < n ∧ x = e t) ∧ ∀ t, t < n → key eps x.1 ≤ key eps (e t).1 := by
    intro p s sorted hp h
    obtain ⟨x, h1, _, h3⟩ := C47_best n p hp eps e dflt none h
    refine ⟨x, h1, h3 rfl hn hd.dfltBad hd.less, ?_⟩
    intro t ht
    have hcov := (Cover.initial (p := p) (e := e) (dflt := dflt)).steps (agrees_key (fun x t hx => hd.all x (e t) hx (Or.inr ⟨t, rfl⟩))) h.steps
    obtain ⟨y, hy, hyr⟩ := hcov.cover t (Or.inr (h.done t ht))
    have hy' := h.perm.mem_iff.2 hy
    have horig : ∀ z ∈ sorted, z = dflt ∨ ∃ u, z = e u := fun z hz =>
      (hcov.origin z (h.perm.mem_iff.1 hz)).imp id (fun ⟨t, _, ht⟩ => ⟨t, ht⟩)
    cases hs : sorted with
    | nil => rw [hs] at hy'; simp at hy'
    | cons a l =>
      rw [hs] at hy' horig h1
      have : x = bestOf eps a l := (Option.some.inj h1).symm
      rw [this]
      exact le_trans (bestOf_key eps l a (fun u hu v hv => hd.all u v (horig u hu) (horig v hv)) y hy') hyr
  obtain ⟨x, a1, ⟨t, ht, a2⟩, a3⟩ := key1 p s sorted hp h
  obtain ⟨y, b1, ⟨u, hu, b2⟩, b3⟩ := key1 p' s' sorted' hp' h'
  rw [a1, b1]
  have hk : key eps x.1 = key eps y.1 := le_antisymm (by rw [b2]; exact a3 u hu) (by rw [a2]; exact b3 t ht)
  exact congrArg some (hd.inj x y (Or.inr ⟨t, a2⟩) (Or.inr ⟨u, b2⟩) hk)

/-- **C47, deterministic mode: population.** If no run reads the front of the population while another one repairs the heap, the sorted
population, and therefore also the partition selected after a refinement of the population, is the same in all interleavings. -/
theorem C47_population (n p : Nat) (eps : ι) (e : Nat → Entry ι α) (dflt : Entry ι α) (hd : Distinct eps e dflt)
    (refine : Option (Nat → Entry ι α → Entry ι α)) {s s' : St ι α} {sorted sorted' : List (Entry ι α)}
    (h : Finished n p eps e dflt s sorted) (h' : Finished n p eps e dflt s' sorted') (hq : Quiet eps e (initial p dflt) s) (hq' : Quiet eps e (initial p dflt) s')
    (hs : sorted.Pairwise (fun a b => a.1.better eps b.1 = false)) (hs' : sorted'.Pairwise (fun a b => a.1.better eps b.1 = false)) :
    sorted = sorted' ∧ applyPool eps refine sorted = applyPool eps refine sorted' := by
  suffices hh : sorted = sorted' by exact ⟨hh, by rw [hh]⟩
  obtain ⟨rej, hb⟩ := Best.quiet hd.all hq h.out
  obtain ⟨rej', hb'⟩ := Best.quiet hd.all hq' h'.out
  have hcov := (Cover.initial (p := p) (e := e) (dflt := dflt) (R := AsGood eps)).steps (agrees_asGood eps e dflt) h.steps
  have hcov' := (Cover.initial (p := p) (e := e) (dflt := dflt) (R := AsGood eps)).steps (agrees_asGood eps e dflt) h'.steps
  have horig : ∀ z ∈ sorted, z = dflt ∨ ∃ u, z = e u := fun z hz =>
    (hcov.origin z (h.perm.mem_iff.1 hz)).imp id (fun ⟨t, _, ht⟩ => ⟨t, ht⟩)
  have horig' : ∀ z ∈ sorted', z = dflt ∨ ∃ u, z = e u := fun z hz =>
    (hcov'.origin z (h'.perm.mem_iff.1 hz)).imp id (fun ⟨t, _, ht⟩ => ⟨t, ht⟩)
  have hsame : handled n p e dflt s.pc = handled n p e dflt s'.pc :=
    handled_same (fun t ht => by rw [h.done t ht, h'.done t ht])
  have hL : ∀ x ∈ handled n p e dflt s.pc, x = dflt ∨ ∃ u, x = e u := by
    intro x hx
    rcases List.mem_append.1 hx with hx | hx
    · exact Or.inl (List.eq_of_mem_replicate hx)
    · obtain ⟨t, _, ht⟩ := List.mem_map.1 hx
      exact Or.inr ⟨t, ht.symm⟩
  refine select_unique (f := fun x : Entry ι α => key eps x.1) (L := handled n p e dflt s.pc) (b := rej) (d := rej')
    (fun x hx y hy => hd.inj x y (hL x hx) (hL y hy)) ((h.perm.append_right _).trans hb.perm)
    (by rw [hsame]; exact (h'.perm.append_right _).trans hb'.perm) ?_
    (fun x hx y hy => hb.le x (h.perm.mem_iff.1 hx) y hy) (fun x hx y hy => hb'.le x (h'.perm.mem_iff.1 hx) y hy) ?_ ?_
  · rw [h.perm.length_eq, h'.perm.length_eq, hcov.len, hcov'.len]
  · exact hs.imp_of_mem (fun {a b} ha hb hab => not_better_key (hd.all a b (horig a ha) (horig b hb)) hab)
  · exact hs'.imp_of_mem (fun {a b} ha hb hab => not_better_key (hd.all a b (horig' a ha) (horig' b hb)) hab)

/-! ### Witnesses; imbalances are natural numbers here -/

def exDflt : Entry Nat Nat := (⟨2147483647, 1000, 99, 99⟩, 99)

/-- run 0 commits a partition with objective 5, run 1 one with objective 6; both are feasible for `eps = 3` -/
def exRuns : Nat → Entry Nat Nat := fun t => (⟨if t = 0 then 5 else 6, 2, t, t⟩, t)

theorem exDistinct : Distinct 3 exRuns exDflt where
  comparable t u h := absurd (by decide : (2 : Nat) ≤ 3) h
  tags t u h _ := h
  dfltBad := by decide
  less t := by show (2 : Nat) < 1000; decide

/-- run 1 commits after run 0 -/
theorem exSequential : Finished 2 2 3 exRuns exDflt ⟨[exRuns 1, exRuns 0], none, setPc (setPc (setPc (setPc (setPc (setPc (setPc (setPc (fun _ => .start)
      0 .want) 0 .locked) 0 .written) 0 .done) 1 .want) 1 .locked) 1 .written) 1 .done⟩ [exRuns 0, exRuns 1] ∧
    Quiet 3 exRuns (initial 2 exDflt) ⟨[exRuns 1, exRuns 0], none, setPc (setPc (setPc (setPc (setPc (setPc (setPc (setPc (fun _ => .start)
      0 .want) 0 .locked) 0 .written) 0 .done) 1 .want) 1 .locked) 1 .written) 1 .done⟩ := by
  have hq : Quiet 3 exRuns (initial 2 exDflt) ⟨[exRuns 1, exRuns 0], none, setPc (setPc (setPc (setPc (setPc (setPc (setPc (setPc (fun _ => .start)
      0 .want) 0 .locked) 0 .written) 0 .done) 1 .want) 1 .locked) 1 .written) 1 .done⟩ := by
    refine .tail _ _ _ (.tail _ _ _ (.tail _ _ _ (.tail _ _ _ (.tail _ _ _ (.tail _ _ _ (.tail _ _ _ (.tail _ _ _ (.refl _)
      (.pass _ 0 exDflt [exDflt] rfl rfl (by decide)) ?_) (.acquire _ 0 rfl rfl) ?_) (.write _ 0 exDflt [exDflt] rfl rfl (by decide)) ?_)
      (.finish _ 0 exDflt [exRuns 0] rfl (List.Perm.swap _ _ _) (by decide)) ?_)
      (.pass _ 1 exDflt [exRuns 0] rfl rfl (by decide)) ?_) (.acquire _ 1 rfl rfl) ?_) (.write _ 1 exDflt [exRuns 0] rfl rfl (by decide)) ?_)
      (.finish _ 1 (exRuns 1) [exRuns 0] rfl (List.Perm.refl _) (by decide)) ?_
    · intro r _ _ r' h; simp [initial] at h
    · intro r h1 h2
      by_cases hr : r = 0
      · subst hr; simp [setPc] at h1
      · simp [setPc, hr] at h1 h2; exact absurd h1 h2
    · intro r h1 h2
      by_cases hr : r = 0
      · subst hr; simp [setPc] at h1
      · simp [setPc, hr] at h1 h2; exact absurd h1 h2
    · intro r h1 h2
      by_cases hr : r = 0
      · subst hr; simp [setPc] at h1
      · simp [setPc, hr] at h1 h2; exact absurd h1 h2
    · intro r _ _ r' h
      by_cases hr : r' = 0
      · subst hr; simp [setPc] at h
      · simp [setPc, hr, initial] at h
    · intro r h1 h2
      by_cases hr : r = 0 <;> by_cases hr' : r = 1 <;> simp [setPc, hr, hr'] at h1 h2 <;> first | omega | exact absurd h1 h2
    · intro r h1 h2
      by_cases hr : r = 0 <;> by_cases hr' : r = 1 <;> simp [setPc, hr, hr'] at h1 h2 <;> first | omega | exact absurd h1 h2
    · intro r h1 h2
      by_cases hr : r = 0 <;> by_cases hr' : r = 1 <;> simp [setPc, hr, hr'] at h1 h2 <;> first | omega | exact absurd h1 h2
  refine ⟨⟨hq.steps, ?_, ?_, List.Perm.swap _ _ _⟩, hq⟩
  · decide
  · intro t ht
    have h1 : t ≠ 0 := by omega
    have h2 : t ≠ 1 := by omega
    simp [setPc, h1, h2]

/-- a refinement that improves the partition of run 1 to objective 3 and no other one -/
def exRefine : Nat → Entry Nat Nat → Entry Nat Nat := fun _ x => if x.2 = 1 then (⟨3, 2, 1, 1⟩, 1) else x

/-- the population after the execution in which run 1 reads the front while run 0 repairs the heap -/
def exRaced : St Nat Nat := ⟨[exDflt, exRuns 0], none, setPc (setPc (setPc (setPc (setPc (fun _ => .start) 0 .want) 0 .locked) 0 .written) 1 .done) 0 .done⟩

theorem exRaced_finished : Finished 2 2 3 exRuns exDflt exRaced [exRuns 0, exDflt] := by
  refine ⟨.tail _ _ _ (.tail _ _ _ (.tail _ _ _ (.tail _ _ _ (.tail _ _ _ (.refl _)
      (.pass _ 0 exDflt [exDflt] rfl rfl (by decide))) (.acquire _ 0 rfl rfl)) (.write _ 0 exDflt [exDflt] rfl rfl (by decide)))
      (.reject _ 1 (exRuns 0) [exDflt] rfl rfl (by decide))) (.finish _ 0 exDflt [exRuns 0] rfl (List.Perm.swap _ _ _) (by decide)), ?_, ?_, List.Perm.swap _ _ _⟩
  · decide
  · intro t ht
    have h1 : t ≠ 0 := by omega
    have h2 : t ≠ 1 := by omega
    simp [exRaced, setPc, h1, h2]

/-- **Finding.** The unprotected first comparison can read the front while another run repairs the heap. Then a run is rejected although the
population contains only default entries besides the front, so the population, and with refinement of the population
also the selected partition, depends on the schedule in deterministic mode. -/
theorem C47_population_race : ∃ (s s' : St Nat Nat) (sorted sorted' : List (Entry Nat Nat)),
    Finished 2 2 3 exRuns exDflt s sorted ∧ Finished 2 2 3 exRuns exDflt s' sorted' ∧ Distinct 3 exRuns exDflt ∧
    sorted.Pairwise (fun a b => a.1.better 3 b.1 = false) ∧ sorted'.Pairwise (fun a b => a.1.better 3 b.1 = false) ∧
    (applyPool 3 (some exRefine) sorted).map (fun x => x.1.obj) = some 3 ∧ (applyPool 3 (some exRefine) sorted').map (fun x => x.1.obj) = some 5 :=
  ⟨_, _, _, _, exSequential.1, exRaced_finished, exDistinct, by decide, by decide, by decide, by decide⟩

/-- two infeasible partitions with the same imbalance; run 0 has objective 9, run 1 has objective 4 -/
def exBad : Nat → Entry Nat Nat := fun t => (⟨if t = 0 then 9 else 4, 7, t, t⟩, t)

/-- **Finding.** Among infeasible partitions with the same imbalance neither the objective nor the tag decides: the partition that is committed
first stays. So the selection depends on the schedule in deterministic mode, and the partition with the larger objective can win. -/
theorem C47_infeasible_ties : ∃ (s s' : St Nat Nat) (sorted sorted' : List (Entry Nat Nat)),
    Finished 2 1 3 exBad exDflt s sorted ∧ Finished 2 1 3 exBad exDflt s' sorted' ∧
    applyPool 3 none sorted = some (exBad 0) ∧ applyPool 3 none sorted' = some (exBad 1) := by
  refine ⟨_, _, [exBad 0], [exBad 1], ⟨.tail _ _ _ (.tail _ _ _ (.tail _ _ _ (.tail _ _ _ (.tail _ _ _ (.refl _)
      (.pass _ 0 exDflt [] rfl rfl (by decide))) (.acquire _ 0 rfl rfl)) (.write _ 0 exDflt [] rfl rfl (by decide)))
      (.finish _ 0 (exBad 0) [] rfl (List.Perm.refl _) (by decide))) (.reject _ 1 (exBad 0) [] rfl rfl (by decide)), ?_, ?_, List.Perm.refl _⟩,
    ⟨.tail _ _ _ (.tail _ _ _ (.tail _ _ _ (.tail _ _ _ (.tail _ _ _ (.refl _)
      (.pass _ 1 exDflt [] rfl rfl (by decide))) (.acquire _ 1 rfl rfl)) (.write _ 1 exDflt [] rfl rfl (by decide)))
      (.finish _ 1 (exBad 1) [] rfl (List.Perm.refl _) (by decide))) (.reject _ 0 (exBad 1) [] rfl rfl (by decide)), ?_, ?_, List.Perm.refl _⟩, rfl, rfl⟩
  · decide
  · intro t ht
    have h1 : t ≠ 0 := by omega
    have h2 : t ≠ 1 := by omega
    simp [initial, setPc, h1, h2]
  · decide
  · intro t ht
    have h1 : t ≠ 0 := by omega
    have h2 : t ≠ 1 := by omega
    simp [initial, setPc, h1, h2]

/-- non-vacuity of the nondeterministic mode: two threads, three runs, one refinement that improves -/
example : applyLocal 3 exDflt (exRefine 0) [exRuns 0] [[exRuns 2, exRuns 3]] = exRuns 0 := by rfl
example : applyLocal 3 exDflt (exRefine 0) [exRuns 0] [[exRuns 1, exRuns 2]] = (⟨3, 2, 1, 1⟩, 1) := by rfl

end Pool
end Verif
