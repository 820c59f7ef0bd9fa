import Verif.Lemmas.HashMaps
/-!
# C31  Hash maps and reset-by-counter arrays behave like maps
-/
namespace Verif
open SMap (wr)

/-- **C31, `SparseMap`.**  Whatever the uninitialised memory contains, after every history of
writes, insertions, removals and clears the map answers `contains` and `getOrDefault` like a plain
map, and iterating over it lists exactly the entries of the plain map. -/
theorem C31_sparse_map {V : Type} (d : V) (sparse : Nat → Nat) (dense : Nat → Nat × V)
    (os : List (MapOp V)) :
    let s := os.foldl (SMap.exec d) (SMap.create sparse dense)
    let m := MapOp.run d os
    (∀ k, s.contains k = (m k).isSome) ∧ (∀ k, s.getOrDefault d k = (m k).getD d) ∧
    Lists s.toList m ∧ s.size = s.toList.length := by
  intro s m
  have h : s.Inv m := SMap.Inv.run os (SMap.Inv.create sparse dense)
  refine ⟨h.contains_iff, fun k => ?_, h.toDenseInv.lists, by simp [SMap.toList]⟩
  unfold SMap.getOrDefault
  simp only [h.contains_iff k]
  cases hk : m k with
  | none => simp
  | some v =>
    obtain ⟨_, _, h3⟩ := h.idx hk
    simp [h3]

/-- Test: garbage memory, a removal and a clear. -/
example : let s := ([MapOp.modify 3 (fun _ => 5), .add 7 1, .remove 3, .modify 7 (· + 1)] :
      List (MapOp Nat)).foldl (SMap.exec 0) (SMap.create (fun k => k + 1) (fun i => (i + 2, 9)))
    s.toList = [(7, 2)] ∧ s.contains 3 = false := by decide

/-- A history of a map without `add`/`remove`. -/
def IndexOnly {V : Type} : MapOp V → Prop
  | .modify _ _ => True
  | .clear => True
  | _ => False

/-- A history that never holds `cap` or more keys at a time: whenever a new key is used, the keys
present are covered by a list of at most `cap - 2` keys. -/
def FitsIn {V : Type} (cap : Nat) (d : V) : FMap V → List (MapOp V) → Prop
  | _, [] => True
  | m, o :: os =>
    (∀ k g, o = .modify k g → (m k).isSome ∨
      ∃ K : List Nat, K.length + 1 < cap ∧ ∀ x, (m x).isSome → x ∈ K) ∧
    FitsIn cap d (o.apply d m) os

/-- `none` as soon as a probing loop does not terminate -/
def runOpt {S V : Type} (ex : S → MapOp V → Option S) : S → List (MapOp V) → Option S
  | s, [] => some s
  | s, o :: os => (ex s o).bind fun s' => runOpt ex s' os

theorem lists_length_le {V : Type} {l : List (Nat × V)} {m : FMap V} (h : Lists l m) {K : List Nat}
    (hK : ∀ x, (m x).isSome → x ∈ K) : l.length ≤ K.length := by
  have hsub : l.map Prod.fst ⊆ K := by
    intro x hx
    obtain ⟨p, hp, rfl⟩ := List.mem_map.1 hx
    apply hK
    rw [(h.2 p.1 p.2).1 hp]; rfl
  have := (h.1.subperm hsub).length_le
  simpa using this

theorem fixed_run {V : Type} (c : Nat) (d : V) (os : List (MapOp V)) : ∀ {s : HMap V} {m : FMap V},
    s.Inv c m → s.size < s.cap → (∀ o ∈ os, IndexOnly o) → FitsIn s.cap d m os →
    ∃ s', runOpt (HMap.execFixed d) s os = some s' ∧ s'.Inv c (os.foldl (MapOp.apply d) m) ∧
      s'.size < s'.cap := by
  induction os with
  | nil => intro s m h hs _ _; exact ⟨s, rfl, h, hs⟩
  | cons o os ih =>
    intro s m h hs hi hf
    have ho := hi o List.mem_cons_self
    have hi' := fun p hp => hi p (List.mem_cons_of_mem _ hp)
    match o, ho with
    | .modify k g, _ =>
      have hf1 : (m k).isSome ∨ s.size + 1 < s.cap := by
        rcases hf.1 k g rfl with h1 | ⟨K, h1, h2⟩
        · exact Or.inl h1
        · refine Or.inr ?_
          have := lists_length_le h.toDenseInv.lists h2
          simp at this
          omega
      obtain ⟨s1, h1, h2, h3, h4⟩ := h.execFixed (d := d) (g := g) hs hf1
      obtain ⟨s2, h5, h6, h7⟩ := ih h2 h3 hi' (by rw [h4]; exact hf.2)
      exact ⟨s2, by simp only [runOpt, h1]; exact h5, h6, h7⟩
    | .clear, _ =>
      obtain ⟨s2, h5, h6, h7⟩ := ih (h.clear) (Nat.lt_of_le_of_lt (Nat.zero_le _) hs) hi' hf.2
      exact ⟨s2, by simp only [runOpt, HMap.execFixed]; exact h5, h6, h7⟩

theorem dyn_run {V : Type} (d : V) (os : List (MapOp V)) : ∀ {c : Nat} {s : HMap V} {m : FMap V},
    s.Inv c m → s.size < s.cap → (∀ o ∈ os, IndexOnly o) →
    ∃ c' s', runOpt (HMap.execDyn d) s os = some s' ∧ s'.Inv c' (os.foldl (MapOp.apply d) m) ∧
      s'.size < s'.cap := by
  induction os with
  | nil => intro c s m h hs _; exact ⟨c, s, rfl, h, hs⟩
  | cons o os ih =>
    intro c s m h hs hi
    have ho := hi o List.mem_cons_self
    have hi' := fun p hp => hi p (List.mem_cons_of_mem _ hp)
    match o, ho with
    | .modify k g, _ =>
      obtain ⟨c1, s1, h1, h2, h3⟩ := h.execDyn (d := d) (k := k) (g := g) hs
      obtain ⟨c2, s2, h5, h6, h7⟩ := ih h2 h3 hi'
      exact ⟨c2, s2, by simp only [runOpt, h1]; exact h5, h6, h7⟩
    | .clear, _ =>
      obtain ⟨c2, s2, h5, h6, h7⟩ := ih (h.clear) (Nat.lt_of_le_of_lt (Nat.zero_le _) hs) hi'
      exact ⟨c2, s2, by simp only [runOpt, HMap.execDyn]; exact h5, h6, h7⟩

theorem flat_run {V : Type} (d : V) (os : List (MapOp V)) : ∀ {c : Nat} {s : FlatMap V} {m : FMap V},
    s.Inv c m → s.size < s.cap → (∀ o ∈ os, IndexOnly o) →
    ∃ c' s', runOpt (FlatMap.exec d) s os = some s' ∧ s'.Inv c' (os.foldl (MapOp.apply d) m) ∧
      s'.size < s'.cap := by
  induction os with
  | nil => intro c s m h hs _; exact ⟨c, s, rfl, h, hs⟩
  | cons o os ih =>
    intro c s m h hs hi
    have ho := hi o List.mem_cons_self
    have hi' := fun p hp => hi p (List.mem_cons_of_mem _ hp)
    match o, ho with
    | .modify k g, _ =>
      obtain ⟨c1, s1, h1, h2, h3⟩ := h.exec (d := d) (k := k) (g := g) hs
      obtain ⟨c2, s2, h5, h6, h7⟩ := ih h2 h3 hi'
      exact ⟨c2, s2, by simp only [runOpt, h1]; exact h5, h6, h7⟩
    | .clear, _ =>
      obtain ⟨c2, s2, h5, h6, h7⟩ := ih (h.clear) (Nat.lt_of_le_of_lt (Nat.zero_le _) hs) hi'
      exact ⟨c2, s2, by simp only [runOpt, FlatMap.exec]; exact h5, h6, h7⟩

/-- **C31, `FixedSizeSparseMap`** of capacity `2^c`: for every history of writes and clears that
never holds more than `2^c - 1` keys, every probing loop terminates and the map answers like a plain
map; iteration lists exactly its entries. -/
theorem C31_fixed_size_map {V : Type} (c : Nat) (d : V) (os : List (MapOp V))
    (hi : ∀ o ∈ os, IndexOnly o) (hf : FitsIn (2 ^ c) d (fun _ => none) os) :
    ∃ s, runOpt (HMap.execFixed d) (HMap.create c d) os = some s ∧
      (∀ k, s.contains k = some (MapOp.run d os k).isSome) ∧
      (∀ k, s.getIfContained k = some (MapOp.run d os k)) ∧
      Lists s.toList (MapOp.run d os) ∧ s.size = s.toList.length := by
  obtain ⟨s, h1, h2, h3⟩ := fixed_run c d os (HMap.Inv.createRaw c d (2 ^ c) rfl)
    (Nat.two_pow_pos c) hi hf
  exact ⟨s, h1, fun k => (h2.query h3 k).1, fun k => (h2.query h3 k).2, h2.toDenseInv.lists,
    by simp [HMap.toList]⟩

/-- **C31, `DynamicSparseMap`** with any initial capacity `2^c`: for every history of writes and
clears (of any length, with any number of keys) every probing loop terminates and the map answers
like a plain map, across all growth steps. -/
theorem C31_dynamic_sparse_map {V : Type} (c : Nat) (d : V) (os : List (MapOp V))
    (hi : ∀ o ∈ os, IndexOnly o) :
    ∃ s, runOpt (HMap.execDyn d) (HMap.create c d) os = some s ∧
      (∀ k, s.contains k = some (MapOp.run d os k).isSome) ∧
      (∀ k, s.getIfContained k = some (MapOp.run d os k)) ∧
      Lists s.toList (MapOp.run d os) ∧ s.size = s.toList.length := by
  obtain ⟨c', s, h1, h2, h3⟩ := dyn_run d os (HMap.Inv.createRaw c d (2 ^ c) rfl)
    (Nat.two_pow_pos c) hi
  exact ⟨s, h1, fun k => (h2.query h3 k).1, fun k => (h2.query h3 k).2, h2.toDenseInv.lists,
    by simp [HMap.toList]⟩

/-- **C31, `DynamicFlatMap`**, likewise; `size()` is the number of keys. -/
theorem C31_dynamic_flat_map {V : Type} (c : Nat) (d : V) (os : List (MapOp V))
    (hi : ∀ o ∈ os, IndexOnly o) :
    ∃ s, runOpt (FlatMap.exec d) (FlatMap.create c d) os = some s ∧
      (∀ k, s.contains k = some (MapOp.run d os k).isSome) ∧
      (∀ k, s.getIfContained k = some (MapOp.run d os k)) ∧
      ∃ l, Lists l (MapOp.run d os) ∧ s.size = l.length := by
  obtain ⟨c', s, h1, h2, h3⟩ := flat_run d os (FlatMap.Inv.createRaw c d (2 ^ c) rfl)
    (Nat.two_pow_pos c) hi
  exact ⟨s, h1, fun k => (h2.query h3 k).1, fun k => (h2.query h3 k).2, _, h2.lists,
    h2.live_length.symm⟩

/-- Test: colliding keys in a map that starts with a single slot and has to grow. -/
example : ((runOpt (HMap.execDyn 0) (HMap.create 0 0)
      [.modify 1 (fun _ => 5), .modify 3 (fun _ => 6), .modify 5 (fun _ => 7), .modify 1 (· + 1)]).map
        (fun s => s.toList)) = some [(1, 6), (3, 6), (5, 7)] := by decide

/-- The capacity hypothesis of the fixed-size map is needed: in a full map the search for an absent
key never meets a free slot. -/
theorem C31_fixed_size_map_full : ∃ s, runOpt (HMap.execFixed 0) (HMap.create 1 0)
    [.modify 0 id, .modify 1 id] = some s ∧ s.find 2 = none := ⟨_, rfl, by decide⟩

/-! ### Flag arrays -/

structure FlagArr.Inv (s : FlagArr) (m : Nat × (Nat → Bool)) : Prop where
  size : s.size = m.1
  val : ∀ i < s.size, s.isSet i = m.2 i
  le : ∀ i < s.size, s.v i ≤ s.threshold
  pos : 0 < s.threshold
  mx : s.threshold ≤ s.mx

theorem FlagArr.Inv.exec {s : FlagArr} {m : Nat × (Nat → Bool)} (h : s.Inv m) {o : FlagOp}
    (hl : o.Legal m) : (s.exec o).1 = o.result m ∧ (s.exec o).2.Inv (o.apply m) ∧
      (s.exec o).2.mx = s.mx := by
  have hpos := h.pos
  have hmx := h.mx
  cases o with
  | set i b =>
    refine ⟨rfl, ⟨h.size, fun j hj => ?_, fun j hj => ?_, hpos, hmx⟩, rfl⟩
    · simp only [FlagArr.exec, FlagArr.set, FlagArr.isSet, FlagOp.apply, SMap.wr]
      by_cases hji : j = i
      · cases b <;> simp [hji] <;> omega
      · simp only [hji, if_false]; exact h.val j hj
    · simp only [FlagArr.exec, FlagArr.set, SMap.wr]
      by_cases hji : j = i
      · cases b <;> simp [hji]
      · simp only [hji, if_false]; exact h.le j hj
  | compareAndSet i =>
    have hv := h.val i (by rw [h.size]; exact hl)
    unfold FlagArr.isSet at hv
    simp only [FlagArr.exec, FlagArr.compareAndSet, FlagOp.result, FlagOp.apply]
    by_cases hc : s.v i = s.threshold
    · simp only [hc, ne_eq, not_true_eq_false, if_false]
      refine ⟨by rw [← hv]; simp [hc], ⟨h.size, fun j hj => ?_, h.le, hpos, hmx⟩, trivial⟩
      by_cases hji : j = i
      · simp [hji, FlagArr.isSet, hc]
      · simp only [hji, if_false]; exact h.val j hj
    · simp only [ne_eq, hc, not_false_eq_true, if_true]
      refine ⟨by rw [← hv]; simp [hc], ⟨h.size, fun j hj => ?_, fun j hj => ?_, hpos, hmx⟩, trivial⟩
      · simp only [FlagArr.isSet, SMap.wr]
        by_cases hji : j = i
        · simp [hji]
        · simp only [hji, if_false]; exact h.val j hj
      · simp only [SMap.wr]
        by_cases hji : j = i
        · simp [hji]
        · simp only [hji, if_false]; exact h.le j hj
  | reset =>
    refine ⟨rfl, ?_, ?_⟩
    · simp only [FlagArr.exec, FlagArr.reset, FlagOp.apply]
      split
      · refine ⟨h.size, fun j hj => ?_, fun j hj => ?_, by simp, ?_⟩
        · simp only [FlagArr.initAll] at hj
          simp [FlagArr.isSet, FlagArr.initAll, hj]
        · simp only [FlagArr.initAll] at hj
          simp [FlagArr.initAll, hj]
        · simp only [FlagArr.initAll]; omega
      · next hne =>
        refine ⟨h.size, fun j hj => ?_, fun j hj => ?_, by simp, by simp only; omega⟩
        · have := h.le j hj
          simp [FlagArr.isSet]; omega
        · have := h.le j hj
          simp only; omega
    · simp only [FlagArr.exec, FlagArr.reset]; split <;> rfl
  | resize n init =>
    refine ⟨rfl, ?_, ?_⟩
    · simp only [FlagArr.exec, FlagArr.resize, FlagOp.apply, h.size]
      split
      · refine ⟨rfl, fun j hj => ?_, fun j hj => ?_, hpos, hmx⟩
        · simp only [FlagArr.initAll] at hj
          simp only [FlagArr.isSet, FlagArr.initAll, hj, if_true]
          cases init <;> simp; omega
        · simp only [FlagArr.initAll] at hj
          simp only [FlagArr.initAll, hj, if_true]
          cases init <;> simp
      · next hle =>
        have hs := h.size
        exact ⟨rfl, fun j hj => h.val j (by simp only at hj; omega),
          fun j hj => h.le j (by simp only at hj; omega), hpos, hmx⟩
    · simp only [FlagArr.exec, FlagArr.resize]; split <;> rfl

theorem FlagArr.Inv.execAll (os : List FlagOp) : ∀ {s : FlagArr} {m : Nat × (Nat → Bool)},
    s.Inv m → FlagOp.AllLegal m os → (s.execAll os).1 = FlagOp.results m os ∧
      (s.execAll os).2.Inv (FlagOp.run m os) := by
  induction os with
  | nil => intro s m h _; exact ⟨rfl, h⟩
  | cons o os ih =>
    intro s m h hl
    obtain ⟨h1, h2, _⟩ := h.exec hl.1
    obtain ⟨h3, h4⟩ := ih h2 hl.2
    exact ⟨by simp only [FlagArr.execAll, FlagOp.results, h1, h3], h4⟩

/-- **C31, `ThreadSafeFastResetFlagArray`.**  For every counter type (maximum value `mx ≥ 1`, so that
the reset counter wraps around every `mx` resets), every size, every content of the allocated memory
and every legal history of writes, compare-and-set calls, resets and resizes: every
`compare_and_set_to_true` reports whether the flag was false, and every flag reads as in a plain
array of Booleans. -/
theorem C31_flag_array (mx n : Nat) (hmx : 1 ≤ mx) (garbage : Nat → Nat) (os : List FlagOp)
    (hl : FlagOp.AllLegal (n, fun _ => false) os) :
    let r := (FlagArr.create mx n garbage).execAll os
    let m := FlagOp.run (n, fun _ => false) os
    r.1 = FlagOp.results (n, fun _ => false) os ∧ r.2.size = m.1 ∧
      ∀ i < m.1, r.2.isSet i = m.2 i := by
  have h0 : (FlagArr.create mx n garbage).Inv (n, fun _ => false) := by
    refine ⟨rfl, fun i hi => ?_, fun i hi => ?_, by simp [FlagArr.create, FlagArr.initAll],
      by simpa [FlagArr.create, FlagArr.initAll] using hmx⟩
    · simp only [FlagArr.create, FlagArr.initAll] at hi
      simp [FlagArr.create, FlagArr.isSet, FlagArr.initAll, hi]
    · simp only [FlagArr.create, FlagArr.initAll] at hi
      simp [FlagArr.create, FlagArr.initAll, hi]
  obtain ⟨h1, h2⟩ := FlagArr.Inv.execAll os h0 hl
  exact ⟨h1, h2.size, fun i hi => h2.val i (by rw [h2.size]; exact hi)⟩

/-- Test: a two-bit counter wraps around after three resets. -/
example : ((FlagArr.create 3 2 (fun _ => 1)).execAll
      [.set 0 true, .reset, .reset, .reset, .compareAndSet 1, .compareAndSet 1]).1 =
    [false, false, false, false, true, false] ∧
    (((FlagArr.create 3 2 (fun _ => 1)).execAll
      [.set 0 true, .reset, .reset, .reset, .compareAndSet 1, .compareAndSet 1]).2.isSet 0) = false := by
  decide

/-! ### Concurrent compare-and-set -/

structure CasInv (threshold v0 : Nat) (s : CasState) : Prop where
  cell : s.cell = v0 ∨ s.cell = threshold
  loaded : ∀ t e, s.pc t = .loaded e → e = v0 ∨ (e = threshold ∧ s.cell = threshold)
  ret : ∀ t r, s.pc t = .returned r → s.cell = threshold
  won : s.cell = threshold → v0 ≠ threshold → ∃ t, s.pc t = .returned true
  uniq : ∀ t t', s.pc t = .returned true → s.pc t' = .returned true → t = t'
  none : v0 = threshold → ∀ t, s.pc t ≠ .returned true

theorem CasInv.step {threshold v0 : Nat} {s : CasState} (h : CasInv threshold v0 s) (t : Nat) :
    CasInv threshold v0 (s.step threshold t) := by
  have hpc : ∀ (x : CasPc) t', wr s.pc t x t' = if t' = t then x else s.pc t' := fun _ _ => rfl
  unfold CasState.step
  cases hp : s.pc t with
  | idle =>
    refine ⟨h.cell, fun t' e he => ?_, fun t' r hr => ?_, fun h1 h2 => ?_, fun a b ha hb => ?_,
      fun hv t' ht => ?_⟩
    · simp only [hpc] at he
      split at he
      · simp only [CasPc.loaded.injEq] at he
        subst he
        rcases h.cell with h1 | h1
        · exact Or.inl h1
        · exact Or.inr ⟨h1, h1⟩
      · exact h.loaded t' e he
    · simp only [hpc] at hr
      split at hr
      · simp at hr
      · exact h.ret t' r hr
    · obtain ⟨a, ha⟩ := h.won h1 h2
      refine ⟨a, ?_⟩
      simp only [hpc]
      rw [if_neg (fun he => by rw [he, hp] at ha; simp at ha)]; exact ha
    · simp only [hpc] at ha hb
      split at ha
      · simp at ha
      · split at hb
        · simp at hb
        · exact h.uniq a b ha hb
    · simp only [hpc] at ht
      split at ht
      · simp at ht
      · exact h.none hv t' ht
  | loaded e =>
    have hne : ∀ a, s.pc a = .returned true → a ≠ t := fun a ha he => by
      rw [he, hp] at ha; simp at ha
    have hfail : s.cell = threshold →
        CasInv threshold v0 { s with pc := wr s.pc t (.returned false) } := by
      intro hcell
      refine ⟨h.cell, fun t' e' he => ?_, fun _ _ _ => hcell, fun h1 h2 => ?_, fun a b ha hb => ?_,
        fun hv t' ht => ?_⟩
      · simp only [hpc] at he
        split at he
        · simp at he
        · exact h.loaded t' e' he
      · obtain ⟨a, ha⟩ := h.won h1 h2
        refine ⟨a, ?_⟩
        simp only [hpc]
        rw [if_neg (hne a ha)]; exact ha
      · simp only [hpc] at ha hb
        split at ha
        · simp at ha
        · split at hb
          · simp at hb
          · exact h.uniq a b ha hb
      · simp only [hpc] at ht
        split at ht
        · simp at ht
        · exact h.none hv t' ht
    simp only
    split
    · next he1 =>
      have hev : e = v0 := by
        rcases h.loaded t e hp with h1 | h1
        · exact h1
        · exact absurd h1.1 he1
      split
      · next hce =>
        have hnoret : ∀ a r, s.pc a ≠ .returned r := fun a r ha => he1 (by
          rw [← hce]; exact h.ret a r ha)
        refine ⟨Or.inr rfl, fun t' e' he => ?_, fun _ _ _ => rfl, fun _ _ => ⟨t, by simp [hpc]⟩,
          fun a b ha hb => ?_, fun hv => absurd (hev.trans hv) he1⟩
        · simp only [hpc] at he
          split at he
          · simp at he
          · rcases h.loaded t' e' he with h1 | h1
            · exact Or.inl h1
            · exact Or.inr ⟨h1.1, rfl⟩
        · simp only [hpc] at ha hb
          split at ha
          · split at hb
            · omega
            · exact absurd hb (hnoret _ _)
          · exact absurd ha (hnoret _ _)
      · next hce =>
        refine hfail ?_
        rcases h.cell with h1 | h1
        · exact absurd (h1.trans hev.symm) hce
        · exact h1
    · next he1 =>
      refine hfail ?_
      have he2 : e = threshold := by simpa using he1
      rcases h.loaded t e hp with h1 | h1
      · rcases h.cell with h2 | h2
        · rw [h2, ← h1, he2]
        · exact h2
      · exact h1.2
  | returned r => exact h

/-- **C31, concurrent `compare_and_set_to_true`** on one flag by any number of callers, in any
interleaving of their atomic steps: at most one call returns true, none does if the flag was set
before, and as soon as one call has returned the flag is set and (if it was not set before) some
call has returned true. -/
theorem C31_concurrent_compare_and_set (threshold v0 : Nat) (sched : List Nat) :
    let s := sched.foldl (CasState.step threshold) { cell := v0, pc := fun _ => .idle }
    (∀ t t', s.pc t = .returned true → s.pc t' = .returned true → t = t') ∧
    (v0 = threshold → ∀ t, s.pc t ≠ .returned true) ∧
    (∀ t r, s.pc t = .returned r → s.cell = threshold ∧
      (v0 ≠ threshold → ∃ t', s.pc t' = .returned true)) := by
  intro s
  have h : CasInv threshold v0 s := by
    have h0 : CasInv threshold v0 { cell := v0, pc := fun _ => .idle } :=
      ⟨Or.inl rfl, by intro t e he; simp at he, by intro t r hr; simp at hr,
        fun h1 h2 => absurd h1 h2, by intro a b ha; simp at ha, by intro _ t ht; simp at ht⟩
    have : ∀ (l : List Nat) (s0 : CasState), CasInv threshold v0 s0 →
        CasInv threshold v0 (l.foldl (CasState.step threshold) s0) := by
      intro l
      induction l with
      | nil => intro s0 h; exact h
      | cons t l ih => intro s0 h; exact ih _ (h.step t)
    exact this sched _ h0
  exact ⟨h.uniq, h.none, fun t r hr => ⟨h.ret t r hr, fun hv => h.won (h.ret t r hr) hv⟩⟩

/-- Non-vacuity: callers 0 and 1 both load the old value, then both attempt the exchange. -/
example : let s := [0, 1, 1, 0].foldl (CasState.step 5) { cell := 2, pc := fun _ => .idle }
    s.pc 1 = .returned true ∧ s.pc 0 = .returned false := by
  simp [CasState.step, SMap.wr]

end Verif
