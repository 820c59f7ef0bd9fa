import Verif.Lemmas.DFlow3
/-! # Deterministic flow refinement: the participation scheduler -/
namespace Verif
namespace DFlow

/-- the pairs have no block in common -/
def Disj (p q : Nat × Nat) : Prop := p.1 ≠ q.1 ∧ p.1 ≠ q.2 ∧ p.2 ≠ q.1 ∧ p.2 ≠ q.2

theorem mem_allPairs {k : Nat} {p : Nat × Nat} : p ∈ allPairs k ↔ p.1 < p.2 ∧ p.2 < k := by
  unfold allPairs
  rw [List.mem_flatMap]
  constructor
  · rintro ⟨i, hi, h⟩
    obtain ⟨d, hd, rfl⟩ := List.mem_map.1 h
    rw [List.mem_range] at hi hd
    exact ⟨by show i < i + 1 + d; omega, by show i + 1 + d < k; omega⟩
  · rintro ⟨h1, h2⟩
    refine ⟨p.1, List.mem_range.2 (by omega), List.mem_map.2 ⟨p.2 - (p.1 + 1), List.mem_range.2 (by omega), ?_⟩⟩
    ext <;> simp
    omega

theorem nodup_allPairs (k : Nat) : (allPairs k).Nodup := by
  unfold allPairs
  rw [List.nodup_flatMap]
  refine ⟨fun i _ => ?_, ?_⟩
  · refine List.Nodup.map ?_ List.nodup_range
    intro a b h
    simp at h
    omega
  · refine List.Pairwise.imp ?_ (List.nodup_range (n := k - 1))
    intro a b hab x hx hy
    obtain ⟨_, _, h1⟩ := List.mem_map.1 hx
    obtain ⟨_, _, h2⟩ := List.mem_map.1 hy
    rw [← h1] at h2
    simp at h2
    omega

/-- unprocessed partners of a block -/
def openP (h : Sch) (b : Nat) : Nat := (h.pairs b).countP (fun b' => !h.done (min b b') (max b b'))

/-- state of the scheduler within a round -/
structure RInv (c : Cfg) (h : Sch) (q : QG) : Prop where
  sym : ∀ b b', b' ∈ h.pairs b → b ∈ h.pairs b'
  rng : ∀ b b', b' ∈ h.pairs b → b ≠ b' ∧ b < c.fc.k ∧ b' < c.fc.k
  nodup : ∀ b, (h.pairs b).Nodup
  parts : ∀ b, h.parts b = openP h b
  elig : ∀ b b', b' ∈ h.pairs b → eligible c h q (min b b') (max b b') = true

theorem countP_erase {l : List Nat} (hn : l.Nodup) {a : Nat} (ha : a ∈ l) {p p' : Nat → Bool} (h1 : p a = true) (h2 : p' a = false)
    (h : ∀ b, b ≠ a → p' b = p b) : l.countP p' = l.countP p - 1 := by
  induction l with
  | nil => simp at ha
  | cons x l ih =>
    rw [List.nodup_cons] at hn
    rw [List.countP_cons, List.countP_cons]
    by_cases hx : x = a
    · subst hx
      have : l.countP p' = l.countP p := List.countP_congr (fun y hy => by rw [h y (fun hh => hn.1 (hh ▸ hy))])
      rw [this, h1, h2]; simp
    · have ha' : a ∈ l := by
        rcases List.mem_cons.1 ha with h | h
        · exact absurd h.symm hx
        · exact h
      have hpos : 0 < l.countP p := List.countP_pos_iff.2 ⟨a, ha', h1⟩
      rw [ih hn.2 ha', h x hx]
      split_ifs <;> omega

theorem minmax_eq {b b' i j : Nat} (hij : i < j) : (min b b' = i ∧ max b b' = j) ↔ ((b = i ∧ b' = j) ∨ (b = j ∧ b' = i)) := by omega

theorem RInv.taken {c : Cfg} {h : Sch} {q : QG} (hI : RInv c h q) {i j : Nat} (hij : i < j) (hp : j ∈ h.pairs i) (hd : h.done i j = false) :
    RInv c (take h i j) q := by
  refine ⟨hI.sym, hI.rng, hI.nodup, fun b => ?_, hI.elig⟩
  have hdone : ∀ b', b' ∈ h.pairs b → ((take h i j).done (min b b') (max b b') = if (b = i ∧ b' = j) ∨ (b = j ∧ b' = i) then true else h.done (min b b') (max b b')) := by
    intro b' _
    show (if min b b' = i ∧ max b b' = j then true else h.done (min b b') (max b b')) = _
    simp only [minmax_eq hij]
  have hpi := hI.parts i
  have hpj := hI.parts j
  have hparts : (take h i j).parts b = if b = i ∨ b = j then h.parts b - 1 else h.parts b := by
    show set (set h.parts i (h.parts i - 1)) j (set h.parts i (h.parts i - 1) j - 1) b = _
    unfold set
    by_cases h1 : b = j
    · subst h1
      rw [if_pos rfl, if_neg (by omega : ¬ b = i)]; simp
    · rw [if_neg h1]
      by_cases h2 : b = i
      · subst h2; simp
      · simp [h1, h2]
  rw [hparts]
  show _ = (h.pairs b).countP (fun b' => !(take h i j).done (min b b') (max b b'))
  by_cases h1 : b = i
  · subst h1
    rw [if_pos (Or.inl rfl), hpi]
    unfold openP
    symm
    refine countP_erase (hI.nodup b) hp ?_ ?_ ?_
    · rw [min_eq_left hij.le, max_eq_right hij.le, hd]; rfl
    · show (!(if min b j = b ∧ max b j = j then true else h.done (min b j) (max b j))) = false
      rw [if_pos ((minmax_eq hij).2 (Or.inl ⟨rfl, rfl⟩))]; rfl
    · intro b' hb'
      show (!(if min b b' = b ∧ max b b' = j then true else h.done (min b b') (max b b'))) = _
      rw [if_neg]
      intro hh
      rcases (minmax_eq hij).1 hh with hh | hh <;> omega
  · by_cases h2 : b = j
    · subst h2
      rw [if_pos (Or.inr rfl), hpj]
      unfold openP
      symm
      refine countP_erase (hI.nodup b) (hI.sym _ _ hp) ?_ ?_ ?_
      · rw [min_eq_right hij.le, max_eq_left hij.le, hd]; rfl
      · show (!(if min b i = i ∧ max b i = b then true else h.done (min b i) (max b i))) = false
        rw [if_pos ((minmax_eq hij).2 (Or.inr ⟨rfl, rfl⟩))]; rfl
      · intro b' hb'
        show (!(if min b b' = i ∧ max b b' = b then true else h.done (min b b') (max b b'))) = _
        rw [if_neg]
        intro hh
        rcases (minmax_eq hij).1 hh with hh | hh <;> omega
    · rw [if_neg (by simp [h1, h2]), hI.parts b]
      unfold openP
      refine List.countP_congr (fun b' hb' => ?_)
      rw [hdone b' hb', if_neg (by simp [h1, h2])]

/-- scheduling `tasks` changes the state from `h0` to `h` -/
structure Taken (c : Cfg) (h0 h : Sch) (tasks : List (Nat × Nat)) : Prop where
  active : h.active = h0.active
  next : h.next = h0.next
  pairs : h.pairs = h0.pairs
  round : h.round = h0.round
  done : ∀ i j, h.done i j = true ↔ h0.done i j = true ∨ (i, j) ∈ tasks
  task : ∀ p ∈ tasks, p.1 < p.2 ∧ p.2 < c.fc.k ∧ p.2 ∈ h0.pairs p.1 ∧ h0.done p.1 p.2 = false
  disj : tasks.Pairwise Disj

/-- invariant of the greedy loop -/
structure LInv (c : Cfg) (q : QG) (h0 h : Sch) (scheduled : Nat → Bool) (tasks : List (Nat × Nat)) : Prop where
  inv : RInv c h q
  tk : Taken c h0 h tasks
  sch : ∀ p ∈ tasks, scheduled p.1 = true ∧ scheduled p.2 = true

theorem usable_iff {c : Cfg} {q : QG} {h : Sch} {sc : Nat → Bool} {b0 b1 : Nat} :
    usable c q h sc b0 b1 = true ↔ sc b1 = false ∧ eligible c h q (min b0 b1) (max b0 b1) = true ∧ h.done (min b0 b1) (max b0 b1) = false := by
  unfold usable
  simp

theorem LInv.push {c : Cfg} {q : QG} {h0 h : Sch} {sc : Nat → Bool} {tasks : List (Nat × Nat)} (hL : LInv c q h0 h sc tasks) {b0 b1 : Nat}
    (h0' : sc b0 = false) (hb : b1 ∈ h.pairs b0) (hu : usable c q h sc b0 b1 = true) :
    LInv c q h0 (take h (min b0 b1) (max b0 b1)) (set (set sc b0 true) b1 true) (tasks ++ [(min b0 b1, max b0 b1)]) := by
  obtain ⟨u1, u2, u3⟩ := usable_iff.1 hu
  obtain ⟨r1, r2, r3⟩ := hL.inv.rng b0 b1 hb
  have hlt : min b0 b1 < max b0 b1 := by omega
  have hpair : max b0 b1 ∈ h.pairs (min b0 b1) := by
    rcases le_total b0 b1 with hle | hle
    · rw [min_eq_left hle, max_eq_right hle]; exact hb
    · rw [min_eq_right hle, max_eq_left hle]; exact hL.inv.sym _ _ hb
  have hset : ∀ b, set (set sc b0 true) b1 true b = (if b = b1 then true else if b = b0 then true else sc b) := fun b => rfl
  refine ⟨hL.inv.taken hlt hpair u3, ⟨hL.tk.active, hL.tk.next, hL.tk.pairs, hL.tk.round, fun i j => ?_, fun p hp => ?_, ?_⟩, fun p hp => ?_⟩
  · show (if i = min b0 b1 ∧ j = max b0 b1 then true else h.done i j) = true ↔ _
    rw [List.mem_append, List.mem_singleton, Prod.mk.injEq]
    have := hL.tk.done i j
    split_ifs with hh
    · simp [hh]
    · rw [this]; tauto
  · rcases List.mem_append.1 hp with hp | hp
    · exact hL.tk.task p hp
    · rw [List.mem_singleton] at hp
      subst hp
      refine ⟨hlt, by show max b0 b1 < _; omega, hL.tk.pairs ▸ hpair, ?_⟩
      by_contra hh
      rw [Bool.not_eq_false] at hh
      rw [(hL.tk.done _ _).2 (Or.inl hh)] at u3
      cases u3
  · rw [List.pairwise_append]
    refine ⟨hL.tk.disj, by simp, fun p hp p' hp' => ?_⟩
    rw [List.mem_singleton] at hp'
    subst hp'
    obtain ⟨s1, s2⟩ := hL.sch p hp
    have hne : ∀ b, sc b = true → b ≠ min b0 b1 ∧ b ≠ max b0 b1 := by
      intro b hb'
      constructor <;> intro hh <;> rcases le_total b0 b1 with hle | hle
      · rw [min_eq_left hle] at hh; rw [hh, h0'] at hb'; cases hb'
      · rw [min_eq_right hle] at hh; rw [hh, u1] at hb'; cases hb'
      · rw [max_eq_right hle] at hh; rw [hh, u1] at hb'; cases hb'
      · rw [max_eq_left hle] at hh; rw [hh, h0'] at hb'; cases hb'
    exact ⟨(hne _ s1).1, (hne _ s1).2, (hne _ s2).1, (hne _ s2).2⟩
  · rcases List.mem_append.1 hp with hp | hp
    · obtain ⟨s1, s2⟩ := hL.sch p hp
      rw [hset, hset, s1, s2]
      exact ⟨by split_ifs <;> rfl, by split_ifs <;> rfl⟩
    · rw [List.mem_singleton] at hp
      subst hp
      rw [hset, hset]
      constructor
      · rcases le_total b0 b1 with hle | hle
        · rw [min_eq_left hle]; split_ifs <;> simp_all
        · rw [min_eq_right hle]; simp
      · rcases le_total b0 b1 with hle | hle
        · rw [max_eq_right hle]; simp
        · rw [max_eq_left hle]; split_ifs <;> simp_all

theorem matchLoop_spec {c : Cfg} {q : QG} {h0 : Sch} (l : List Nat) : ∀ {h : Sch} {sc : Nat → Bool} {tasks : List (Nat × Nat)}, LInv c q h0 h sc tasks →
    RInv c (matchLoop c q l h sc tasks).1 q ∧ Taken c h0 (matchLoop c q l h sc tasks).1 (matchLoop c q l h sc tasks).2 ∧
    tasks.length ≤ (matchLoop c q l h sc tasks).2.length := by
  induction l with
  | nil => intro h sc tasks hL; exact ⟨hL.inv, hL.tk, le_refl _⟩
  | cons b0 rest ih =>
    intro h sc tasks hL
    rw [matchLoop]
    by_cases hs : sc b0 = true
    · rw [if_pos hs]; exact ih hL
    · rw [if_neg hs]
      rw [Bool.not_eq_true] at hs
      cases hf : (h.pairs b0).find? (fun b1 => usable c q h sc b0 b1) with
      | none =>
        simp only []
        split_ifs
        · exact ⟨hL.inv, hL.tk, le_refl _⟩
        · exact ih hL
      | some b1 =>
        simp only []
        have hb := List.mem_of_find?_eq_some hf
        have hu := List.find?_some hf
        have hP := hL.push hs hb hu
        split_ifs
        · exact ⟨hP.inv, hP.tk, by simp⟩
        · obtain ⟨r1, r2, r3⟩ := ih hP
          refine ⟨r1, r2, le_trans ?_ r3⟩
          simp

theorem LInv.start {c : Cfg} {q : QG} {h : Sch} (hI : RInv c h q) : LInv c q h h (fun _ => false) [] :=
  ⟨hI, ⟨rfl, rfl, rfl, rfl, by simp, by simp, List.Pairwise.nil⟩, by simp⟩

/-- `getNextMatching` -/
theorem nextMatching_spec {c : Cfg} {q : QG} {h : Sch} (hI : RInv c h q) :
    RInv c (nextMatching c h q).1 q ∧ Taken c h (nextMatching c h q).1 (nextMatching c h q).2 :=
  let r := matchLoop_spec _ (LInv.start hI)
  ⟨r.1, r.2.1⟩

/-- `getNextMatching` returns nothing only if all pairs were processed -/
theorem nextMatching_nil {c : Cfg} {q : QG} {h : Sch} (hI : RInv c h q) (hn : (nextMatching c h q).2 = []) :
    ∀ b b', b' ∈ h.pairs b → h.done (min b b') (max b b') = true := by
  intro b b' hb
  by_contra hd
  rw [Bool.not_eq_true] at hd
  have hpos : 0 < h.parts b := by
    rw [hI.parts b]
    exact List.countP_pos_iff.2 ⟨b', hb, by rw [hd]; rfl⟩
  unfold nextMatching at hn
  simp only [] at hn
  have hmem : b ∈ ((List.range c.fc.k).filter (fun i => decide (h.parts i > 0))).insertionSort (moreParts h.parts) := by
    rw [List.mem_insertionSort, List.mem_filter]
    exact ⟨List.mem_range.2 (hI.rng b b' hb).2.1, by simpa using hpos⟩
  generalize hl : ((List.range c.fc.k).filter (fun i => decide (h.parts i > 0))).insertionSort (moreParts h.parts) = l at hn hmem
  cases l with
  | nil => simp at hmem
  | cons b0 rest =>
    have hb0 : b0 ∈ ((List.range c.fc.k).filter (fun i => decide (h.parts i > 0))).insertionSort (moreParts h.parts) := by rw [hl]; simp
    rw [List.mem_insertionSort, List.mem_filter] at hb0
    have hp0 : 0 < h.parts b0 := by simpa using hb0.2
    rw [hI.parts b0] at hp0
    obtain ⟨b1, hb1, hd1⟩ := List.countP_pos_iff.1 hp0
    have hu : usable c q h (fun _ => false) b0 b1 = true := usable_iff.2 ⟨rfl, hI.elig b0 b1 hb1, by simpa using hd1⟩
    rw [matchLoop, if_neg (by simp)] at hn
    cases hf : (h.pairs b0).find? (fun b1 => usable c q h (fun _ => false) b0 b1) with
    | none =>
      have := List.find?_eq_none.1 hf b1 hb1
      exact absurd hu this
    | some b2 =>
      rw [hf] at hn
      simp only [] at hn
      have hP := (LInv.start hI).push rfl (List.mem_of_find?_eq_some hf) (List.find?_some hf)
      split_ifs at hn
      · simp at hn
      · have := (matchLoop_spec rest hP).2.2
        rw [hn] at this
        simp at this

/-! ### Beginning of a round -/

/-- one pair in `resetForNewRoundImpl` -/
def addPair (c : Cfg) (q : QG) (h : Sch) (p : Nat × Nat) : Sch :=
  if eligible c h q p.1 p.2 then
    { h with parts := let f := set h.parts p.1 (h.parts p.1 + 1); set f p.2 (f p.2 + 1),
             pairs := let f := set h.pairs p.1 (h.pairs p.1 ++ [p.2]); set f p.2 (f p.2 ++ [p.1]) }
  else h

/-- the other block of a pair -/
def partner (b : Nat) (p : Nat × Nat) : Option Nat := if p.1 = b then some p.2 else if p.2 = b then some p.1 else none

theorem addPair_fold {c : Cfg} {q : QG} (l : List (Nat × Nat)) (hl : ∀ p ∈ l, p.1 < p.2) : ∀ h : Sch,
    (l.foldl (addPair c q) h).active = h.active ∧ (l.foldl (addPair c q) h).next = h.next ∧ (l.foldl (addPair c q) h).done = h.done ∧
    (l.foldl (addPair c q) h).round = h.round ∧
    (∀ b, (l.foldl (addPair c q) h).pairs b = h.pairs b ++ (l.filter (fun p => eligible c h q p.1 p.2)).filterMap (partner b)) ∧
    (∀ b, (l.foldl (addPair c q) h).parts b = h.parts b + ((l.filter (fun p => eligible c h q p.1 p.2)).filterMap (partner b)).length) := by
  induction l with
  | nil => intro h; simp
  | cons p l ih =>
    intro h
    rw [List.foldl_cons]
    have hlt := hl p (by simp)
    obtain ⟨r1, r2, r3, r4, r5, r6⟩ := ih (fun p hp => hl p (List.mem_cons_of_mem _ hp)) (addPair c q h p)
    have ha : (addPair c q h p).active = h.active := by unfold addPair; split_ifs <;> rfl
    have hr : (addPair c q h p).round = h.round := by unfold addPair; split_ifs <;> rfl
    have he : ∀ i j, eligible c (addPair c q h p) q i j = eligible c h q i j := by intro i j; unfold eligible; rw [ha, hr]
    simp only [he] at r5 r6
    refine ⟨by rw [r1, ha], ?_, ?_, by rw [r4, hr], fun b => ?_, fun b => ?_⟩
    · rw [r2]; unfold addPair; split_ifs <;> rfl
    · rw [r3]; unfold addPair; split_ifs <;> rfl
    · rw [r5]
      by_cases hp : eligible c h q p.1 p.2 = true
      · rw [List.filter_cons_of_pos (by simpa using hp), List.filterMap_cons]
        have : (addPair c q h p).pairs b = h.pairs b ++ (partner b p).toList := by
          unfold addPair partner set
          rw [if_pos hp]
          simp only []
          by_cases h2 : b = p.2
          · subst h2
            have : ¬ p.2 = p.1 := by omega
            have h3 : ¬ p.1 = p.2 := by omega
            simp [this, h3]
          · by_cases h1 : b = p.1
            · subst h1; simp [h2]
            · simp [h1, h2, Ne.symm h1, Ne.symm h2]
        rw [this, List.append_assoc]
        cases partner b p <;> simp
      · rw [List.filter_cons_of_neg (by simpa using hp)]
        unfold addPair
        rw [if_neg hp]
    · rw [r6]
      by_cases hp : eligible c h q p.1 p.2 = true
      · rw [List.filter_cons_of_pos (by simpa using hp), List.filterMap_cons]
        have : (addPair c q h p).parts b = h.parts b + (partner b p).toList.length := by
          unfold addPair partner set
          rw [if_pos hp]
          simp only []
          by_cases h2 : b = p.2
          · subst h2
            have : ¬ p.2 = p.1 := by omega
            have h3 : ¬ p.1 = p.2 := by omega
            simp [this, h3]
          · by_cases h1 : b = p.1
            · subst h1; simp [h2]
            · simp [h1, h2, Ne.symm h1, Ne.symm h2]
        rw [this]
        cases partner b p <;> simp
        omega
      · rw [List.filter_cons_of_neg (by simpa using hp)]
        unfold addPair
        rw [if_neg hp]

theorem partner_some {b b' : Nat} {p : Nat × Nat} (h : p.1 < p.2) : partner b p = some b' ↔ p = (min b b', max b b') ∧ b ≠ b' := by
  unfold partner
  obtain ⟨i, j⟩ := p
  simp only at h ⊢
  rw [Prod.mk.injEq]
  split_ifs with h1 h2 <;> simp <;> omega

theorem resetImpl_spec {c : Cfg} (h : Sch) (q : QG) :
    RInv c (resetImpl c h q) q ∧ (resetImpl c h q).active = h.next ∧ (resetImpl c h q).next = (fun _ => false) ∧ (resetImpl c h q).done = (fun _ _ => false) ∧
    (resetImpl c h q).round = h.round ∧
    (∀ i j, i < j → (j ∈ (resetImpl c h q).pairs i ↔ j < c.fc.k ∧ eligible c (resetImpl c h q) q i j = true)) := by
  have hfold := addPair_fold (c := c) (q := q) (allPairs c.fc.k) (fun p hp => (mem_allPairs.1 hp).1)
    { active := h.next, next := fun _ => false, done := fun _ _ => false, parts := fun _ => 0, pairs := fun _ => [], round := h.round }
  obtain ⟨r1, r2, r3, r4, r5, r6⟩ := hfold
  set h1 : Sch := { active := h.next, next := fun _ => false, done := fun _ _ => false, parts := fun _ => 0, pairs := fun _ => [], round := h.round } with hh1
  set h2 := (allPairs c.fc.k).foldl (addPair c q) h1 with hh2
  have hR : resetImpl c h q = { h2 with pairs := fun i => (h2.pairs i).insertionSort (fun l r => ¬ better q i r l) } := rfl
  have hel : ∀ i j, eligible c (resetImpl c h q) q i j = eligible c h1 q i j := by
    intro i j
    rw [hR]
    unfold eligible
    simp only [r1, r4]
  have hmem2 : ∀ b b', b' ∈ h2.pairs b ↔ b ≠ b' ∧ max b b' < c.fc.k ∧ eligible c h1 q (min b b') (max b b') = true := by
    intro b b'
    rw [r5 b]
    show b' ∈ [] ++ _ ↔ _
    rw [List.nil_append, List.mem_filterMap]
    constructor
    · rintro ⟨p, hp, hpp⟩
      rw [List.mem_filter] at hp
      have hlt := mem_allPairs.1 hp.1
      obtain ⟨e1, e2⟩ := (partner_some hlt.1).1 hpp
      subst e1
      exact ⟨e2, hlt.2, hp.2⟩
    · rintro ⟨e1, e2, e3⟩
      have hlt : min b b' < max b b' := by omega
      exact ⟨(min b b', max b b'), List.mem_filter.2 ⟨mem_allPairs.2 ⟨hlt, e2⟩, e3⟩, (partner_some hlt).2 ⟨rfl, e1⟩⟩
  have hmem : ∀ b b', b' ∈ (resetImpl c h q).pairs b ↔ b ≠ b' ∧ max b b' < c.fc.k ∧ eligible c h1 q (min b b') (max b b') = true := by
    intro b b'
    rw [← hmem2, hR]
    exact List.mem_insertionSort _
  have hdone : ∀ i j, (resetImpl c h q).done i j = false := by intro i j; rw [hR]; simp only [r3]; rfl
  have hnd2 : ∀ b, (h2.pairs b).Nodup := by
    intro b
    rw [r5 b]
    show ([] ++ _ : List Nat).Nodup
    rw [List.nil_append]
    unfold List.Nodup
    rw [List.pairwise_filterMap]
    refine List.Pairwise.imp_of_mem ?_ ((nodup_allPairs c.fc.k).filter _)
    intro p p' hp hp' hne a ha a' ha' haa
    subst haa
    have e1 := ((partner_some (mem_allPairs.1 (List.mem_filter.1 hp).1).1).1 ha).1
    have e2 := ((partner_some (mem_allPairs.1 (List.mem_filter.1 hp').1).1).1 ha').1
    exact hne (e1.trans e2.symm)
  refine ⟨⟨fun b b' hb => ?_, fun b b' hb => ?_, fun b => ?_, fun b => ?_, fun b b' hb => ?_⟩, by rw [hR]; exact r1, by rw [hR]; exact r2, by rw [hR]; exact r3, by rw [hR]; exact r4, ?_⟩
  · rw [hmem] at hb ⊢
    rw [min_comm b' b, max_comm b' b]
    exact ⟨Ne.symm hb.1, hb.2⟩
  · rw [hmem] at hb
    refine ⟨hb.1, ?_, ?_⟩ <;> omega
  · rw [hR]
    exact (List.perm_insertionSort _ _).nodup_iff.2 (hnd2 b)
  · unfold openP
    have hp : (resetImpl c h q).parts b = (h2.pairs b).length := by
      rw [hR]
      show h2.parts b = _
      rw [r6 b, r5 b]
      show 0 + _ = ([] ++ _ : List Nat).length
      simp
    rw [hp]
    have : ((resetImpl c h q).pairs b).countP (fun b' => !(resetImpl c h q).done (min b b') (max b b')) = ((resetImpl c h q).pairs b).length := by
      rw [List.countP_eq_length]
      intro b' _
      rw [hdone]; rfl
    rw [this, hR]
    exact (List.length_insertionSort _ _).symm
  · rw [hmem] at hb
    rw [hel]; exact hb.2.2
  · intro i j hij
    rw [hmem, min_eq_left hij.le, max_eq_right hij.le, hel]
    exact ⟨fun h => h.2, fun h => ⟨by omega, h⟩⟩

end DFlow
end Verif
