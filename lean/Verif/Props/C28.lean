import Verif.Lemmas.Batches8
import Mathlib.Tactic.IntervalCases
/-!
# C28: the batches of the n-level uncoarsening are a valid schedule

`Hierarchy` is the model of `DynamicHypergraph::createBatchUncontractionHierarchy`; `Forest.Valid`
(Spec/Schedule.lean) says what a valid schedule is, without reference to the model.
-/
namespace Verif
namespace Uncontract
open Schedule

/-- the parallel loops of `finalize` visit every node once -/
structure FinSched.OK (f : FinSched) (n : Nat) : Prop where
  h1 : f.o1.Perm (List.range n)
  h2 : f.o2.Perm (List.range n)
  h3 : f.o3.Perm (List.range n)
  h4 : f.o4.Perm (List.range n)

variable {t : CTree} {numVersions mx T : Nat}

theorem TreeOK.starts (hT : TreeOK t numVersions) :
    ∀ v, v < t.n → t.par v ≠ v → t.start v ≠ kInvalid ∧ t.start v ≤ t.stop v := fun v h1 h2 =>
  ⟨hT.start v h1 h2, hT.wf.interval v ⟨h1, h2⟩⟩

theorem versions_valid {ch : Nat → List Nat} {roots : Nat → List Nat} (hc : ChildsOK t ch) (hn : 0 < t.n) (hmx : 0 < mx)
    (hst : ∀ v, v < t.n → t.par v ≠ v → t.start v ≠ kInvalid ∧ t.start v ≤ t.stop v)
    {v left hwm : Nat} {cnt size : Nat → Nat} {res : Option (List (List (List Memento)))}
    (h : Versions t ch roots mx T v left hwm cnt size res) :
    (∀ k, v ≤ k → k < v + left → VersionOK t (roots k) k) → hwm = 0 → (∀ b, cnt b = 0) → (∀ b, size b = 0) →
    ∃ L, res = some L ∧ L.length = left ∧ ∀ j B, L[j]? = some B → t.forest.Valid (v + j) mx B := by
  induction h with
  | done v hwm cnt size => intro _ _ _ _; exact ⟨[], rfl, rfl, by intro j B h; simp at h⟩
  | fail v left hwm cnt size s h =>
    intro hV h0 h1 h2
    subst h0
    obtain ⟨B, hB, _⟩ := forVersion_valid hc (hV v (Nat.le_refl _) (by omega)) hn hmx hst h1 h2 h
    exact absurd hB (by simp)
  | next v left hwm cnt size s B r h hr ih =>
    intro hV h0 h1 h2
    subst h0
    obtain ⟨B', hB, hval, hz⟩ := forVersion_valid hc (hV v (Nat.le_refl _) (by omega)) hn hmx hst h1 h2 h
    injection hB with hB
    subst hB
    obtain ⟨L, hL, hlen, hLv⟩ := ih (fun k hk1 hk2 => hV k (by omega) (by omega)) rfl
      (by
        intro b; unfold resetCounters
        split
        · rfl
        · exact (hz b (by omega)).1)
      (by
        intro b; unfold resetCounters
        split
        · rfl
        · exact (hz b (by omega)).2)
    subst hL
    refine ⟨B :: L, rfl, by simp [hlen], ?_⟩
    intro j C hj
    cases j with
    | zero =>
      simp only [List.getElem?_cons_zero, Option.some.injEq] at hj
      subst hj
      simpa using hval
    | succ j =>
      rw [List.getElem?_cons_succ] at hj
      have := hLv j C hj
      rwa [show v + (j + 1) = v + 1 + j by omega]

/-- **C28**: whatever the schedules of the threads are, `createBatchUncontractionHierarchy` returns
(no out-of-range access, here `none`) one list of batches for every version, and each of them is a
valid schedule of the contractions of its version. -/
theorem C28_hierarchy_valid (hT : TreeOK t numVersions) (hn : 0 < t.n) (hmx : 0 < mx) {f : FinSched} (hf : f.OK t.n)
    {res : Option (List (List (List Memento)))} (h : Hierarchy t numVersions mx T f res) :
    ∃ L, res = some L ∧ L.length = numVersions ∧ ∀ k B, L[k]? = some B → t.forest.Valid k mx B := by
  have hc := childs_ok hT.wf.par_lt hf.h1 hf.h2 hf.h3 f.inc0
  obtain ⟨L, h1, h2, h3⟩ := versions_valid hc hn hmx hT.starts h
    (fun k _ hk => version_ok hT hc hf.h4 (by omega)) rfl (fun _ => rfl) (fun _ => rfl)
  refine ⟨L, h1, h2, ?_⟩
  intro k B hk
  simpa using h3 k B hk

/-- **C28**: over all versions together, every contraction of the history is undone exactly once. -/
theorem C28_every_contraction_once (hT : TreeOK t numVersions) (hn : 0 < t.n) (hmx : 0 < mx) {f : FinSched} (hf : f.OK t.n)
    {L : List (List (List Memento))} (h : Hierarchy t numVersions mx T f (some L)) :
    L.flatten.flatten.Nodup ∧ ∀ u v, (u, v) ∈ L.flatten.flatten ↔ t.forest.Contracted v ∧ t.par v = u := by
  obtain ⟨L', hL, hlen, hval⟩ := C28_hierarchy_valid hT hn hmx hf h
  injection hL with hL
  subst hL
  have hfl : L.flatten.flatten = (L.map List.flatten).flatten := List.flatten_flatten
  rw [hfl]
  constructor
  · rw [List.nodup_flatten]
    constructor
    · intro l hl
      rw [List.mem_map] at hl
      obtain ⟨B, hB, rfl⟩ := hl
      obtain ⟨k, hk⟩ := List.getElem?_of_mem hB
      exact (hval k B hk).nodup
    · rw [List.pairwise_map, List.pairwise_iff_getElem]
      intro i j hi hj hij m hm1 hm2
      have h1 := (hval i _ (List.getElem?_eq_getElem hi)).exact m.1 m.2
      have h2 := (hval j _ (List.getElem?_eq_getElem hj)).exact m.1 m.2
      have e1 := (h1.1 hm1).2.2
      have e2 := (h2.1 hm2).2.2
      omega
  · intro u v
    rw [List.mem_flatten]
    constructor
    · rintro ⟨l, hl, hm⟩
      rw [List.mem_map] at hl
      obtain ⟨B, hB, rfl⟩ := hl
      obtain ⟨k, hk⟩ := List.getElem?_of_mem hB
      have := ((hval k B hk).exact u v).1 hm
      exact ⟨this.1, this.2.1⟩
    · rintro ⟨hcv, hp⟩
      have hlt : t.ver v < L.length := by rw [hlen]; exact hT.wf.ver_lt v hcv
      have hk := List.getElem?_eq_getElem hlt
      refine ⟨L[t.ver v].flatten, List.mem_map.2 ⟨_, List.getElem_mem hlt, rfl⟩, ?_⟩
      exact ((hval _ _ hk).exact u v).2 ⟨hcv, hp, rfl⟩

/-- **C28**: the hierarchy is undone from the last version to the first, and within a version from
the last batch to the first. In that order, a node is split off strictly after the node it is
contained in has been split off itself. -/
theorem C28_parent_first (hT : TreeOK t numVersions) (hn : 0 < t.n) (hmx : 0 < mx) {f : FinSched} (hf : f.OK t.n)
    {L : List (List (List Memento))} (h : Hierarchy t numVersions mx T f (some L))
    {k1 k2 i j : Nat} {B1 B2 : List (List Memento)} {b1 b2 : List Memento} {u v w : Nat}
    (hk1 : L[k1]? = some B1) (hk2 : L[k2]? = some B2) (hi : B1[i]? = some b1) (hj : B2[j]? = some b2)
    (huv : (u, v) ∈ b1) (hvw : (v, w) ∈ b2) : k2 < k1 ∨ (k2 = k1 ∧ j < i) := by
  obtain ⟨L', hL, hlen, hval⟩ := C28_hierarchy_valid hT hn hmx hf h
  injection hL with hL
  subst hL
  have m1 := ((hval k1 B1 hk1).exact u v).1 (List.mem_flatten.2 ⟨b1, List.mem_of_getElem? hi, huv⟩)
  have m2 := ((hval k2 B2 hk2).exact v w).1 (List.mem_flatten.2 ⟨b2, List.mem_of_getElem? hj, hvw⟩)
  have hle := hT.wf.ver_le w m2.1 (by have h' := m2.2.1; rw [h']; exact m1.1)
  have h' := m2.2.1
  rw [h'] at hle
  have e1 := m1.2.2
  have e2 := m2.2.2
  rcases Nat.lt_or_ge k2 k1 with h | h
  · exact Or.inl h
  · have hk : k2 = k1 := by omega
    subst hk
    rw [hk1] at hk2
    injection hk2 with hk2
    subst hk2
    exact Or.inr ⟨rfl, (hval k2 B1 hk1).parentFirst i j b1 b2 u v w hi hj huv hvw⟩

/-- **C28**: if no two contractions onto the same node overlap in time, no batch is larger than
requested. -/
theorem C28_batch_size (hT : TreeOK t numVersions) (hn : 0 < t.n) (hmx : 0 < mx) {f : FinSched} (hf : f.OK t.n)
    {L : List (List (List Memento))} (h : Hierarchy t numVersions mx T f (some L))
    (hno : ∀ v w, t.forest.Contracted v → t.forest.Contracted w → t.par v = t.par w → t.forest.Overlap v w → v = w) :
    ∀ B ∈ L, ∀ b ∈ B, b.length ≤ mx := by
  obtain ⟨L', hL, hlen, hval⟩ := C28_hierarchy_valid hT hn hmx hf h
  injection hL with hL
  subst hL
  intro B hB b hb
  obtain ⟨k, hk⟩ := List.getElem?_of_mem hB
  have V := hval k B hk
  obtain ⟨pre, grp, rfl, hpre, ⟨u, hu⟩, hlink⟩ := V.size b hb
  rw [List.length_append]
  have hone : grp.length ≤ 1 := by
    by_contra hlt
    match hg : grp, hlt with
    | [], h => simp at h
    | [_], h => simp at h
    | x :: y :: r, _ =>
      obtain ⟨x', hx', y', hy', ho⟩ := hlink [x] (y :: r) rfl (by simp) (by simp)
      rw [List.mem_singleton] at hx'
      subst hx'
      have hmem : ∀ z ∈ x' :: y :: r, z ∈ B.flatten := fun z hz =>
        List.mem_flatten.2 ⟨_, hb, List.mem_append_right _ hz⟩
      have mx' := (V.exact x'.1 x'.2).1 (hmem x' (by simp))
      have my' := (V.exact y'.1 y'.2).1 (hmem y' (List.mem_cons_of_mem _ hy'))
      have hp : t.par x'.2 = t.par y'.2 := by
        rw [show t.par x'.2 = x'.1 from mx'.2.1, show t.par y'.2 = y'.1 from my'.2.1, hu x' (by simp),
          hu y' (List.mem_cons_of_mem _ hy')]
      have heq := hno _ _ mx'.1 my'.1 hp ho
      have hnd : (pre ++ x' :: y :: r).Nodup := by
        have := V.nodup
        rw [List.nodup_flatten] at this
        exact this.1 _ hb
      have hnd' := (List.nodup_append.1 hnd).2.1
      apply (List.nodup_cons.1 hnd').1
      have : x' = y' := Prod.ext (by rw [hu x' (by simp), hu y' (List.mem_cons_of_mem _ hy')]) heq
      rw [this]; exact hy'
  omega

/-! ### Executions are finite and access the counters within their range -/

/-- **C28**: no execution of the parallel loop of a version makes more than
`(3n + T + 12) n + n` steps, whatever the schedule. -/
theorem C28_terminates (hT : TreeOK t numVersions) (hmx : 0 < mx) {f : FinSched} (hf : f.OK t.n) {k : Nat} (hk : k < numVersions)
    {dist : Nat → List Nat}
    (hd : ((List.range T).flatMap dist).Perm (t.versionRoots (t.childs f.o1 f.o2 f.o3 f.inc0) f.o4 k)) {j : Nat} {s : St}
    (h : StepsN t (t.childs f.o1 f.o2 f.o3 f.inc0) k mx T j
      (initSt t (t.childs f.o1 f.o2 f.o3 f.inc0) k dist 0 (fun _ => 0) (fun _ => 0)) s) :
    j ≤ (3 * t.n + T + 12) * t.n + t.n := by
  have hc := childs_ok hT.wf.par_lt hf.h1 hf.h2 hf.h3 f.inc0
  have hV := version_ok hT hc hf.h4 hk
  have := (steps_bounded hc hmx hT.starts hV h ⟨[], 0, Inv.init hc hd hV.rootNot⟩ (fun i _ => Nat.le_refl _)).2.2
  have h0 : measure t.n T (initSt t (t.childs f.o1 f.o2 f.o3 f.inc0) k dist 0 (fun _ => 0) (fun _ => 0)) =
      (3 * t.n + T + 12) * t.n + t.n := by
    unfold measure taken
    have e1 : ∀ i, takenLen ((initSt t (t.childs f.o1 f.o2 f.o3 f.inc0) k dist 0 (fun _ => 0) (fun _ => 0)).thr i) = 0 := fun i => rfl
    have e2 : ∀ i, phi t.n T ((initSt t (t.childs f.o1 f.o2 f.o3 f.inc0) k dist 0 (fun _ => 0) (fun _ => 0)).thr i).pc = 0 := fun i => rfl
    simp only [e1, e2, Finset.sum_const_zero]
    rfl
  omega

/-- **C28**: in every reachable state, a thread accesses the counters of the batches within the
allocated range. -/
theorem C28_counters_in_range (hT : TreeOK t numVersions) (hmx : 0 < mx) {f : FinSched} (hf : f.OK t.n) {k : Nat} (hk : k < numVersions)
    {dist : Nat → List Nat}
    (hd : ((List.range T).flatMap dist).Perm (t.versionRoots (t.childs f.o1 f.o2 f.o3 f.inc0) f.o4 k)) {s : St}
    (h : Steps t (t.childs f.o1 f.o2 f.o3 f.inc0) k mx T
      (initSt t (t.childs f.o1 f.o2 f.o3 f.inc0) k dist 0 (fun _ => 0) (fun _ => 0)) s) {i : Nat} (hi : i < T)
    {u : Nat} {g : List Nat} {idx : Nat} {hw : Bool} (hpc : (s.thr i).pc = .find u g idx hw) : idx < t.n := by
  have hc := childs_ok hT.wf.par_lt hf.h1 hf.h2 hf.h3 f.inc0
  have hV := version_ok hT hc hf.h4 hk
  obtain ⟨H, m, I⟩ := Inv.steps hc hmx hT.starts h ⟨[], 0, Inv.init hc hd hV.rootNot⟩
  exact I.find_lt hV hi hpc

/-! ### The hypotheses can be met -/

theorem versions_exist {ch : Nat → List Nat} {roots : Nat → List Nat} (hc : ChildsOK t ch) (hn : 0 < t.n) (hmx : 0 < mx) (hT' : 0 < T)
    (hst : ∀ v, v < t.n → t.par v ≠ v → t.start v ≠ kInvalid ∧ t.start v ≤ t.stop v) :
    ∀ (left v : Nat) (cnt size : Nat → Nat), (∀ k, v ≤ k → k < v + left → VersionOK t (roots k) k) → (∀ b, cnt b = 0) → (∀ b, size b = 0) →
    ∃ res, Versions t ch roots mx T v left 0 cnt size res := by
  intro left
  induction left with
  | zero => intro v cnt size _ _ _; exact ⟨_, Versions.done v 0 cnt size⟩
  | succ left ih =>
    intro v cnt size hV h1 h2
    have hVv := hV v (Nat.le_refl _) (by omega)
    have e1 : cnt = fun _ => 0 := funext h1
    have e2 : size = fun _ => 0 := funext h2
    subst e1 e2
    have hd : ((List.range T).flatMap (fun i => if i = 0 then roots v else [])).Perm (roots v) := by
      obtain ⟨T', rfl⟩ : ∃ T', T = T' + 1 := ⟨T - 1, by omega⟩
      rw [List.range_succ_eq_map, List.flatMap_cons, if_pos rfl]
      have : ((List.range T').map Nat.succ).flatMap (fun i => if i = 0 then roots v else []) = [] := by
        rw [List.flatMap_eq_nil_iff]
        intro x hx
        rw [List.mem_map] at hx
        obtain ⟨y, _, rfl⟩ := hx
        rfl
      rw [this, List.append_nil]
    obtain ⟨s, hs, hdone⟩ := completes (T := T) (mx := mx) hc hmx hst hVv _
      (initSt t ch v (fun i => if i = 0 then roots v else []) 0 (fun _ => 0) (fun _ => 0)) (Nat.le_refl _)
      ⟨[], 0, Inv.init hc hd hVv.rootNot⟩ (fun i _ => Nat.le_refl _)
    have hfv := ForVersion.mk (t := t) (ch := ch) (roots := roots v) (k := v) (mx := mx) (T := T) (hwm := 0)
      (cnt := fun _ => 0) (size := fun _ => 0) _ s _ hd hs hdone (List.Perm.refl _)
    obtain ⟨B, hB, _, hz⟩ := forVersion_valid hc hVv hn hmx hst (fun _ => rfl) (fun _ => rfl) hfv
    rw [hB] at hfv
    obtain ⟨r, hr⟩ := ih (v + 1) (resetCounters B.length s.sh.cnt) (resetCounters B.length s.sh.size)
      (fun k hk1 hk2 => hV k (by omega) (by omega))
      (by
        intro b; unfold resetCounters
        split
        · rfl
        · exact (hz b (by omega)).1)
      (by
        intro b; unfold resetCounters
        split
        · rfl
        · exact (hz b (by omega)).2)
    exact ⟨_, Versions.next v left 0 _ _ s.sh B r hfv hr⟩

/-- **C28**: with at least one thread, the function does return. -/
theorem C28_returns (hT : TreeOK t numVersions) (hn : 0 < t.n) (hmx : 0 < mx) (hT' : 0 < T) {f : FinSched} (hf : f.OK t.n) :
    ∃ L, Hierarchy t numVersions mx T f (some L) := by
  have hc := childs_ok hT.wf.par_lt hf.h1 hf.h2 hf.h3 f.inc0
  obtain ⟨res, hres⟩ := versions_exist (T := T) hc hn hmx hT' hT.starts numVersions 0 (fun _ => 0) (fun _ => 0)
    (fun k _ hk => version_ok hT hc hf.h4 (by omega)) (fun _ => rfl) (fun _ => rfl)
  obtain ⟨L, hL, _⟩ := C28_hierarchy_valid hT hn hmx hf (T := T) hres
  exact ⟨L, by rw [← hL]; exact hres⟩

/-- Seven nodes, two versions. In version 0, the nodes 1, 2 and 3 are contracted onto 0 (1 and 2 at the
same time) and 4 onto 2 before; in version 1, node 5 is contracted onto 6 and 0 onto 6. -/
def exampleTree : CTree where
  n := 7
  par := fun v => [6, 0, 0, 0, 2, 6, 6].getD v v
  ver := fun v => [1, 0, 0, 0, 0, 1, kInvalidVersion].getD v 0
  start := fun v => [9, 3, 4, 7, 0, 11, kInvalid].getD v 0
  stop := fun v => [10, 5, 6, 8, 1, 12, kInvalid].getD v 0

theorem exampleTree_ok : TreeOK exampleTree 2 := by
  have hv : ∀ v, v < 7 → v = 0 ∨ v = 1 ∨ v = 2 ∨ v = 3 ∨ v = 4 ∨ v = 5 ∨ v = 6 := by omega
  refine ⟨⟨?_, ?_, ?_, ?_, ?_⟩, ?_, by decide, ?_⟩
  · intro v h
    have h : v < 7 := h
    interval_cases v <;> decide
  · intro v h
    have h : v < 7 := h
    interval_cases v
    · exact ⟨1, rfl⟩
    · exact ⟨2, rfl⟩
    · exact ⟨2, rfl⟩
    · exact ⟨2, rfl⟩
    · exact ⟨3, rfl⟩
    · exact ⟨1, rfl⟩
    · exact ⟨0, rfl⟩
  · rintro v ⟨h, hp⟩
    have h : v < 7 := h
    interval_cases v <;> first | decide | exact absurd rfl hp
  · rintro v ⟨h, hp⟩ ⟨h2, hp2⟩
    have h : v < 7 := h
    interval_cases v <;> first | decide | exact absurd rfl hp
  · rintro v ⟨h, hp⟩
    have h : v < 7 := h
    interval_cases v <;> first | decide | exact absurd rfl hp
  · intro v h hp
    have h : v < 7 := h
    interval_cases v <;> first | rfl | exact absurd hp (by decide)
  · intro v h hp
    have h : v < 7 := h
    interval_cases v <;> first | decide | exact absurd rfl hp

/-- the theorems apply to `exampleTree`, with four threads and batches of two contractions: there is
a result, and every result is valid -/
theorem C28_example :
    ∃ f : FinSched, f.OK exampleTree.n ∧ (∃ L, Hierarchy exampleTree 2 2 4 f (some L)) ∧
      ∀ L, Hierarchy exampleTree 2 2 4 f (some L) →
        (0, 1) ∈ L.flatten.flatten ∧ (2, 4) ∈ L.flatten.flatten ∧ (6, 0) ∈ L.flatten.flatten := by
  have hf : (FinSched.mk (List.range 7) (List.range 7) (List.range 7) (List.range 7) (fun _ => 0)).OK exampleTree.n :=
    ⟨List.Perm.refl _, List.Perm.refl _, List.Perm.refl _, List.Perm.refl _⟩
  refine ⟨_, hf, C28_returns exampleTree_ok (by decide) (by decide) (by decide) hf, ?_⟩
  intro L hL
  have h := (C28_every_contraction_once exampleTree_ok (by decide) (by decide) hf hL).2
  exact ⟨(h 0 1).2 ⟨⟨by decide, by decide⟩, rfl⟩, (h 2 4).2 ⟨⟨by decide, by decide⟩, rfl⟩, (h 6 0).2 ⟨⟨by decide, by decide⟩, rfl⟩⟩

end Uncontract
end Verif
