import Verif.Lemmas.Batches4
import Mathlib.Data.List.Perm.Subperm
import Mathlib.Data.List.Nodup
/-! Consequences of the invariant: uniqueness, bounds, and the written batches. -/
namespace Verif
namespace Uncontract
open Schedule
open scoped BigOperators

variable {t : CTree} {ch : Nat → List Nat} {roots : List Nat} {k mx T : Nat}

/-- facts about the forest that the version needs -/
structure VersionOK (t : CTree) (roots : List Nat) (k : Nat) : Prop where
  par_lt : ∀ v < t.n, t.par v < t.n
  acyclic : ∀ v < t.n, ∃ i, t.par (t.par^[i] v) = t.par^[i] v
  rootVer : ∀ v < t.n, t.par v = v → t.ver v ≠ k
  rootMem : ∀ v, Edge t k v → t.ver (t.par v) ≠ k → roots.count (t.par v) = 1
  rootNot : ∀ u ∈ roots, t.ver u ≠ k

/-- number of places where a node is kept -/
def total (t : CTree) (k T : Nat) (s : St) (H : Hist) (v : Nat) : Nat :=
  (hnodes H).count v + ∑ i ∈ Finset.range T, ((infl (s.thr i).pc).count v + (fr t k (s.thr i)).count v)

theorem Inv.total_le (hV : VersionOK t roots k) {s : St} {H : Hist} {m : Nat} (I : Inv t ch roots k mx T s H m) :
    ∀ v, total t k T s H v ≤ if Edge t k v then 1 else 0 := by
  have hz : ∀ v, ¬ Edge t k v → total t k T s H v = 0 := by
    intro v hv
    have := I.lin v
    rw [if_neg hv] at this
    exact this
  have htk : ∀ v, (hnodes H).count v + ∑ i ∈ Finset.range T, (infl (s.thr i).pc).count v ≤ total t k T s H v := by
    intro v
    unfold total
    apply Nat.add_le_add_left
    apply Finset.sum_le_sum
    intro i _
    omega
  have key : ∀ i v, t.par (t.par^[i] v) = t.par^[i] v → Edge t k v → total t k T s H v ≤ 1 := by
    intro i
    induction i with
    | zero => intro v h he; exact absurd h he.2.1
    | succ i ih =>
      intro v h he
      have hl := I.lin v
      rw [if_pos he] at hl
      have h1 := htk (t.par v)
      show total t k T s H v ≤ 1
      change total t k T s H v = _ at hl
      by_cases hp : t.ver (t.par v) = k
      · have h2 : roots.count (t.par v) = 0 := by
          rw [List.count_eq_zero]
          intro hm
          exact hV.rootNot _ hm hp
        have h3 : Edge t k (t.par v) := ⟨hV.par_lt v he.1, fun h' => hV.rootVer _ (hV.par_lt v he.1) h' hp, hp⟩
        have := ih (t.par v) h h3
        omega
      · have h2 := hV.rootMem v he hp
        have h3 := hz (t.par v) (fun h' => hp h'.2.2)
        omega
  intro v
  by_cases he : Edge t k v
  · rw [if_pos he]
    obtain ⟨i, hi⟩ := hV.acyclic v he.1
    exact key i v hi he
  · rw [if_neg he, hz v he]

theorem Inv.hnodes_edge (hV : VersionOK t roots k) {s : St} {H : Hist} {m : Nat} (I : Inv t ch roots k mx T s H m) {v : Nat}
    (h : v ∈ hnodes H) : Edge t k v := by
  have h1 := I.total_le hV v
  by_contra he
  rw [if_neg he] at h1
  have : 0 < (hnodes H).count v := List.count_pos_iff.2 h
  unfold total at h1
  omega

theorem Inv.hnodes_nodup (hV : VersionOK t roots k) {s : St} {H : Hist} {m : Nat} (I : Inv t ch roots k mx T s H m) :
    (hnodes H).Nodup := by
  rw [List.nodup_iff_count_le_one]
  intro v
  have := I.total_le hV v
  unfold total at this
  split at this <;> omega

theorem hist_unique {H : Hist} (hn : (hnodes H).Nodup) {c c' : Nat × List Nat} (hc : c ∈ H) (hc' : c' ∈ H) {x : Nat}
    (hx : x ∈ c.2) (hx' : x ∈ c'.2) : c = c' := by
  by_contra hne
  unfold hnodes at hn
  rw [List.nodup_flatMap] at hn
  have hp := hn.2
  obtain ⟨i, hi, rfl⟩ := List.getElem_of_mem hc
  obtain ⟨j, hj, rfl⟩ := List.getElem_of_mem hc'
  rw [List.pairwise_iff_getElem] at hp
  rcases Nat.lt_trichotomy i j with h | h | h
  · exact hp i j hi hj h hx hx'
  · subst h; exact hne rfl
  · exact hp j i hj hi h hx' hx

/-! ### Counting the batches -/

theorem content_cons (c : Nat × List Nat) (H : Hist) (b : Nat) : content (c :: H) b = (if c.1 = b then c.2 else []) ++ content H b := by
  rw [show c :: H = [(c.1, c.2)] ++ H from rfl, content_append, content_single]

theorem contents_perm (H : Hist) (m : Nat) (hm : ∀ c ∈ H, c.1 < m) : ((List.range m).flatMap (content H)).Perm (hnodes H) := by
  rw [List.perm_iff_count]
  intro x
  rw [sum_count_flatMap]
  induction H with
  | nil => simp [content, hnodes]
  | cons c H ih =>
    have ih := ih (fun c hc => hm c (by simp [hc]))
    have hcm := hm c (by simp)
    simp only [content_cons, List.count_append]
    rw [Finset.sum_add_distrib, ih]
    have : hnodes (c :: H) = c.2 ++ hnodes H := rfl
    rw [this, List.count_append]
    congr 1
    rw [Finset.sum_eq_single c.1]
    · rw [if_pos rfl]
    · intro b _ hb
      rw [if_neg (fun h => hb h.symm)]; rfl
    · intro h; exact absurd (Finset.mem_range.2 hcm) h

theorem length_flatMap_ge (m : Nat) (f : Nat → List Nat) (h : ∀ b < m, f b ≠ []) : m ≤ ((List.range m).flatMap f).length := by
  induction m with
  | zero => simp
  | succ m ih =>
    rw [List.range_succ, List.flatMap_append, List.length_append]
    have h1 := ih (fun b hb => h b (by omega))
    have h2 := List.length_pos_iff.2 (h m (by omega))
    simp only [List.flatMap_cons, List.flatMap_nil, List.append_nil]
    omega

theorem Inv.hist_lt {s : St} {H : Hist} {m : Nat} (I : Inv t ch roots k mx T s H m) : ∀ c ∈ H, c.1 < m := by
  intro c hc
  obtain ⟨u, pre, rest, _, hne, _⟩ := I.hist c hc
  apply (I.mm c.1).1
  obtain ⟨x, hx⟩ := List.exists_mem_of_ne_nil _ hne
  exact List.ne_nil_of_mem (mem_content.2 ⟨c, hc, rfl, hx⟩)

theorem length_le_of_edges {l : List Nat} (hn : l.Nodup) (he : ∀ v ∈ l, Edge t k v)
    (hV : VersionOK t roots k) (hpos : 0 < t.n) : l.length + 1 ≤ t.n := by
  obtain ⟨i, hi⟩ := hV.acyclic 0 hpos
  have hr : t.par^[i] 0 < t.n := by
    clear hi
    induction i with
    | zero => exact hpos
    | succ i ih => rw [Function.iterate_succ_apply']; exact hV.par_lt _ ih
  have hsub : (t.par^[i] 0 :: l) ⊆ List.range t.n := by
    intro x hx
    rcases List.mem_cons.1 hx with rfl | hx
    · exact List.mem_range.2 hr
    · exact List.mem_range.2 (he x hx).1
  have hnd : (t.par^[i] 0 :: l).Nodup := by
    rw [List.nodup_cons]
    exact ⟨fun h => (he _ h).2.1 hi, hn⟩
  have := (hnd.subperm hsub).length_le
  simpa using this

theorem Inv.m_le {s : St} {H : Hist} {m : Nat} (I : Inv t ch roots k mx T s H m) : m ≤ (hnodes H).length := by
  rw [← (contents_perm H m I.hist_lt).length_eq]
  exact length_flatMap_ge m _ (fun b hb => (I.mm b).2 hb)

theorem Inv.m_lt (hV : VersionOK t roots k) (hpos : 0 < t.n) {s : St} {H : Hist} {m : Nat} (I : Inv t ch roots k mx T s H m) : m < t.n := by
  have := length_le_of_edges (I.hnodes_nodup hV) (fun v hv => I.hnodes_edge hV hv) hV hpos
  have := I.m_le
  omega

/-- the counters are never accessed out of range -/
theorem Inv.find_lt (hV : VersionOK t roots k) {s : St} {H : Hist} {m : Nat} (I : Inv t ch roots k mx T s H m) {i : Nat}
    (hi : i < T) {u : Nat} {g : List Nat} {idx : Nat} {hw : Bool} (hpc : (s.thr i).pc = .find u g idx hw) : idx < t.n := by
  have hp := (I.thr i hi).pc
  unfold PcInv at hp
  rw [hpc] at hp
  obtain ⟨⟨_, _, _, hne, _⟩, _, hm⟩ := hp
  have hcnt : ∀ v, (hnodes H ++ g).count v ≤ if Edge t k v then 1 else 0 := by
    intro v
    refine Nat.le_trans ?_ (I.total_le hV v)
    unfold total
    rw [List.count_append]
    apply Nat.add_le_add_left
    have := Finset.single_le_sum (f := fun i => (infl (s.thr i).pc).count v + (fr t k (s.thr i)).count v)
      (fun _ _ => Nat.zero_le _) (Finset.mem_range.2 hi)
    refine Nat.le_trans ?_ this
    simp only [hpc, infl]
    omega
  have hn : (hnodes H ++ g).Nodup := by
    rw [List.nodup_iff_count_le_one]
    intro v
    have := hcnt v
    split at this <;> omega
  have he : ∀ v ∈ hnodes H ++ g, Edge t k v := by
    intro v hv
    by_contra h
    have h1 := hcnt v
    rw [if_neg h] at h1
    have := List.count_pos_iff.2 hv
    omega
  obtain ⟨x, hx⟩ := List.exists_mem_of_ne_nil _ hne
  have hpos : 0 < t.n := by
    have := (he x (by simp [hx])).1
    omega
  have h1 := length_le_of_edges hn he hV hpos
  rw [List.length_append] at h1
  have h2 := I.m_le
  have h3 := List.length_pos_iff.2 hne
  omega

/-! ### `numberOfNonEmptyBatches` -/

theorem nonEmptyUp_eq {n m : Nat} {size : Nat → Nat} (h1 : ∀ b, size b > 0 ↔ b < m) (hm : m < n) :
    ∀ cur, cur ≤ m → nonEmptyUp n size cur = some m := by
  intro cur hcur
  induction hd : m - cur generalizing cur with
  | zero =>
    have : cur = m := by omega
    subst this
    rw [nonEmptyUp, if_pos hm, if_neg (by rw [h1]; omega)]
  | succ d ih =>
    rw [nonEmptyUp, if_pos (by omega), if_pos ((h1 cur).2 (by omega))]
    exact ih (cur + 1) (by omega) (by omega)

theorem numberOfNonEmptyBatches_eq {n m : Nat} {s : Sh} (h1 : ∀ b, s.size b > 0 ↔ b < m) (hm : m < n) (hh : s.hwm ≤ m) :
    numberOfNonEmptyBatches n s = some m := by
  unfold numberOfNonEmptyBatches
  rw [if_pos (by omega)]
  by_cases hz : s.size s.hwm = 0
  · rw [if_pos hz]
    have hwm : s.hwm = m := by
      have := h1 s.hwm
      omega
    rw [hwm]
    cases m with
    | zero =>
      have : ¬ s.size 0 > 0 := by rw [h1]; omega
      simp [nonEmptyDown, this]
    | succ m =>
      have h2 : s.size (m + 1) = 0 := by rw [← hwm]; exact hz
      have h3 : nonEmptyDown s.size (m + 1) = m := by
        show (if s.size (m + 1) = 0 then nonEmptyDown s.size m else m + 1) = m
        rw [if_pos h2]
        cases m with
        | zero => rfl
        | succ m =>
          show (if s.size (m + 1) = 0 then nonEmptyDown s.size m else m + 1) = m + 1
          have := (h1 (m + 1)).2 (by omega)
          rw [if_neg (by omega)]
      rw [h3, if_pos ((h1 m).2 (by omega))]
  · rw [if_neg hz]
    exact nonEmptyUp_eq h1 hm _ hh

/-! ### Writing -/

theorem writeAll_spec (tgt : Nat → List Memento) (m : Nat) : ∀ (ws : List Entry) (W : Nat → Nat → Prop) (bs : List (List Memento)),
    bs.length = m →
    (∀ b < m, ∃ row, bs[b]? = some row ∧ row.length = (tgt b).length ∧ ∀ p, W b p → row[p]? = (tgt b)[p]?) →
    (∀ e ∈ ws, e.idx < m ∧ (tgt e.idx)[e.pos]? = some (e.u, e.v)) →
    ∃ bs', writeAll ws bs = some bs' ∧ bs'.length = m ∧
      (∀ b < m, ∃ row, bs'[b]? = some row ∧ row.length = (tgt b).length ∧
        ∀ p, (W b p ∨ ∃ e ∈ ws, e.idx = b ∧ e.pos = p) → row[p]? = (tgt b)[p]?) := by
  intro ws
  induction ws with
  | nil =>
    intro W bs hl hr _
    refine ⟨bs, rfl, hl, ?_⟩
    intro b hb
    obtain ⟨row, h1, h2, h3⟩ := hr b hb
    refine ⟨row, h1, h2, ?_⟩
    intro p hp
    rcases hp with hp | ⟨e, he, _⟩
    · exact h3 p hp
    · simp at he
  | cons e ws ih =>
    intro W bs hl hr he
    obtain ⟨hi, hp⟩ := he e (by simp)
    obtain ⟨row, h1, h2, h3⟩ := hr e.idx hi
    have hpl : e.pos < (tgt e.idx).length := (List.getElem?_eq_some_iff.1 hp).1
    have hwe : writeEntry bs e = some (bs.set e.idx (row.set e.pos (e.u, e.v))) := by
      unfold writeEntry
      rw [h1]
      simp only
      rw [if_pos (by omega)]
    unfold writeAll
    rw [hwe]
    simp only
    obtain ⟨bs', g1, g2, g3⟩ := ih (fun b p => W b p ∨ (e.idx = b ∧ e.pos = p)) (bs.set e.idx (row.set e.pos (e.u, e.v)))
      (by rw [List.length_set]; exact hl)
      (by
        intro b hb
        by_cases hbe : e.idx = b
        · subst hbe
          refine ⟨row.set e.pos (e.u, e.v), ?_, by rw [List.length_set]; exact h2, ?_⟩
          · rw [List.getElem?_set_self (by omega)]
          · intro p hw
            by_cases hpe : e.pos = p
            · subst hpe
              rw [List.getElem?_set_self (by omega), hp]
            · rw [List.getElem?_set_ne hpe]
              rcases hw with hw | ⟨_, hw⟩
              · exact h3 p hw
              · exact absurd hw hpe
        · obtain ⟨row', r1, r2, r3⟩ := hr b hb
          refine ⟨row', by rw [List.getElem?_set_ne hbe]; exact r1, r2, ?_⟩
          intro p hw
          rcases hw with hw | ⟨hw, _⟩
          · exact r3 p hw
          · exact absurd hw hbe)
      (fun e he' => he e (by simp [he']))
    refine ⟨bs', g1, g2, ?_⟩
    intro b hb
    obtain ⟨row', r1, r2, r3⟩ := g3 b hb
    refine ⟨row', r1, r2, ?_⟩
    intro p hp'
    apply r3
    rcases hp' with h | ⟨e', he', h⟩
    · exact Or.inl (Or.inl h)
    · rcases List.mem_cons.1 he' with rfl | he'
      · exact Or.inl (Or.inr h)
      · exact Or.inr ⟨e', he', h⟩

/-- the mementos of batch `b` -/
def batchOf (t : CTree) (H : Hist) (b : Nat) : List Memento := (content H b).map (fun v => (t.par v, v))

theorem Inv.result (hV : VersionOK t roots k) (hpos : 0 < t.n) {s : St} {H : Hist} {m : Nat} (I : Inv t ch roots k mx T s H m)
    (hd : Done T s) {ws : List Entry} (hw : ws.Perm ((List.range T).flatMap (fun i => (s.thr i).asg))) :
    writeBatches t.n s.sh ws = some (((List.range m).map (batchOf t H)).reverse) := by
  have hsize : ∀ b, s.sh.size b = (content H b).length := by
    intro b
    have h1 := I.sizes b
    have h2 : ∑ i ∈ Finset.range T, pendSize b (s.thr i).pc = 0 := by
      apply Finset.sum_eq_zero
      intro i hi
      rw [(hd i (Finset.mem_range.1 hi)).1]; rfl
    omega
  have hm := I.m_lt hV hpos
  have hnum : numberOfNonEmptyBatches t.n s.sh = some m := by
    apply numberOfNonEmptyBatches_eq _ hm I.hw
    intro b
    rw [hsize, ← I.mm b]
    exact List.length_pos_iff
  unfold writeBatches
  rw [hnum]
  simp only
  have hent : ∀ e ∈ ws, e.idx < m ∧ (batchOf t H e.idx)[e.pos]? = some (e.u, e.v) := by
    intro e he
    have he' := hw.mem_iff.1 he
    rw [List.mem_flatMap] at he'
    obtain ⟨i, hi, he'⟩ := he'
    obtain ⟨h1, h2⟩ := (I.thr i (List.mem_range.1 hi)).ent e he'
    refine ⟨?_, ?_⟩
    · apply (I.mm e.idx).1
      intro h; rw [h] at h1; simp at h1
    · unfold batchOf
      rw [List.getElem?_map, h1, h2]
      rfl
  obtain ⟨bs', g1, g2, g3⟩ := writeAll_spec (batchOf t H) m ws (fun _ _ => False)
    ((List.range m).map (fun b => List.replicate (s.sh.size b) (kInvalid, kInvalid)))
    (by simp)
    (by
      intro b hb
      refine ⟨List.replicate (s.sh.size b) (kInvalid, kInvalid), ?_, ?_, ?_⟩
      · rw [List.getElem?_map, List.getElem?_range hb]; rfl
      · simp [batchOf, hsize]
      · intro p h; exact h.elim)
    hent
  rw [g1]
  simp only
  have hbs : bs' = (List.range m).map (batchOf t H) := by
    apply List.ext_getElem?
    intro b
    by_cases hb : b < m
    · obtain ⟨row, r1, r2, r3⟩ := g3 b hb
      rw [r1, List.getElem?_map, List.getElem?_range hb]
      simp only [Option.map_some, Option.some.injEq]
      apply List.ext_getElem?
      intro p
      by_cases hp : p < (content H b).length
      · apply r3
        right
        obtain ⟨i, hi, hc⟩ := I.cover b p hp
        rcases hc with ⟨e, he, h⟩ | ⟨u, g, pos, h, _⟩
        · exact ⟨e, hw.mem_iff.2 (List.mem_flatMap.2 ⟨i, List.mem_range.2 hi, he⟩), h⟩
        · rw [(hd i hi).1] at h; simp [pend] at h
      · rw [List.getElem?_eq_none (by rw [r2]; simp [batchOf]; omega), List.getElem?_eq_none (by simp [batchOf]; omega)]
    · rw [List.getElem?_eq_none (by omega), List.getElem?_eq_none (by simp; omega)]
  rw [hbs]
  congr 1
  rw [List.dropWhile_eq_self_iff]
  intro hl
  rw [Bool.not_eq_true, List.isEmpty_eq_false_iff]
  have hmem : (((List.range m).map (batchOf t H)).reverse)[0] ∈ ((List.range m).map (batchOf t H)).reverse := List.getElem_mem _
  generalize (((List.range m).map (batchOf t H)).reverse)[0] = x at hmem
  rw [List.mem_reverse, List.mem_map] at hmem
  obtain ⟨b, hb, rfl⟩ := hmem
  have := (I.mm b).2 (List.mem_range.1 hb)
  unfold batchOf
  simpa using this

end Uncontract
end Verif
