import Verif.Model.ConnectivityInfo
import Verif.Props.C07
import Verif.Props.C08
import Verif.Props.C09
namespace Verif

/-- What `PartitionedHypergraph` relies on: an abstraction relation `R` to a plain table for
`m` hyperedges, `k` blocks and entries bounded by `mx`, preserved by the composed updates. -/
structure ConInfo.Lawful {σ : Type} (C : ConInfo σ) (m k mx : Nat) where
  R : σ → Table → Prop
  pinCount_eq : ∀ {s T e b}, R s T → e < m → b < k → C.pinCount s e b = T e b
  contains_eq : ∀ {s T e b}, R s T → e < m → b < k → C.contains s e b = decide (0 < T e b)
  connSet_nodup : ∀ {s T e}, R s T → e < m → (C.connSet s e).Nodup
  connSet_mem : ∀ {s T e}, R s T → e < m → ∀ b, b ∈ C.connSet s e ↔ b < k ∧ 0 < T e b
  connectivity_eq : ∀ {s T e}, R s T → e < m → C.connectivity s e = (C.connSet s e).length
  incBlock : ∀ {s T e b}, R s T → e < m → b < k → T e b + 1 ≤ mx →
    (C.incBlock s e b).1 = T e b + 1 ∧ R (C.incBlock s e b).2 (T.upd e b (T e b + 1))
  decBlock : ∀ {s T e b}, R s T → e < m → b < k → 0 < T e b →
    (C.decBlock s e b).1 = T e b - 1 ∧ R (C.decBlock s e b).2 (T.upd e b (T e b - 1))
  fill : ∀ {s T e b v}, R s T → e < m → b < k → T e b = 0 → 0 < v → v ≤ mx →
    R (C.setPC (C.addBlock s e b) e b v) (T.upd e b v) ∧
    R (C.addBlock (C.setPC s e b v) e b) (T.upd e b v)
  reset : ∀ {s T}, R s T → R (C.reset s) (fun _ _ => 0)

/-- Relation between the connectivity bit sets and the table. -/
def ConnSets.Repr (k m : Nat) (s : ConnSets) (T : Table) : Prop :=
  s.blocks = (ConnSets.init k).blocks ∧
  (∀ e p, e < m → p < k → s.contains e p = decide (0 < T e p)) ∧
  (∀ e p, e < m → k ≤ p → p / 64 < s.blocks → s.contains e p = false)

theorem ConnSets.Repr.div_lt {k m : Nat} {s : ConnSets} {T : Table} (h : s.Repr k m T) {p : Nat}
    (hp : p < k) : p / 64 < s.blocks := by rw [h.1]; exact ConnSets.div_lt hp

theorem ConnSets.Repr.connSet {k m : Nat} {s : ConnSets} {T : Table} (h : s.Repr k m T) {e : Nat}
    (he : e < m) : s.connSet e = (List.range k).filter (fun b => decide (0 < T e b)) := by
  rw [ConnSets.connSet_eq]
  have hle := ConnSets.init_blocks_le k
  rw [← h.1] at hle
  obtain ⟨d, hd⟩ : ∃ d, s.blocks * 64 = k + d := ⟨s.blocks * 64 - k, by omega⟩
  rw [hd, List.range_add, List.filter_append]
  have : (List.map (fun x => k + x) (List.range d)).filter (s.contains e) = [] := by
    rw [List.filter_eq_nil_iff]
    intro p hp
    rw [List.mem_map] at hp
    obtain ⟨x, hx, rfl⟩ := hp
    rw [List.mem_range] at hx
    rw [h.2.2 e _ he (by omega) (by omega)]; simp
  rw [this, List.append_nil]
  apply List.filter_congr
  intro p hp; rw [List.mem_range] at hp
  exact h.2.1 e p he hp

theorem ConnSets.Repr.same {k m : Nat} {s : ConnSets} {T T' : Table} (h : s.Repr k m T)
    (h' : ∀ e b, e < m → b < k → (0 < T' e b ↔ 0 < T e b)) : s.Repr k m T' :=
  ⟨h.1, fun e p he hp => by rw [h.2.1 e p he hp]; simp [h' e p he hp], h.2.2⟩

theorem ConnSets.Repr.toggle {k m : Nat} {s : ConnSets} {T T' : Table} (h : s.Repr k m T)
    {e b : Nat} (_he : e < m) (hb : b < k)
    (h' : ∀ e' b', e' < m → b' < k → (0 < T' e' b' ↔ if e' = e ∧ b' = b then ¬ 0 < T e b else 0 < T e' b')) :
    (s.toggle e b).Repr k m T' := by
  have hbl := h.div_lt hb
  refine ⟨h.1, ?_, ?_⟩
  · intro e' p he' hp
    rw [ConnSets.toggle_contains s hbl (h.div_lt hp)]
    have h2 := h' e' p he' hp
    by_cases hc : e' = e ∧ p = b
    · rw [if_pos hc] at h2 ⊢
      obtain ⟨rfl, rfl⟩ := hc
      rw [h.2.1 _ _ he' hp]
      by_cases h0 : 0 < T e' p <;> simp [h0] at h2 ⊢ <;> omega
    · rw [if_neg hc] at h2 ⊢
      rw [h.2.1 e' p he' hp]; simp [h2]
  · intro e' p he' hp hpb
    rw [ConnSets.toggle_contains s hbl hpb, if_neg (by omega)]
    exact h.2.2 e' p he' hp hpb

/-- The dense structure satisfies the laws. -/
def denseLawful (m k mx : Nat) : denseCon.Lawful m k mx where
  R s T := s.1.Repr m k mx T ∧ s.2.Repr k m T
  pinCount_eq h he hb := (h.1.2.2.2.2 _ _ he hb).1
  contains_eq h he hb := h.2.2.1 _ _ he hb
  connSet_nodup h he := by
    show (ConnSets.connSet _ _).Nodup
    rw [h.2.connSet he]; exact List.nodup_range.filter _
  connSet_mem h he b := by
    show b ∈ ConnSets.connSet _ _ ↔ _
    rw [h.2.connSet he, List.mem_filter, List.mem_range]; simp
  connectivity_eq h he := ConnSets.connectivity_eq _ _
  incBlock := by
    intro s T e b h he hb hle
    obtain ⟨hp, hc⟩ := h
    obtain ⟨h1, h2⟩ := Packed.repr_exec hp (o := .incr e b) ⟨he, hb, hle⟩
    simp only [Packed.exec, PCOp.result, PCOp.apply] at h1 h2
    refine ⟨h1, ?_⟩
    simp only [ConInfo.incBlock, denseCon, h1]
    by_cases h0 : T e b = 0
    · rw [if_pos (by omega)]
      refine ⟨h2, hc.toggle he hb ?_⟩
      intro e' b' _ _
      unfold Table.upd
      by_cases hcc : e' = e ∧ b' = b
      · rw [if_pos hcc, if_pos hcc]; omega
      · rw [if_neg hcc, if_neg hcc]
    · rw [if_neg (by omega)]
      refine ⟨h2, hc.same ?_⟩
      intro e' b' _ _
      unfold Table.upd
      by_cases hcc : e' = e ∧ b' = b
      · rw [if_pos hcc]; obtain ⟨rfl, rfl⟩ := hcc; omega
      · rw [if_neg hcc]
  decBlock := by
    intro s T e b h he hb hle
    obtain ⟨hp, hc⟩ := h
    obtain ⟨h1, h2⟩ := Packed.repr_exec hp (o := .decr e b) ⟨he, hb, hle⟩
    simp only [Packed.exec, PCOp.result, PCOp.apply] at h1 h2
    refine ⟨h1, ?_⟩
    simp only [ConInfo.decBlock, denseCon, h1]
    by_cases h0 : T e b = 1
    · rw [if_pos (by omega)]
      refine ⟨h2, hc.toggle he hb ?_⟩
      intro e' b' _ _
      unfold Table.upd
      by_cases hcc : e' = e ∧ b' = b
      · rw [if_pos hcc, if_pos hcc]; omega
      · rw [if_neg hcc, if_neg hcc]
    · rw [if_neg (by omega)]
      refine ⟨h2, hc.same ?_⟩
      intro e' b' _ _
      unfold Table.upd
      by_cases hcc : e' = e ∧ b' = b
      · rw [if_pos hcc]; obtain ⟨rfl, rfl⟩ := hcc; omega
      · rw [if_neg hcc]
  fill := by
    intro s T e b v h he hb h0 hv hle
    obtain ⟨hp, hc⟩ := h
    have h1 := Packed.repr_set (e := e) hp hb hle
    have h2 : (s.2.toggle e b).Repr k m (T.upd e b v) := by
      apply hc.toggle he hb
      intro e' b' _ _
      unfold Table.upd
      by_cases hcc : e' = e ∧ b' = b
      · rw [if_pos hcc, if_pos hcc]; omega
      · rw [if_neg hcc, if_neg hcc]
    exact ⟨⟨h1, h2⟩, ⟨h1, h2⟩⟩
  reset := by
    intro s T h
    obtain ⟨⟨hok, hm, hk, hmx, _⟩, hc⟩ := h
    refine ⟨⟨⟨hok.kpos, hok.maxpos, hok.maxlt, hok.hbits, hok.hentries, hok.hvalues, hok.hmask,
      hok.hsize⟩, hm, hk, hmx, ?_⟩, hc.1, ?_, ?_⟩
    · intro e b _ _; simp [denseCon, Packed.get, Packed.reset]
    · intro e p _ _; simp [denseCon, ConnSets.contains, ConnSets.reset]
    · intro e p _ _ _; simp [denseCon, ConnSets.contains, ConnSets.reset]

theorem denseInit_R {m k mx : Nat} (hk : 0 < k) (h0 : 0 < mx) (h1 : mx + 1 < 2 ^ 32) :
    (denseLawful m k mx).R (denseInit m k mx) (fun _ _ => 0) :=
  ⟨Packed.repr_init hk h0 h1, rfl, fun e p _ _ => by simp [denseInit, ConnSets.init_contains],
    fun e p _ _ _ => by simp [denseInit, ConnSets.init_contains]⟩

/-- The sparse structure satisfies the laws. -/
def sparseLawful (m k mx : Nat) : sparseCon.Lawful m k mx where
  R s T := s.Repr k T
  pinCount_eq h _ hb := SRow.get_eq (h.2 _) hb
  contains_eq h _ hb := SRow.contains_eq (h.2 _) hb
  connSet_nodup := by intro s T e h _; simp only [sparseCon]; rw [h.1]; exact (SRow.connSet_eq (h.2 _)).1
  connSet_mem := by intro s T e h _ b; simp only [sparseCon]; rw [h.1]; exact (SRow.connSet_eq (h.2 _)).2.1 b
  connectivity_eq := by intro s T e h _; simp only [sparseCon]; rw [h.1]; exact (SRow.connSet_eq (h.2 _)).2.2.symm
  incBlock := by
    intro s T e b h _ hb _
    have := SparsePC.repr_exec h (o := .incr e b) hb
    refine ⟨this.1, ?_⟩
    show SparsePC.Repr k (ite _ (s.setRow e ((s.rows e).incr b).2) (s.setRow e ((s.rows e).incr b).2)) _
    rw [ite_self]
    exact this.2
  decBlock := by
    intro s T e b h _ hb h0
    have := SparsePC.repr_exec h (o := .decr e b) ⟨hb, h0⟩
    refine ⟨this.1, ?_⟩
    show SparsePC.Repr k (ite _ (s.setRow e ((s.rows e).decr b).2) (s.setRow e ((s.rows e).decr b).2)) _
    rw [ite_self]
    exact this.2
  fill := by
    intro s T e b v h _ hb h0 hv _
    have := (SparsePC.repr_exec h (o := .fill e b v) ⟨hb, h0, hv⟩).2
    exact ⟨this, this⟩
  reset := by
    intro s T h
    exact (SparsePC.repr_exec h (o := .reset) trivial).2

theorem sparseInit_R (m k mx : Nat) : (sparseLawful m k mx).R (SparsePC.init k) (fun _ _ => 0) :=
  ⟨rfl, fun _ => SRow.init_good⟩

end Verif
