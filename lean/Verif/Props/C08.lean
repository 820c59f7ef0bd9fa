import Verif.Lemmas.Sparse
/-!
# C08  The sparse (LARGE_K) pin count lists behave like the plain table
-/
namespace Verif

/-- Operations on the sparse structure.  `fill e b v` is `setPinCountInPart`, which the code
uses only for a block without entry. -/
inductive SOp where
  | fill (e b v : Nat)
  | incr (e b : Nat)
  | decr (e b : Nat)
  | clear (e : Nat)
  | reset

/-- Specification on the plain table. -/
def SOp.apply (T : Table) : SOp → Table
  | .fill e b v => T.upd e b v
  | .incr e b => T.upd e b (T e b + 1)
  | .decr e b => T.upd e b (T e b - 1)
  | .clear e => fun e' b' => if e' = e then 0 else T e' b'
  | .reset => fun _ _ => 0

/-- Returned number. -/
def SOp.result (T : Table) : SOp → Nat
  | .incr e b => T e b + 1
  | .decr e b => T e b - 1
  | _ => 0

/-- Caller contract. -/
def SOp.Legal (k : Nat) (T : Table) : SOp → Prop
  | .fill e b v => b < k ∧ T e b = 0 ∧ 0 < v
  | .incr _ b => b < k
  | .decr e b => b < k ∧ 0 < T e b
  | _ => True

def SOp.AllLegal (k : Nat) : Table → List SOp → Prop
  | _, [] => True
  | T, o :: os => o.Legal k T ∧ AllLegal k (o.apply T) os

def SOp.results : Table → List SOp → List Nat
  | _, [] => []
  | T, o :: os => o.result T :: results (o.apply T) os

/-- Dispatch to the model of sparse_pin_counts.h:247-250, 303-361, 393-403. -/
def SparsePC.exec (s : SparsePC) : SOp → Nat × SparsePC
  | .fill e b v => (0, s.setRow e ((s.rows e).add b v))
  | .incr e b => let x := (s.rows e).incr b; (x.1, s.setRow e x.2)
  | .decr e b => let x := (s.rows e).decr b; (x.1, s.setRow e x.2)
  | .clear e => (0, s.setRow e (SRow.init (min s.k SRow.maxEntries)))
  | .reset => (0, SparsePC.init s.k)

def SparsePC.execAll (s : SparsePC) : List SOp → List Nat × SparsePC
  | [] => ([], s)
  | o :: os =>
    let r := s.exec o
    let rs := r.2.execAll os
    (r.1 :: rs.1, rs.2)

def SparsePC.Repr (k : Nat) (s : SparsePC) (T : Table) : Prop :=
  s.k = k ∧ ∀ e, SRow.Good k (s.rows e) (T e)

theorem SparsePC.repr_setRow {k : Nat} {s : SparsePC} {T : Table} (h : s.Repr k T) {e : Nat}
    {r : SRow} {t : Nat → Nat} (hr : SRow.Good k r t) :
    (s.setRow e r).Repr k (fun e' => if e' = e then t else T e') := by
  refine ⟨h.1, ?_⟩
  intro e'
  unfold setRow; simp only []
  by_cases he : e' = e
  · simp only [he, if_true]; exact hr
  · simp only [he, if_false]; exact h.2 e'

theorem Table.upd_row (T : Table) (e b v : Nat) :
    T.upd e b v = fun e' => if e' = e then (fun b' => if b' = b then v else T e b') else T e' := by
  funext e' b'
  unfold Table.upd
  by_cases h1 : e' = e
  · subst h1; by_cases h2 : b' = b <;> simp [h2]
  · simp [h1]

theorem SparsePC.repr_exec {k : Nat} {s : SparsePC} {T : Table} (h : s.Repr k T) {o : SOp}
    (hl : o.Legal k T) : (s.exec o).1 = o.result T ∧ (s.exec o).2.Repr k (o.apply T) := by
  cases o with
  | fill e b v =>
    refine ⟨rfl, ?_⟩
    simp only [exec, SOp.apply, Table.upd_row]
    exact repr_setRow h (SRow.add_good (h.2 e) hl.1 hl.2.1 hl.2.2)
  | incr e b =>
    obtain ⟨h1, h2⟩ := SRow.incr_good (h.2 e) (p := b) hl
    refine ⟨h1, ?_⟩
    simp only [exec, SOp.apply, Table.upd_row]
    exact repr_setRow h h2
  | decr e b =>
    obtain ⟨h1, h2⟩ := SRow.decr_good (h.2 e) (p := b) hl.1 hl.2
    refine ⟨h1, ?_⟩
    simp only [exec, SOp.apply, Table.upd_row]
    exact repr_setRow h h2
  | clear e =>
    refine ⟨rfl, ?_⟩
    have := repr_setRow (e := e) h (SRow.init_good (k := k))
    simp only [exec, SOp.apply, h.1]
    have e2 : (fun e' b' => if e' = e then 0 else T e' b') =
        (fun e' => if e' = e then (fun _ => 0) else T e') := by
      funext e' b'; by_cases he : e' = e <;> simp [he]
    rw [e2]; exact this
  | reset =>
    refine ⟨rfl, h.1, fun e => ?_⟩
    simp only [exec, SparsePC.init, h.1]
    exact SRow.init_good

theorem SparsePC.repr_execAll {k : Nat} (os : List SOp) : ∀ {s : SparsePC} {T : Table},
    s.Repr k T → SOp.AllLegal k T os →
    (s.execAll os).1 = SOp.results T os ∧ (s.execAll os).2.Repr k (os.foldl SOp.apply T) := by
  induction os with
  | nil => intro s T h _; exact ⟨rfl, h⟩
  | cons o os ih =>
    intro s T h hl
    obtain ⟨h1, h2⟩ := repr_exec h hl.1
    obtain ⟨h3, h4⟩ := ih h2 hl.2
    exact ⟨by simp only [execAll, SOp.results, h1, h3], h4⟩

/-- **C08.** For every `k` and every legal history (including those in which a hyperedge
overflows from the 8 inline entries to the external list and shrinks again), the sparse
structure returns the same numbers as the plain table; afterwards pin count, containment,
connectivity and the connectivity set (each block once) are those of the table. -/
theorem C08_sparse_refines_table (k : Nat) (os : List SOp)
    (hl : SOp.AllLegal k (fun _ _ => 0) os) :
    let s := ((SparsePC.init k).execAll os).2
    let T := os.foldl SOp.apply (fun _ _ => 0)
    ((SparsePC.init k).execAll os).1 = SOp.results (fun _ _ => 0) os ∧
    ∀ e, (∀ b, b < k → (s.rows e).get b = T e b ∧
                        (s.rows e).contains b = decide (0 < T e b)) ∧
      ((s.rows e).connSet k).Nodup ∧
      (∀ b, b ∈ (s.rows e).connSet k ↔ b < k ∧ 0 < T e b) ∧
      (s.rows e).conn = ((List.range k).filter (fun b => 0 < T e b)).length := by
  intro s T
  obtain ⟨h1, h2⟩ := SparsePC.repr_execAll os
    (⟨rfl, fun _ => SRow.init_good⟩ : (SparsePC.init k).Repr k (fun _ _ => 0)) hl
  refine ⟨h1, fun e => ?_⟩
  obtain ⟨c1, c2, c3⟩ := SRow.connSet_eq (h2.2 e)
  refine ⟨fun b hb => ⟨SRow.get_eq (h2.2 e) hb, SRow.contains_eq (h2.2 e) hb⟩, c1, c2, ?_⟩
  show (((SparsePC.init k).execAll os).2.rows e).conn = _
  rw [← c3]
  apply List.Perm.length_eq
  rw [List.perm_ext_iff_of_nodup c1 (List.nodup_range.filter _)]
  intro b
  rw [c2, List.mem_filter, List.mem_range]
  simp [T]

/-- A history with 9 blocks in one hyperedge (overflow) followed by removals meets the
hypotheses. -/
example : SOp.AllLegal 12 (fun _ _ => 0)
    ((List.range 9).map (fun b => SOp.incr 0 b) ++ [.incr 0 8, .decr 0 0, .decr 0 8, .fill 1 3 2]) := by
  simp [SOp.AllLegal, SOp.Legal, SOp.apply, Table.upd, List.range_succ]

example : (((SparsePC.init 12).execAll
    ((List.range 9).map (fun b => SOp.incr 0 b) ++ [.decr 0 0])).2.rows 0).ext = true := by decide

end Verif
