import Mathlib.Logic.Function.Iterate
/-!
# Specification: contraction forests and uncontraction schedules (independent of the model)
-/
namespace Verif
namespace Schedule

/-- A history of contractions: node `v` was contracted onto `par v` (`par v = v`: never contracted)
while the hypergraph had version `ver v`, during the time interval `[start v, stop v]`. -/
structure Forest where
  n : Nat
  par : Nat → Nat
  ver : Nat → Nat
  start : Nat → Nat
  stop : Nat → Nat

/-- `v` was contracted -/
def Forest.Contracted (F : Forest) (v : Nat) : Prop := v < F.n ∧ F.par v ≠ v

/-- the contractions of `v` and `w` were running at the same time -/
def Forest.Overlap (F : Forest) (v w : Nat) : Prop := F.start v ≤ F.stop w ∧ F.start w ≤ F.stop v

/-- `l` consists of siblings, and cannot be split into two parts of a sequence without two
contractions that ran at the same time -/
def Forest.Simultaneous (F : Forest) (l : List (Nat × Nat)) : Prop :=
  (∃ u, ∀ m ∈ l, m.1 = u) ∧
  ∀ a b, l = a ++ b → a ≠ [] → b ≠ [] → ∃ x ∈ a, ∃ y ∈ b, F.Overlap x.2 y.2

/-- `B` is a correct list of batches for the contractions of version `k`. The batches are
uncontracted from the last one to the first one. A memento `(u, v)` undoes the contraction of `v`
onto `u`. -/
structure Forest.Valid (F : Forest) (k mx : Nat) (B : List (List (Nat × Nat))) : Prop where
  /-- every contraction of the version exactly once, and nothing else -/
  nodup : B.flatten.Nodup
  exact : ∀ u v, (u, v) ∈ B.flatten ↔ F.Contracted v ∧ F.par v = u ∧ F.ver v = k
  /-- no empty batch -/
  nonempty : ∀ b ∈ B, b ≠ []
  /-- a node is split off after the node that contains it is present -/
  parentFirst : ∀ (i j : Nat) (bi bj : List (Nat × Nat)) (u v w : Nat), B[i]? = some bi → B[j]? = some bj →
    (u, v) ∈ bi → (v, w) ∈ bj → j < i
  /-- contractions onto the same node that ran at the same time are undone in the same batch -/
  together : ∀ (i j : Nat) (bi bj : List (Nat × Nat)) (u v w : Nat), B[i]? = some bi → B[j]? = some bj →
    (u, v) ∈ bi → (u, w) ∈ bj → F.Overlap v w → i = j
  /-- contractions onto the same node are undone in reverse order of time -/
  reverse : ∀ (i j : Nat) (bi bj : List (Nat × Nat)) (u v w : Nat), B[i]? = some bi → B[j]? = some bj →
    (u, v) ∈ bi → (u, w) ∈ bj → F.stop w < F.stop v → j ≤ i
  /-- the size of a batch exceeds the limit only by its last group of simultaneous contractions -/
  size : ∀ b ∈ B, ∃ pre grp, b = pre ++ grp ∧ pre.length < mx ∧ F.Simultaneous grp

/-- What the contraction phase guarantees: parents exist, following parents ends at a node that was
never contracted, a node is contracted in a version not later than the node it was contracted onto,
and the time intervals are proper. -/
structure Forest.Wf (F : Forest) (numVersions : Nat) : Prop where
  par_lt : ∀ v < F.n, F.par v < F.n
  acyclic : ∀ v < F.n, ∃ i, F.par (F.par^[i] v) = F.par^[i] v
  ver_lt : ∀ v, F.Contracted v → F.ver v < numVersions
  ver_le : ∀ v, F.Contracted v → F.Contracted (F.par v) → F.ver v ≤ F.ver (F.par v)
  interval : ∀ v, F.Contracted v → F.start v ≤ F.stop v

end Schedule
end Verif
