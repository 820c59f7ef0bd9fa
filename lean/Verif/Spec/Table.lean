/-!
# Specification: a plain table of pin counts

`T e b` is the number stored for hyperedge `e` and block `b`.  Nothing here refers to
words, bits, masks, lists of entries or connectivity bit sets.
-/
namespace Verif

/-- A plain two-dimensional table of numbers. -/
abbrev Table := Nat → Nat → Nat

/-- The table with entry `(e, b)` replaced by `v`. -/
def Table.upd (T : Table) (e b v : Nat) : Table :=
  fun e' b' => if e' = e ∧ b' = b then v else T e' b'

/-- The operations a client performs on a pin count structure. -/
inductive PCOp where
  | set (e b v : Nat)
  | incr (e b : Nat)
  | decr (e b : Nat)

/-- Effect of an operation on the plain table. -/
def PCOp.apply (T : Table) : PCOp → Table
  | .set e b v => T.upd e b v
  | .incr e b => T.upd e b (T e b + 1)
  | .decr e b => T.upd e b (T e b - 1)

/-- Number returned by an operation (`set` returns nothing, represented by 0). -/
def PCOp.result (T : Table) : PCOp → Nat
  | .set _ _ _ => 0
  | .incr e b => T e b + 1
  | .decr e b => T e b - 1

/-- An operation is legal for `m` hyperedges, `k` blocks and maximum value `mx`: indices
exist, the stored value does not exceed the maximum, a zero entry is not decremented. -/
def PCOp.Legal (m k mx : Nat) (T : Table) : PCOp → Prop
  | .set e b v => e < m ∧ b < k ∧ v ≤ mx
  | .incr e b => e < m ∧ b < k ∧ T e b + 1 ≤ mx
  | .decr e b => e < m ∧ b < k ∧ 0 < T e b

/-- Every operation of the history is legal in the state it is executed in. -/
def PCOp.AllLegal (m k mx : Nat) : Table → List PCOp → Prop
  | _, [] => True
  | T, o :: os => o.Legal m k mx T ∧ AllLegal m k mx (o.apply T) os

/-- The table after a history. -/
def PCOp.run (T : Table) (os : List PCOp) : Table := os.foldl PCOp.apply T

/-- The numbers returned along a history. -/
def PCOp.results : Table → List PCOp → List Nat
  | _, [] => []
  | T, o :: os => o.result T :: results (o.apply T) os

end Verif
