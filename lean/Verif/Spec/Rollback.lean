import Verif.Spec.Moves
import Verif.Props.C10
/-!
# Specification: rollback to the best prefix
-/
namespace Verif

/-- all blocks respect their weight limits -/
def HG.Balanced (H : HG) (k : Nat) (Wmax : Nat → Int) (Φ : Assign) : Prop := ∀ b < k, H.blockWeight Φ b ≤ Wmax b

/-- `Ψ` is the partition after the first `best` moves of `ms`, `gain` is the improvement of the objective
compared to the start `Φ`; the prefix is empty or balanced, and at least as good as the empty prefix and
as every balanced prefix. -/
structure BestPrefixOf (H : HG) (k : Nat) (o : Metrics.Obj) (Φ : Assign) (ms : List FMMove) (Wmax : Nat → Int)
    (best : Nat) (gain : Int) (Ψ : Assign) : Prop where
  result : Ψ = applyMoves Φ (ms.take best)
  improvement : gain = H.objective Φ o - H.objective Ψ o
  nonneg : 0 ≤ gain
  balanced : best = 0 ∨ H.Balanced k Wmax Ψ
  initial : H.objective Ψ o ≤ H.objective Φ o
  optimal : ∀ i ≤ ms.length, H.Balanced k Wmax (applyMoves Φ (ms.take i)) →
    H.objective Ψ o ≤ H.objective (applyMoves Φ (ms.take i)) o

end Verif
