import Verif.Spec.Ieee
/-!
# Model: balance constraint

Models `Context::setupPartWeights` (partition/context.cpp:345-386), `metrics::imbalance` and
`metrics::isBalanced` (partition/metrics.cpp:147-177).  `double` values are rationals, `fl` is the
rounding applied to the result of every operation.  `int` values are unbounded integers; infinities and
NaN (total weight 0, or weights that do not fit) are not modelled.
-/
namespace Verif.Balance

/-- conversion of a `double` to an integer: truncation -/
def toInt (x : ℚ) : ℤ := if 0 ≤ x then ⌊x⌋ else ⌈x⌉

/-- `partition.perfect_balance_part_weights`, `partition.max_part_weights`, `partition.epsilon` -/
structure PartWeights where
  perfect : List ℤ
  maxw : List ℤ
  eps : ℚ

/-- context.cpp:369-385 (no individual block weights) -/
def setupUniform (fl : ℚ → ℚ) (k : ℕ) (eps : ℚ) (total : ℤ) : PartWeights :=
  let P : ℤ := toInt ⌈fl (total / k)⌉
  let M : ℤ := toInt (fl (fl (1 + eps) * P))
  ⟨P :: List.replicate (k - 1) P, M :: List.replicate (k - 1) M, eps⟩

/-- `std::numeric_limits`-free part: context.cpp:347-368 (individual block weights `ws`); `none`: an
`InvalidInputException` is thrown.  The rounding of the literal `0.99` is `fl 0.99`. -/
def setupIndividual (fl : ℚ → ℚ) (ws : List ℤ) (total : ℤ) : Option PartWeights :=
  let sum := ws.sum
  let frac := fl (total / sum)
  let perfect := ws.map (fun (w : ℤ) => toInt ⌈fl (frac * w)⌉)
  let psum := perfect.sum
  if sum < total then none
  else some ⟨perfect, ws, min (fl (99 / 100)) (fl (fl (sum / (max psum 1 : ℤ)) - 1))⟩

/-- `metrics::imbalance` (metrics.cpp:163-177) -/
def imbalance (fl : ℚ → ℚ) (k : ℕ) (w : ℕ → ℤ) (perfect : List ℤ) : ℚ :=
  fl ((List.range' 1 (k - 1)).foldl (fun m i => max m (fl (w i / perfect.getD i 0))) (fl (w 0 / perfect.getD 0 0)) - 1)

/-- loop of `metrics::isBalanced` (metrics.cpp:149-157): `none` if a block is too heavy, otherwise the
number of empty blocks -/
def balanceLoop (w : ℕ → ℤ) (maxw : List ℤ) : List ℕ → ℕ → Option ℕ
  | [], e => some e
  | i :: is, e => if w i > maxw.getD i 0 then none else balanceLoop w maxw is (if w i = 0 then e + 1 else e)

/-- `metrics::isBalanced` (metrics.cpp:147-160) -/
def isBalanced (k : ℕ) (w : ℕ → ℤ) (maxw : List ℤ) (largeK : Bool) (removed : ℕ) : Bool :=
  match balanceLoop w maxw (List.range k) 0 with
  | none => false
  | some e => largeK || decide (e ≤ removed)

end Verif.Balance
