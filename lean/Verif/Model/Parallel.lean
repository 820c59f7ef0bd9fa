import Verif.Model.Maps
import Mathlib.Logic.Relation
/-!
# Model: parallel loops as interleavings of single steps

A `tbb::parallel_for` over the iterations `us`: every iteration is a small program given by a transition function
`next u : π → σ → Option (π × σ)` on its program counter `π` and the shared state `σ` (one shared access per step).
The iterations interleave arbitrarily (sequentially consistent memory); the loop has ended when all iterations have
reached the program counter `fin`. Every assignment of iterations to threads is one of these interleavings.
-/
namespace Verif
namespace Par
open SMap (wr)

/-- shared state and program counters of a parallel loop -/
structure PSt (σ π : Type) where
  s : σ
  pc : Nat → π

/-- one step of one iteration `u` of the loop -/
inductive Step {σ π : Type} (next : Nat → π → σ → Option (π × σ)) (us : List Nat) : PSt σ π → PSt σ π → Prop
  | mk (x : PSt σ π) (u : Nat) (hu : u ∈ us) (p : π) (s' : σ) (h : next u (x.pc u) x.s = some (p, s')) :
      Step next us x ⟨s', wr x.pc u p⟩

/-- the states reached by the loop -/
def Reach {σ π : Type} (next : Nat → π → σ → Option (π × σ)) (us : List Nat) (start : π) (s : σ) (x : PSt σ π) : Prop :=
  Relation.ReflTransGen (Step next us) ⟨s, fun _ => start⟩ x

/-- the loop, started in state `s`, can end in state `s'` -/
def For {σ π : Type} (next : Nat → π → σ → Option (π × σ)) (us : List Nat) (start fin : π) (s s' : σ) : Prop :=
  ∃ x : PSt σ π, Reach next us start s x ∧ (∀ u ∈ us, x.pc u = fin) ∧ x.s = s'

end Par
end Verif
