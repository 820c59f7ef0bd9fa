import Verif.Spec.Extract
import Verif.Lemmas.Contract1
/-! # Specification: the hypergraph of an extracted block -/
namespace Verif
namespace Extract

/-- What an extracted block looks like.  `f` renames nodes, `g` hyperedges. -/
structure IsBlock (H : SHG) (Φ : Assign) (b : Nat) (split : Bool) (H' : SHG) (f g : Nat → Nat) : Prop where
  iso : (H.toHG.restrict Φ b split).Iso H'.toHG f g
  wf : H'.toHG.WF
  rep : H'.Rep
  nodes : H'.nodes = List.range H'.n
  edges : H'.edges = List.range H'.m
  total : H'.totalWeight = H.toHG.blockWeight Φ b
  maxSize : ∀ k, H'.maxEdgeSize ≤ k ↔ ∀ e < H'.m, (H'.pins e).length ≤ k

/-- hypotheses on the hypergraph that hold for every hypergraph accepted by the factory -/
structure Ok (H : SHG) : Prop where
  wf : H.toHG.WF
  small : H.n ≤ kInvalid
  smallE : H.m ≤ kInvalid
  pos : ∀ v ∈ H.nodes, 0 ≤ H.hnWeight v
  total : H.toHG.totalWeight ≤ 2147483647

end Extract
end Verif
