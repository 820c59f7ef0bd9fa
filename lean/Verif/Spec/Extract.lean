import Verif.Spec.Hypergraph
/-!
# Specification: sub-hypergraphs of blocks and recursive bipartitioning

Node and hyperedge ids are kept; that the code renumbers them is expressed by `HG.Iso`.
-/
namespace Verif
namespace HG

/-- The hyperedges of the sub-hypergraph of block `b`: at least two pins in `b`; without cut-net
splitting only hyperedges that lie completely in one block. -/
def keeps (H : HG) (Φ : Assign) (b : Nat) (split : Bool) (e : Nat) : Prop :=
  2 ≤ H.pinsIn Φ e b ∧ (split = true ∨ H.lam Φ e = 1)

instance (H : HG) (Φ : Assign) (b : Nat) (split : Bool) (e : Nat) : Decidable (H.keeps Φ b split e) := by
  unfold keeps; infer_instance

/-- The sub-hypergraph induced by block `b`: hyperedges are restricted to their pins in `b`. -/
def restrict (H : HG) (Φ : Assign) (b : Nat) (split : Bool) : HG where
  nodes := H.nodes.filter (fun v => decide (Φ v = some b))
  edges := H.edges.filter (fun e => decide (H.keeps Φ b split e))
  pins e := (H.pins e).filter (fun v => decide (Φ v = some b))
  inc v := (H.inc v).filter (fun e => decide (H.keeps Φ b split e))
  nw := H.nw
  ew := H.ew

/-- `H'` is `H` with nodes renamed by `f` and hyperedges renamed by `g`. -/
structure Iso (H H' : HG) (f g : Nat → Nat) : Prop where
  node_inj : ∀ u ∈ H.nodes, ∀ v ∈ H.nodes, f u = f v → u = v
  nodes : ∀ x, x ∈ H'.nodes ↔ ∃ v ∈ H.nodes, f v = x
  nw : ∀ v ∈ H.nodes, H'.nw (f v) = H.nw v
  edge_inj : ∀ d ∈ H.edges, ∀ e ∈ H.edges, g d = g e → d = e
  edges : ∀ y, y ∈ H'.edges ↔ ∃ e ∈ H.edges, g e = y
  ew : ∀ e ∈ H.edges, H'.ew (g e) = H.ew e
  pins : ∀ e ∈ H.edges, H'.pins (g e) = (H.pins e).map f

/-- block ids of a bipartition -/
def side (β : Nat → Bool) : Assign := fun v => some (β v).toNat

/-- Value of a bipartition where hyperedge `e` costs `c e` if it is cut. -/
def bipCost (H : HG) (β : Nat → Bool) (c : Nat → Int) : Int :=
  (H.edges.map (fun e => if H.lam (side β) e > 1 then c e else 0)).sum

/-- Recursive bipartitioning of `H` into `k` blocks.  `old e`: hyperedge `e` was cut before; a cut
hyperedge costs `ew e` if it was cut before and `mult * ew e` if not.  `Φ v` is the final block of
node `v`, `c` the sum of the costs of all bipartitions.  A block of `k` final blocks is divided into
`⌈k/2⌉` (first) and `⌊k/2⌋` (second) final blocks. -/
inductive RB (split : Bool) (mult : Int) : Nat → HG → (Nat → Bool) → (Nat → Nat) → Int → Prop
  | one {H : HG} {old : Nat → Bool} {Φ : Nat → Nat} (h : ∀ v ∈ H.nodes, Φ v = 0) : RB split mult 1 H old Φ 0
  | two {H : HG} {k : Nat} {old old' : Nat → Bool} {β : Nat → Bool} {Φ Φ₀ Φ₁ : Nat → Nat} {c₀ c₁ c : Int} (hk : 2 ≤ k)
      (hold : ∀ e ∈ H.edges, old' e = (old e || decide (H.lam (side β) e > 1)))
      (h₀ : RB split mult ((k + 1) / 2) (H.restrict (side β) 0 split) old' Φ₀ c₀)
      (h₁ : RB split mult (k / 2) (H.restrict (side β) 1 split) old' Φ₁ c₁)
      (hΦ₀ : ∀ v ∈ H.nodes, β v = false → Φ v = Φ₀ v)
      (hΦ₁ : ∀ v ∈ H.nodes, β v = true → Φ v = (k + 1) / 2 + Φ₁ v)
      (hc : c = H.bipCost β (fun e => if old e then H.ew e else mult * H.ew e) + c₀ + c₁) :
      RB split mult k H old Φ c

end HG

/-- The leaves of the recursion into `k` blocks starting with block `lo`: `Leaf k lo p b` says that the
decisions `p` lead to block `b`. -/
inductive Leaf : Nat → Nat → List Bool → Nat → Prop
  | one (lo : Nat) : Leaf 1 lo [] lo
  | left {k lo b : Nat} {p : List Bool} (hk : 2 ≤ k) (h : Leaf ((k + 1) / 2) lo p b) : Leaf k lo (false :: p) b
  | right {k lo b : Nat} {p : List Bool} (hk : 2 ≤ k) (h : Leaf (k / 2) (lo + (k + 1) / 2) p b) : Leaf k lo (true :: p) b

end Verif
