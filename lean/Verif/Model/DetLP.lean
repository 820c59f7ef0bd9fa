import Verif.Model.Rollback
import Verif.Model.Parallel
/-!
# Model: deterministic label propagation

Source: `mt-kahypar/partition/refinement/deterministic/deterministic_label_propagation.{h,cpp}`,
`parallel/chunking.h`.
-/
namespace Verif
namespace DetLP
open SMap (wr)

/-! ### Search for the best prefixes of the two move sequences of a block pair

Positions index the array `cumulative_node_weights`. A prefix is described by its end position; the end position `i`
of the empty prefix stands for the index `p_begin - 1` of the code, which is the `invalid` index (342-343, and 0 - 1
in unsigned arithmetic). -/

/-- weight of the prefix that ends before position `e` of a sequence that starts at position `i` (394-395, 462-463) -/
def prefW (cum : Nat → Int) (i e : Nat) : Int := if e = i then 0 else cum (e - 1)

/-- `balance(p1_ind, p2_ind)` for the prefixes that end before `e1` and `e2` (387-397, 461-465) -/
def bal (cum : Nat → Int) (i1 i2 e1 e2 : Nat) : Int := prefW cum i1 e1 - prefW cum i2 e2

/-- `is_feasible` (399-402, 467-470) -/
def feas (cum : Nat → Int) (i1 i2 : Nat) (lb ub : Int) (e1 e2 : Nat) : Prop :=
  lb ≤ bal cum i1 i2 e1 e2 ∧ bal cum i1 i2 e1 e2 ≤ ub

instance (cum : Nat → Int) (i1 i2 : Nat) (lb ub : Int) (e1 e2 : Nat) : Decidable (feas cum i1 i2 lb ub e1 e2) := by
  unfold feas; infer_instance

/-- `findBestPrefixesSequentially` (456-484); `none` is `invalid_pos` -/
def findSeq (cum : Nat → Int) (i1 i2 : Nat) (lb ub : Int) (b1 e1 b2 e2 : Nat) : Option (Nat × Nat) :=
  if feas cum i1 i2 lb ub e1 e2 then some (e1, e2)
  else if bal cum i1 i2 e1 e2 < 0 then
    if e2 ≤ b2 then none else findSeq cum i1 i2 lb ub b1 e1 b2 (e2 - 1)
  else if e1 ≤ b1 then none else findSeq cum i1 i2 lb ub b1 (e1 - 1) b2 e2
termination_by e1 + e2

/-- `std::lower_bound(c + b, c + e, v)`: first position with a weight of at least `v` (the library's binary search
returns it for the ascending cumulative weights) -/
def lowerBound (cum : Nat → Int) (v : Int) (b e : Nat) : Nat :=
  if b < e then if v ≤ cum b then b else lowerBound cum v (b + 1) e else e
termination_by e - b

theorem lowerBound_le (cum : Nat → Int) (v : Int) (b e : Nat) : lowerBound cum v b e ≤ e := by
  fun_induction lowerBound cum v b e <;> omega

theorem le_lowerBound (cum : Nat → Int) (v : Int) (b e : Nat) (h : b ≤ e) : b ≤ lowerBound cum v b e := by
  fun_induction lowerBound cum v b e <;> omega

theorem sub_lowerBound (cum : Nat → Int) (v : Int) (b e : Nat) : e - lowerBound cum v b e ≤ e - b := by
  rcases Nat.le_total b e with h | h
  · have := le_lowerBound cum v b e h; omega
  · unfold lowerBound; rw [if_neg (by omega)]; omega

/-- `findBestPrefixesRecursive` (381-454) with `sequential_cutoff = co + 2`. The two recursive calls of a
`parallel_invoke` do not share data. -/
def findRec (co : Nat) (cum : Nat → Int) (i1 i2 : Nat) (lb ub : Int) (b1 e1 b2 e2 : Nat) : Option (Nat × Nat) :=
  if e1 - b1 < co + 2 ∧ e2 - b2 < co + 2 then findSeq cum i1 i2 lb ub b1 e1 b2 e2
  else if e2 - b2 < e1 - b1 then
    let m := b1 + (e1 - b1) / 2
    let q := lowerBound cum (cum m) b2 e2
    if q ≠ e2 ∧ m ≠ e1 ∧ feas cum i1 i2 lb ub (m + 1) (q + 1) then findRec co cum i1 i2 lb ub (m + 1) e1 (q + 1) e2
    else if q = e2 ∧ ub < bal cum i1 i2 (m + 1) e2 then findRec co cum i1 i2 lb ub b1 m b2 q
    else (findRec co cum i1 i2 lb ub m e1 q e2).or (findRec co cum i1 i2 lb ub b1 m b2 q)
  else
    let m := b2 + (e2 - b2) / 2
    let q := lowerBound cum (cum m) b1 e1
    if q ≠ e1 ∧ m ≠ e2 ∧ feas cum i1 i2 lb ub (q + 1) (m + 1) then findRec co cum i1 i2 lb ub (q + 1) e1 (m + 1) e2
    else if q = e1 ∧ bal cum i1 i2 e1 (m + 1) < lb then findRec co cum i1 i2 lb ub b1 q b2 m
    else (findRec co cum i1 i2 lb ub q e1 m e2).or (findRec co cum i1 i2 lb ub b1 q b2 m)
termination_by (e1 - b1) + (e2 - b2)
decreasing_by
  all_goals
    have := lowerBound_le cum (cum (b1 + (e1 - b1) / 2)) b2 e2
    have := lowerBound_le cum (cum (b2 + (e2 - b2) / 2)) b1 e1
    have := sub_lowerBound cum (cum (b1 + (e1 - b1) / 2)) b2 e2
    have := sub_lowerBound cum (cum (b2 + (e2 - b2) / 2)) b1 e1
    omega

/-! ### Moves and configuration -/

/-- `Move` (hypergraph_common.h:91-104). `invalidate` overwrites `from`, which is not read afterwards; the model keeps
the flag of a move separately. -/
structure Mv where
  node : Nat
  src : Nat
  dst : Nat
  gain : Int
  deriving DecidableEq

/-- the order of the moves (203-205, 321-323) -/
def before (a b : Mv) : Prop := a.gain > b.gain ∨ (a.gain = b.gain ∧ a.node < b.node)

/-- `std::swap(m.from, m.to)` -/
def Mv.swap (m : Mv) : Mv := { m with src := m.dst, dst := m.src }

/-- Input and configuration. `Γ` is the state of the random number generator and of the bucket array of the
permutation. -/
structure Cfg (Γ : Type) where
  H : HG
  k : Nat
  o : Metrics.Obj
  /-- `max_part_weights` -/
  maxw : Nat → Int
  /-- `isFixed` -/
  fixed : Nat → Bool
  /-- `isBorderNode`, as a function of the block ids -/
  border : Assign → Nat → Bool
  /-- `computeMaxGainMove` without random tie breaking (gain_computation_base.h:60-128), as a function of the block
  ids: target block and improvement -/
  best : Assign → Nat → Nat × Int
  /-- `use_active_node_set` -/
  useActive : Bool
  /-- `hyperedge_size_activation_threshold` -/
  actSize : Nat
  /-- `maximum_iterations` -/
  iters : Nat
  /-- `num_sub_rounds_sync_lp` -/
  subRounds : Nat
  /-- `random_grouping` of all nodes (`none`) or `sample_buckets_and_group_by` of the given nodes, seeded with the
  next random number: permutation and bucket bounds (C35: every element once, the same for every schedule) -/
  perm : Γ → Option (List Nat) → (List Nat × (Nat → Nat)) × Γ

variable {Γ : Type}

/-- the body of the loop that calculates the moves (84-95) -/
def want (c : Cfg Γ) (Φ : Assign) (u : Nat) : Option Mv :=
  if c.fixed u = true ∨ u ∉ c.H.nodes ∨ c.border Φ u = false then none
  else match Φ u with
    | none => none
    | some b => if (c.best Φ u).2 > 0 ∧ (c.best Φ u).1 ≠ b then some ⟨u, b, (c.best Φ u).1, (c.best Φ u).2⟩ else none

/-! ### Performing moves -/

/-- `last_moved_in_round` and `active_nodes`. The entries of the nodes and of the nets (offset `n`) are two maps. -/
structure ASt where
  lmN : Nat → Nat
  lmE : Nat → Nat
  act : List Nat

/-- program counter of the activation of the neighbours of a moved node (145-161) -/
inductive APc
  /-- about to look at the next incident net -/
  | edges (es : List Nat)
  /-- about to store the round for net `e` -/
  | mark (e : Nat) (es : List Nat)
  /-- about to look at the next pin -/
  | pins (vs es : List Nat)
  /-- about to compare and exchange the entry of pin `v`, its loaded value is `l` -/
  | cas (v l : Nat) (vs es : List Nat)
  /-- about to add `v` to the active nodes -/
  | push (v : Nat) (vs es : List Nat)
  deriving DecidableEq

/-- One step of the activation; `edges []` is the end. -/
def nextA (c : Cfg Γ) (rd : Nat) : APc → ASt → Option (APc × ASt)
  | .edges [], _ => none
  | .edges (e :: es), a =>
    if (c.H.pins e).length ≤ c.actSize ∧ a.lmE e ≠ rd then some (.mark e es, a) else some (.edges es, a)
  | .mark e es, a => some (.pins (c.H.pins e) es, { a with lmE := wr a.lmE e rd })
  | .pins [] es, a => some (.edges es, a)
  | .pins (v :: vs) es, a => if a.lmN v ≠ rd then some (.cas v (a.lmN v) vs es, a) else some (.pins vs es, a)
  | .cas v l vs es, a => if a.lmN v = l then some (.push v vs es, { a with lmN := wr a.lmN v rd }) else some (.pins vs es, a)
  | .push v vs es, a => some (.pins vs es, { a with act := a.act ++ [v] })

/-- the iteration of the activation for the `i`-th of the moves `A`; the first step fetches the incident nets -/
def nextM (c : Cfg Γ) (rd : Nat) (A : List Mv) (i : Nat) : Option APc → ASt → Option (Option APc × ASt)
  | none, a => match A[i]? with
    | none => none
    | some m => some (some (.edges (c.H.inc m.node)), a)
  | some p, a => (nextA c rd p a).map (fun x => (some x.1, x.2))

/-- state of the refinement -/
structure St (σ : Type) where
  s : CSt σ
  a : ASt

variable {σ : Type}

/-- `applyMovesIf` (167-182) for the moves `A` that satisfy the predicate: any schedule of concurrent calls of
`changeNodePart` (without weight limit), and the activation of the neighbours. Simplification: activations and moves
access different data, the model runs them one after the other; no move is rejected (weights are below the limit of
the integer type). `g` is the sum of the attributed gains. -/
def Apply (C : ConInfo σ) (c : Cfg Γ) (rd : Nat) (x : St σ) (A : List Mv) (x' : St σ) (g : Int) : Prop :=
  (∃ as, (Rollback.startsOf as).Perm (A.map (fun m => Act.start m.node m.dst Rollback.maxHNW)) ∧
    CSt.exec C c.H c.k c.o x.s as = some x'.s ∧ x'.s.quiescent c.H = true ∧
    g = -((x'.s.log.drop x.s.log.length).map (attrGain c.o)).sum) ∧
  (if c.useActive then Par.For (nextM c rd A) (List.range A.length) none (some (.edges [])) x.a x'.a else x'.a = x.a)

/-! ### `applyMovesByMaximalPrefixesInBlockPairs` (287-379) -/

/-- `get_key` -/
def key (k : Nat) (m : Mv) : Nat := m.src * k + m.dst

/-- `sorted_moves` after counting sort by direction (C35) and sorting of every direction -/
def Grouped (k : Nat) (ms sm : List Mv) : Prop :=
  sm.Perm ms ∧ sm.Pairwise (fun a b => key k a < key k b ∨ (key k a = key k b ∧ before a b))

/-- `positions[x]` -/
def posn (k : Nat) (sm : List Mv) (x : Nat) : Nat := sm.countP (fun m => decide (key k m < x))

/-- `cumulative_node_weights[pos]` -/
def cumW (c : Cfg Γ) (sm : List Mv) (pos : Nat) : Int :=
  match sm[pos]? with
  | none => 0
  | some m => (((sm.take (pos + 1)).drop (posn c.k sm (key c.k m))).map (fun m => c.H.nw m.node)).sum

/-- `has_moves` -/
def hasMoves (c : Cfg Γ) (sm : List Mv) (p q : Nat) : Bool := posn c.k sm (p * c.k + q + 1) != posn c.k sm (p * c.k + q)

/-- `involvements[b]` (306-321): number of blocks from which nodes are moved to `b` -/
def involve (c : Cfg Γ) (sm : List Mv) (b : Nat) : Nat :=
  ((List.range c.k).filter (fun p => decide (p ≠ b) && hasMoves c sm p b)).length

/-- `budget / std::max(size_t(1), involvements)` (344-347): the budget is converted to an unsigned 64-bit number -/
def share (budget : Int) (inv : Nat) : Nat := (budget % 2 ^ 64).toNat / max 1 inv

/-- `ub_p2`: conversion to a 32-bit integer -/
def ubOf (budget : Int) (inv : Nat) : Int := Int.bmod (share budget inv) (2 ^ 32)

/-- `lb_p1`: negation of the unsigned number and conversion to a 32-bit integer -/
def lbOf (budget : Int) (inv : Nat) : Int := Int.bmod (-(share budget inv : Int)) (2 ^ 32)

/-- the prefixes of the block pair `p1 < p2` (324-366), `sequential_cutoff = 2000`. Pairs without moves are not
looked at by the code; the result is not used for them. -/
def prefixPair (c : Cfg Γ) (sm : List Mv) (wt : Nat → Int) (p1 p2 : Nat) : Nat × Nat :=
  let b1 := posn c.k sm (p1 * c.k + p2)
  let e1 := posn c.k sm (p1 * c.k + p2 + 1)
  let b2 := posn c.k sm (p2 * c.k + p1)
  let e2 := posn c.k sm (p2 * c.k + p1 + 1)
  (findRec 1998 (cumW c sm) b1 b2 (lbOf (c.maxw p1 - wt p1) (involve c sm p1)) (ubOf (c.maxw p2 - wt p2) (involve c sm p2))
    b1 e1 b2 e2).getD (b1, b2)

/-- `swap_prefix[index(p, q)]` -/
def swapPrefix (c : Cfg Γ) (sm : List Mv) (wt : Nat → Int) (p q : Nat) : Nat :=
  if p < q then (prefixPair c sm wt p q).1 else (prefixPair c sm wt q p).2

/-- the moves that are applied, by the predicate of lines 369-377 -/
def chosen (c : Cfg Γ) (sm : List Mv) (wt : Nat → Int) : List Mv :=
  (sm.zipIdx.filter (fun x => decide (x.2 < swapPrefix c sm wt x.1.src x.1.dst))).map Prod.fst

/-- the moves that are not applied and saved in `moves` -/
def others (c : Cfg Γ) (sm : List Mv) (wt : Nat → Int) : List Mv :=
  (sm.zipIdx.filter (fun x => !decide (x.2 < swapPrefix c sm wt x.1.src x.1.dst))).map Prod.fst

/-- `applyMovesByMaximalPrefixesInBlockPairs` for the moves `ms`: state, gain, `revert_all`, remaining moves -/
inductive PrefixStep (C : ConInfo σ) (c : Cfg Γ) (rd : Nat) (x : St σ) (ms : List Mv) : St σ → Int → Bool → List Mv → Prop
  | keep (sm rest : List Mv) (x1 : St σ) (g : Int) (hg : Grouped c.k ms sm) (ha : Apply C c rd x (chosen c sm x.s.wt) x1 g)
      (hr : rest.Perm (others c sm x.s.wt)) (h : 0 ≤ g) : PrefixStep C c rd x ms x1 g false rest
  | undo (sm rest : List Mv) (x1 x2 : St σ) (g g' : Int) (hg : Grouped c.k ms sm) (ha : Apply C c rd x (chosen c sm x.s.wt) x1 g)
      (hr : rest.Perm (others c sm x.s.wt)) (h : g < 0)
      (hu : Apply C c rd x1 ((chosen c sm x.s.wt).map Mv.swap) x2 g') : PrefixStep C c rd x ms x2 (g + g') true rest

/-! ### `applyMovesSortedByGainAndRevertUnbalanced` (207-285) -/

/-- state of the loops that revert moves -/
structure RSt where
  /-- `part_weights` -/
  pw : Nat → Int
  /-- `isValid()` of the move at a position -/
  valid : Nat → Bool
  /-- `num_overloaded_blocks` -/
  over : Nat
  j : Nat
  /-- `last_valid_move` -/
  last : Nat

/-- number of blocks that are too heavy -/
def overloaded (c : Cfg Γ) (w : Nat → Int) : Nat := ((List.range c.k).filter (fun b => decide (c.maxw b < w b))).length

/-- block weights after all moves (`aggregatePartWeightDeltas`, 217-218); the order of the additions is irrelevant -/
def weightsAfter (c : Cfg Γ) (wt : Nat → Int) (sm : List Mv) : Nat → Int :=
  sm.foldl (fun w m => addWt (addWt w m.src (-c.H.nw m.node)) m.dst (c.H.nw m.node)) wt

/-- `revert_move` (231-239) for the move `m` at position `i` -/
def revertMove (c : Cfg Γ) (i : Nat) (m : Mv) (t : RSt) : RSt :=
  let pw := addWt (addWt t.pw m.dst (-c.H.nw m.node)) m.src (c.H.nw m.node)
  { t with pw := pw, valid := wr t.valid i false, over := if pw m.dst ≤ c.maxw m.dst then t.over - 1 else t.over }

/-- the first loop (241-247) from position `j` down -/
def loop1 (c : Cfg Γ) (sm : List Mv) : Nat → RSt → RSt
  | 0, t => t
  | j + 1, t =>
    if t.over = 0 then t
    else match sm[j]? with
      | none => t
      | some m => loop1 c sm j
          (if t.pw m.dst > c.maxw m.dst ∧ t.pw m.src + c.H.nw m.node ≤ c.maxw m.src then revertMove c j m t else t)

/-- one iteration of the second loop (257-276); `none`: access outside of the array -/
def step2 (c : Cfg Γ) (sm : List Mv) (t : RSt) : Option RSt :=
  let j := if t.j = 0 then t.last else t.j
  let last := if t.j = 0 then 0 else t.last
  if j = 0 then none
  else match sm[j - 1]? with
    | none => none
    | some m =>
      let t1 := if t.valid (j - 1) = true ∧ t.pw m.dst > c.maxw m.dst then
          revertMove c (j - 1) m
            (if t.pw m.src + c.H.nw m.node > c.maxw m.src ∧ t.pw m.src ≤ c.maxw m.src then { t with over := t.over + 1 } else t)
        else t
      some { t1 with j := j - 1, last := if last = 0 ∧ t1.valid (j - 1) = true then j else last }

/-- the second loop: it runs until no block is overloaded -/
inductive Loop2 (c : Cfg Γ) (sm : List Mv) : RSt → RSt → Prop
  | done (t : RSt) (h : t.over = 0) : Loop2 c sm t t
  | step (t t1 t2 : RSt) (h : t.over ≠ 0) (h1 : step2 c sm t = some t1) (h2 : Loop2 c sm t1 t2) : Loop2 c sm t t2

/-- the state before the first loop -/
def rstart (c : Cfg Γ) (wt : Nat → Int) (sm : List Mv) : RSt :=
  ⟨weightsAfter c wt sm, fun _ => true, overloaded c (weightsAfter c wt sm), 0, 0⟩

/-- both loops (224-279): `t` is the final state -/
def Reverted (c : Cfg Γ) (wt : Nat → Int) (sm : List Mv) (t : RSt) : Prop :=
  let t1 := loop1 c sm sm.length (rstart c wt sm)
  if t1.over > 0 ∧ overloaded c wt = 0 then Loop2 c sm { t1 with j := sm.length, last := 0 } t else t = t1

/-- the moves that are still valid -/
def validMoves (sm : List Mv) (t : RSt) : List Mv := (sm.zipIdx.filter (fun x => t.valid x.2)).map Prod.fst

/-- `applyMovesSortedByGainAndRevertUnbalanced` for the moves `ms`: state and gain -/
inductive SortedStep (C : ConInfo σ) (c : Cfg Γ) (rd : Nat) (x : St σ) (ms : List Mv) : St σ → Int → Prop
  | keep (sm : List Mv) (t : RSt) (x1 : St σ) (g : Int) (hp : sm.Perm ms) (hs : sm.Pairwise before) (ht : Reverted c x.s.wt sm t)
      (ha : Apply C c rd x (validMoves sm t) x1 g) (h : 0 ≤ g) : SortedStep C c rd x ms x1 g
  | undo (sm : List Mv) (t : RSt) (x1 x2 : St σ) (g g' : Int) (hp : sm.Perm ms) (hs : sm.Pairwise before) (ht : Reverted c x.s.wt sm t)
      (ha : Apply C c rd x (validMoves sm t) x1 g) (h : g < 0) (hu : Apply C c rd x1 ((validMoves sm t).map Mv.swap) x2 g') :
      SortedStep C c rd x ms x2 (g + g')

/-! ### `refineImpl` (41-131) -/

/-- One sub-round (76-112) for the nodes `us`: state, improvement, `reverted`, number of moves -/
inductive SubRound (C : ConInfo σ) (c : Cfg Γ) (rd : Nat) (us : List Nat) (x : St σ) : St σ → Int → Bool → Nat → Prop
  /-- no moves -/
  | none (h : us.filterMap (want c x.s.part) = []) : SubRound C c rd us x x 0 false 0
  /-- only the first step -/
  | one (ms rest : List Mv) (x1 : St σ) (g : Int) (rev : Bool) (hm : ms.Perm (us.filterMap (want c x.s.part))) (h0 : ms ≠ [])
      (h1 : PrefixStep C c rd x ms x1 g rev rest) (h2 : ¬ (g > 0 ∧ rest ≠ [])) : SubRound C c rd us x x1 g rev ms.length
  | two (ms rest : List Mv) (x1 x2 : St σ) (g g2 : Int) (rev : Bool) (hm : ms.Perm (us.filterMap (want c x.s.part))) (h0 : ms ≠ [])
      (h1 : PrefixStep C c rd x ms x1 g rev rest) (h2 : g > 0 ∧ rest ≠ []) (h3 : SortedStep C c rd x1 rest x2 g2) :
      SubRound C c rd us x x2 (g + g2) rev ms.length

/-- the sub-rounds of a round -/
inductive SubRounds (C : ConInfo σ) (c : Cfg Γ) (rd : Nat) : List (List Nat) → St σ → St σ → Int → Bool → Nat → Prop
  | nil (x : St σ) : SubRounds C c rd [] x x 0 false 0
  | cons (us : List Nat) (L : List (List Nat)) (x x1 x2 : St σ) (g g' : Int) (rev rev' : Bool) (n n' : Nat)
      (h : SubRound C c rd us x x1 g rev n) (ht : SubRounds C c rd L x1 x2 g' rev' n') :
      SubRounds C c rd (us :: L) x x2 (g + g') (rev || rev') (n + n')

/-- nodes of the sub-rounds (68-76): sub-round `i` of `num` takes the buckets `bounds(i, 256, ceil(256 / num))` -/
def groups (P : List Nat × (Nat → Nat)) (num : Nat) : List (List Nat) :=
  (List.range num).map (fun i =>
    let per := (256 + num - 1) / num
    let first := P.2 (min 256 (i * per))
    let last := P.2 (min 256 ((i + 1) * per))
    (P.1.drop first).take (last - first))

/-- members of the refiner that are kept between calls -/
structure LSt (σ Γ : Type) where
  x : St σ
  round : Nat
  rng : Γ

/-- the beginning of an iteration (53-66): round counter, `last_moved_in_round`; the list of active nodes is cleared
later -/
def bump (c : Cfg Γ) (l : LSt σ Γ) : LSt σ Γ :=
  if c.useActive then
    if (l.round + 1) % 2 ^ 32 = 0 then
      { l with round := 0, x := { l.x with a := { l.x.a with lmN := fun _ => 0, lmE := fun _ => 0 } } }
    else { l with round := (l.round + 1) % 2 ^ 32 }
  else l

/-- One iteration (52-122): `num` is `num_sub_rounds`, `first` says whether it is the first one. -/
inductive Round (C : ConInfo σ) (c : Cfg Γ) (first : Bool) (num : Nat) (l : LSt σ Γ) : LSt σ Γ → Int → Bool → Nat → Prop
  /-- all nodes -/
  | all (x' : St σ) (g : Int) (rev : Bool) (n : Nat) (h : c.useActive = false ∨ first = true ∨ l.x.a.act = [])
      (hs : SubRounds C c (bump c l).round (groups (c.perm l.rng none).1 num)
        { (bump c l).x with a := { (bump c l).x.a with act := [] } } x' g rev n) :
      Round C c first num l ⟨x', (bump c l).round, (c.perm l.rng none).2⟩ g rev n
  /-- the sorted active nodes -/
  | active (act : List Nat) (x' : St σ) (g : Int) (rev : Bool) (n : Nat) (h : ¬ (c.useActive = false ∨ first = true ∨ l.x.a.act = []))
      (hp : act.Perm l.x.a.act) (ho : act.Pairwise (· ≤ ·))
      (hs : SubRounds C c (bump c l).round (groups (c.perm l.rng (some act)).1 num)
        { (bump c l).x with a := { (bump c l).x.a with act := [] } } x' g rev n) :
      Round C c first num l ⟨x', (bump c l).round, (c.perm l.rng (some act)).2⟩ g rev n

/-- the loop over the iterations: `fuel` iterations are left -/
inductive Iters (C : ConInfo σ) (c : Cfg Γ) : (fuel : Nat) → (first : Bool) → (num : Nat) → LSt σ Γ → LSt σ Γ → Int → Prop
  | stop (first : Bool) (num : Nat) (l : LSt σ Γ) : Iters C c 0 first num l l 0
  /-- no node with positive gain -/
  | last (fuel num : Nat) (first : Bool) (l l1 : LSt σ Γ) (g : Int) (rev : Bool) (h : Round C c first num l l1 g rev 0) :
      Iters C c (fuel + 1) first num l l1 g
  | next (fuel num n : Nat) (first : Bool) (l l1 l2 : LSt σ Γ) (g g' : Int) (rev : Bool) (h : Round C c first num l l1 g rev n) (hn : n ≠ 0)
      (ht : Iters C c fuel false (if rev then min 256 (num * 2) else num) l1 l2 g') : Iters C c (fuel + 1) first num l l2 (g + g')

/-- `refineImpl`: from state `l` to `l'`, `imp` is the improvement that is subtracted from the objective in
`best_metrics` -/
def Refine (C : ConInfo σ) (c : Cfg Γ) (l l' : LSt σ Γ) (imp : Int) : Prop := Iters C c c.iters true c.subRounds l l' imp

end DetLP
end Verif
