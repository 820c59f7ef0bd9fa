import Verif.Model.IncidentNets
import Mathlib.Logic.Function.Iterate
/-!
# Model: contraction and uncontraction in the n-level hypergraph

`DynamicHypergraph` (dynamic_hypergraph.h, dynamic_hypergraph.cpp) with its contraction tree
(contraction_tree.h:352-487), as used by the n-level coarsener (nlevel_coarsener.h:243-275) and the
n-level uncoarsener (nlevel_uncoarsener.cpp:139-219). Threads take turns in arbitrary order; one step
is one critical section or one access to shared data.

Simplifications: the incidence array is one list per net (its slots between `firstEntry(e)` and
`firstEntry(e + 1)`); ids are unbounded; hashes, communities and the block weights of fixed vertices
are not modelled (the answer of the fixed vertex check is arbitrary, but a refused pair stays
refused); locks are represented by the atomicity of the steps; detection of parallel nets by hashing
is represented by its result.
-/
namespace Verif
namespace Dyn
open SMap (wr)

/-- value of `kInvalidVersion` (contraction_tree.h: largest number) -/
def kInvVer : Nat := 2 ^ 64 - 1

/-- result of one call of `removeSinglePinAndParallelHyperedges`: removed nets with their
representatives (dynamic_hypergraph.h: `ParallelHyperedge`; `none` for single-pin nets) -/
abbrev RemovedNets := List (Nat × Option Nat)

/-- state of the hypergraph and of the contraction tree: node enabled, node weight, parent, pending
contractions, version and time interval of the contraction of a node, `_contraction_index`,
`_version`, pins of the nets, their sizes, net enabled, net weights, batch indices, incident nets;
`removed` is `removed_hyperedges_batches` of the uncoarsening data, last entry first
(dynamic_hypergraph.h:80-240, 1120-1160, contraction_tree.h:130-250) -/
structure DH where
  n : Nat
  m : Nat
  en : Nat → Bool
  wt : Nat → Int
  par : Nat → Nat
  pend : Nat → Nat
  ver : Nat → Nat
  start : Nat → Nat
  stop : Nat → Nat
  cidx : Nat
  V : Nat
  pins : Nat → List Nat
  size : Nat → Nat
  een : Nat → Bool
  ew : Nat → Int
  bi : Nat → Nat
  ina : INA
  removed : List RemovedNets

/-- current pins of net `e` (dynamic_hypergraph.h: `pins`) -/
def DH.edgePins (s : DH) (e : Nat) : List Nat := (s.pins e).take (s.size e)

/-- exchange of two slots of the incidence array -/
def swapN (l : List Nat) (i j : Nat) : List Nat := (l.set i (l.getD j 0)).set j (l.getD i 0)

/-- the loop of `contractHyperedge` (dynamic_hypergraph.cpp:632-640); positions are relative to the
first slot. Returns the slots and `slot_of_u`. -/
def ceLoop (u v last : Nat) : Nat → Nat → Nat → List Nat → Option (List Nat × Nat)
  | 0, _, _, _ => none
  | fuel + 1, idx, slot, l =>
    if idx = last then some (l, slot)
    else if l.getD idx 0 = v then ceLoop u v last fuel idx slot (swapN l idx last)
    else if l.getD idx 0 = u then ceLoop u v last fuel (idx + 1) idx l
    else ceLoop u v last fuel (idx + 1) slot l

/-- `contractHyperedge` (dynamic_hypergraph.cpp:621-662): new slots, new size, whether the net is
shared by `u` and `v` -/
def contractHE (u v : Nat) (l : List Nat) (size : Nat) : Option (List Nat × Nat × Bool) :=
  match ceLoop u v (size - 1) (2 * size + 1) 0 (size - 1) l with
  | none => none
  | some (l', slot) =>
    if slot ≠ size - 1 then some (l', size - 1, true)
    else some (l'.set (size - 1) u, size, false)

/-- Where a thread of the coarsener is: `look v` in front of reading the parent of `v`
(dynamic_hypergraph.cpp:70, 83), `tryC u v` in front of acquiring `u` and `v` (cpp:537), `load` in
front of reading the contraction index (cpp:565), `iter` in the loop over the incident nets of `v`
(cpp:569-578; `i` nets are already visited), `late` in the loop over the nets that were locked
(cpp:581-585), `tick` in front of increasing the index (cpp:597), `unreg` in front of unregistering
the contraction (cpp:598). `sh` are the nets flagged as shared. -/
inductive Pc where
  | idle
  | look (v : Nat)
  | tryC (u v : Nat)
  | load (u v : Nat)
  | iter (u v st i : Nat) (sh : Nat → Bool) (failed : List Nat)
  | late (u v st : Nat) (sh : Nat → Bool) (failed : List Nat)
  | tick (u v st : Nat)
  | unreg (u v st sp : Nat)

/-- The coarsening phase: hypergraph, threads and the pairs refused by the fixed vertex check -/
structure St where
  h : DH
  thr : Nat → Pc
  ref : Nat → Nat → Bool

/-- `registerContraction` on the tree (contraction_tree.h:355-359) -/
def DH.registerTree (s : DH) (w v : Nat) : DH :=
  { s with pend := wr s.pend w (s.pend w + 1), par := wr s.par v w, ver := wr s.ver v s.V }

/-- `unregisterContraction` of a failed contraction (contraction_tree.h:467-481) -/
def DH.unregisterFailed (s : DH) (u v : Nat) : DH :=
  { s with pend := wr s.pend u (s.pend u - 1), par := wr s.par v v, ver := wr s.ver v kInvVer }

/-- `unregisterContraction` of a performed contraction (contraction_tree.h:467-481) -/
def DH.unregister (s : DH) (u v st sp : Nat) : DH :=
  { s with pend := wr s.pend u (s.pend u - 1), start := wr s.start v st, stop := wr s.stop v sp }

/-- weight update and disabling of `v` (dynamic_hypergraph.cpp:560-561) -/
def DH.disable (s : DH) (u v : Nat) : DH :=
  { s with wt := wr s.wt u (s.wt u + s.wt v), en := wr s.en v false }

/-- effect of `contractHyperedge` on net `e` -/
def DH.setEdge (s : DH) (e : Nat) (l : List Nat) (k : Nat) : DH :=
  { s with pins := wr s.pins e l, size := wr s.size e k }

/-- flagging net `e` as shared -/
def flagIf (sh : Nat → Bool) (e : Nat) (b : Bool) : Nat → Bool := if b then wr sh e true else sh

/-- One step of thread `i` in the coarsening phase; `mx` is the maximum node weight. -/
inductive TStep (mx : Int) (i : Nat) : St → St → Prop
  /-- successful call of `registerContraction` (contraction_tree.h:361-465), at the moment where the
  thread holds the locks of `w` and `v`. The cycle checks are left out: any registration that
  satisfies the other conditions is possible. The coarsener calls `contract(v)` next. -/
  | register (s : St) (w v : Nat) (hi : s.thr i = .idle) (hw : w < s.h.n) (hv : v < s.h.n) (hwv : w ≠ v)
      (ew : s.h.en w = true) (ev : s.h.en v = true) (hp : s.h.par v = v) (hr : s.h.par w = w ∨ 0 < s.h.pend w) :
      TStep mx i s { s with h := s.h.registerTree w v, thr := wr s.thr i (.look v) }
  /-- the loop of `contract` ends (dynamic_hypergraph.cpp:76) -/
  | lookEnd (s : St) (v : Nat) (hi : s.thr i = .look v) (hp : s.h.par v = v) :
      TStep mx i s { s with thr := wr s.thr i .idle }
  /-- reading the parent (dynamic_hypergraph.cpp:70, 83) -/
  | lookGo (s : St) (v : Nat) (hi : s.thr i = .look v) (hp : s.h.par v ≠ v) :
      TStep mx i s { s with thr := wr s.thr i (.tryC (s.h.par v) v) }
  /-- the contraction is valid (dynamic_hypergraph.cpp:546-563) -/
  | start (s : St) (u v : Nat) (hi : s.thr i = .tryC u v) (ev : s.h.en v = true) (hp : s.h.pend v = 0)
      (hw : s.h.wt u + s.h.wt v ≤ mx) (hf : s.ref u v = false) :
      TStep mx i s { s with h := s.h.disable u v, thr := wr s.thr i (.load u v) }
  /-- weight limit reached (dynamic_hypergraph.cpp:607-613) -/
  | tooHeavy (s : St) (u v : Nat) (hi : s.thr i = .tryC u v) (ev : s.h.en v = true) (hp : s.h.par v = u)
      (hw : mx < s.h.wt u + s.h.wt v) :
      TStep mx i s { s with h := s.h.unregisterFailed u v, thr := wr s.thr i (.look u) }
  /-- refused by the fixed vertex check (dynamic_hypergraph.cpp:605-613) -/
  | refused (s : St) (u v : Nat) (hi : s.thr i = .tryC u v) (ev : s.h.en v = true) (hp : s.h.par v = u) (h0 : s.h.pend v = 0)
      (hw : s.h.wt u + s.h.wt v ≤ mx) :
      TStep mx i s { h := s.h.unregisterFailed u v, thr := wr s.thr i (.look u), ref := fun a b => s.ref a b || (a == u && b == v) }
  /-- the contraction is not performed (dynamic_hypergraph.cpp:604, 618) -/
  | pending (s : St) (u v : Nat) (hi : s.thr i = .tryC u v)
      (hc : s.h.en v = false ∨ s.h.par v ≠ u ∨ (0 < s.h.pend v ∧ s.h.wt u + s.h.wt v ≤ mx)) :
      TStep mx i s { s with thr := wr s.thr i .idle }
  /-- reading the contraction index (dynamic_hypergraph.cpp:565) -/
  | load (s : St) (u v : Nat) (hi : s.thr i = .load u v) :
      TStep mx i s { s with thr := wr s.thr i (.iter u v s.h.cidx 0 (fun _ => false) []) }
  /-- contracting one net (dynamic_hypergraph.cpp:572-574, 621-662) -/
  | edge (s : St) (u v st j : Nat) (sh : Nat → Bool) (failed : List Nat) (l : List Nat) (e : Nat) (l' : List Nat) (k : Nat) (b : Bool)
      (hi : s.thr i = .iter u v st j sh failed) (hl : s.h.ina.incidentEdges v = some l) (he : l[j]? = some e)
      (hc : contractHE u v (s.h.pins e) (s.h.size e) = some (l', k, b)) :
      TStep mx i s { s with h := s.h.setEdge e l' k, thr := wr s.thr i (.iter u v st (j + 1) (flagIf sh e b) failed) }
  /-- a net that is locked by another thread (dynamic_hypergraph.cpp:575-577) -/
  | defer (s : St) (u v st j : Nat) (sh : Nat → Bool) (failed : List Nat) (l : List Nat) (e : Nat)
      (hi : s.thr i = .iter u v st j sh failed) (hl : s.h.ina.incidentEdges v = some l) (he : l[j]? = some e) :
      TStep mx i s { s with thr := wr s.thr i (.iter u v st (j + 1) sh (failed ++ [e])) }
  /-- end of the first loop -/
  | iterEnd (s : St) (u v st j : Nat) (sh : Nat → Bool) (failed : List Nat) (l : List Nat)
      (hi : s.thr i = .iter u v st j sh failed) (hl : s.h.ina.incidentEdges v = some l) (he : l.length ≤ j) :
      TStep mx i s { s with thr := wr s.thr i (.late u v st sh failed) }
  /-- contracting a net of the second loop (dynamic_hypergraph.cpp:581-585) -/
  | lateEdge (s : St) (u v st : Nat) (sh : Nat → Bool) (e : Nat) (failed : List Nat) (l' : List Nat) (k : Nat) (b : Bool)
      (hi : s.thr i = .late u v st sh (e :: failed))
      (hc : contractHE u v (s.h.pins e) (s.h.size e) = some (l', k, b)) :
      TStep mx i s { s with h := s.h.setEdge e l' k, thr := wr s.thr i (.late u v st (flagIf sh e b) failed) }
  /-- contracting the incident net lists (dynamic_hypergraph.cpp:588-593). The part in front of the
  lock only works on the lists of `v`, which no other thread uses. -/
  | merge (s : St) (u v st : Nat) (sh : Nat → Bool) (a : INA)
      (hi : s.thr i = .late u v st sh []) (hc : s.h.ina.contract u v sh = some a) :
      TStep mx i s { s with h := { s.h with ina := a }, thr := wr s.thr i (.tick u v st) }
  /-- increasing the contraction index (dynamic_hypergraph.cpp:597) -/
  | tick (s : St) (u v st : Nat) (hi : s.thr i = .tick u v st) :
      TStep mx i s { s with h := { s.h with cidx := s.h.cidx + 1 }, thr := wr s.thr i (.unreg u v st (s.h.cidx + 1)) }
  /-- unregistering the contraction (dynamic_hypergraph.cpp:598-600) and the next round of the loop (cpp:82) -/
  | unreg (s : St) (u v st sp : Nat) (hi : s.thr i = .unreg u v st sp) :
      TStep mx i s { s with h := s.h.unregister u v st sp, thr := wr s.thr i (.look u) }

/-- The result of `removeSinglePinAndParallelHyperedges` (dynamic_hypergraph.cpp:220-331): all enabled
nets with at most one pin, and nets that have the same pins as a net that is not removed. -/
structure RemovalOK (s : DH) (R : RemovedNets) : Prop where
  nodup : (R.map Prod.fst).Nodup
  enabled : ∀ p ∈ R, p.1 < s.m ∧ s.een p.1 = true
  single : ∀ e, (e, none) ∈ R ↔ e < s.m ∧ s.een e = true ∧ s.size e ≤ 1
  parallel : ∀ e r, (e, some r) ∈ R → r < s.m ∧ s.een r = true ∧ r ∉ R.map Prod.fst ∧ (s.edgePins e).Perm (s.edgePins r)

/-- the weights that a removal adds to net `r` (dynamic_hypergraph.cpp:294, 307) -/
def addedWeight (ew : Nat → Int) (R : RemovedNets) (r : Nat) : Int :=
  ((R.filter (fun p => p.2 == some r)).map (fun p => ew p.1)).sum

/-- calling a function of the incident nets for several nodes (dynamic_hypergraph.cpp:319-322: the
order is arbitrary) -/
def INA.removeAll (flag : Nat → Bool) : List Nat → INA → Option INA
  | [], a => some a
  | x :: l, a => match a.removeNets x flag with
    | none => none
    | some a' => INA.removeAll flag l a'

/-- `removeSinglePinAndParallelHyperedges` (dynamic_hypergraph.cpp:220-331) with result `R`; `ord` is
the order in which the nodes are visited -/
def DH.removeNetsStep (s : DH) (R : RemovedNets) (ord : List Nat) : Option DH :=
  match INA.removeAll (fun e => (R.map Prod.fst).contains e) ord s.ina with
  | none => none
  | some a => some { s with
      een := fun e => s.een e && !(R.map Prod.fst).contains e
      ew := fun e => s.ew e + addedWeight s.ew R e
      pins := fun e => if decide (e < s.m) && s.een e && decide (1 < s.size e) then (s.edgePins e).mergeSort (fun a b => decide (a ≤ b)) ++ (s.pins e).drop (s.size e) else s.pins e
      ina := a
      V := s.V + 1
      removed := R :: s.removed }

/-- following parents from `v` ends -/
def Acyclic (n : Nat) (par : Nat → Nat) : Prop := ∀ v < n, ∃ i, par (par^[i] v) = par^[i] v

/-- One step of the coarsening phase: a step of one of the threads, or, when all threads are
finished and the contraction tree is acyclic, the removal of nets (nlevel_coarsener.h:180-220) -/
inductive Step (mx : Int) : St → St → Prop
  | thread (i : Nat) (s s' : St) (h : TStep mx i s s') : Step mx s s'
  | remove (s : St) (R : RemovedNets) (ord : List Nat) (h' : DH) (hi : ∀ i, s.thr i = .idle) (ha : Acyclic s.h.n s.h.par)
      (hR : RemovalOK s.h R) (ho : ord.Perm ((List.range s.h.n).filter s.h.en)) (hs : s.h.removeNetsStep R ord = some h') :
      Step mx s { s with h := h' }

/-- reachable states -/
inductive Steps (mx : Int) : St → St → Prop
  | refl (s : St) : Steps mx s s
  | tail (s s' s'' : St) (h : Steps mx s s') (h' : Step mx s' s'') : Steps mx s s''

/-! ### Uncontraction -/

/-- the position of memento `(u, v)` in a list of lists of batches, counted over all versions
(dynamic_hypergraph.cpp:184-190): index of the batch of `v` -/
def batchOf : List (List (List (Nat × Nat))) → Nat → Option Nat
  | L, v => (L.flatten.findIdx? (fun b => b.any (fun p => p.2 == v)))

/-- storing the batch indices and sorting the invalid part of the nets
(dynamic_hypergraph.cpp:182-208) -/
structure Prepared (s : DH) (L : List (List (List (Nat × Nat)))) (s' : DH) : Prop where
  bi : ∀ v b, batchOf L v = some b → s'.bi v = b
  same : s' = { s with bi := s'.bi, pins := s'.pins }
  valid : ∀ e, (s'.pins e).take (s.size e) = s.edgePins e
  perm : ∀ e, ((s'.pins e).drop (s.size e)).Perm ((s.pins e).drop (s.size e))
  sorted : ∀ e, ((s'.pins e).drop (s.size e)).Pairwise (fun a b => s'.bi b ≤ s'.bi a)

/-- Where the uncontraction of a memento `(u, v)` is: `wait` in front of `splice`, `cut` behind it
(incident_net_array.cpp:161), `nets cs` while the callbacks `cs` are still to be executed, `scan e p`
while the slots of net `e` in front of `p` are still to be searched (dynamic_hypergraph.cpp:694-704),
`write e p` in front of writing slot `p` (cpp:141-145), `resize e p` in the loop of
`restoreHyperedgeSizeForBatch` (cpp:671-683), `lost` if the search did not find the pin. -/
inductive Tk where
  | wait
  | cut
  | nets (cs : List Call)
  | scan (e p : Nat) (cs : List Call)
  | write (e p : Nat) (cs : List Call)
  | resize (e p : Nat) (cs : List Call)
  | lost
  | done

/-- State during the uncontraction of a batch: hypergraph, mementos, `_hes_to_resize_flag_array` -/
structure USt where
  h : DH
  tk : Nat → Tk
  flag : Nat → Bool

/-- One step of the uncontraction of memento `j` of the batch (dynamic_hypergraph.cpp:96-170); all
mementos may be processed at the same time -/
inductive UStep (batch : List (Nat × Nat)) : USt → USt → Prop
  /-- `splice` while `u` is locked (incident_net_array.cpp:156-162) -/
  | cut (s : USt) (j u v : Nat) (a : INA) (hj : batch[j]? = some (u, v)) (ht : s.tk j = .wait)
      (hc : s.h.ina.cut u v = some a) : UStep batch s { s with h := { s.h with ina := a }, tk := wr s.tk j .cut }
  /-- `restoreIncidentNets(v)` (incident_net_array.cpp:165), which only works on the lists of `v`; the
  callbacks are executed afterwards in the same order -/
  | restore (s : USt) (j u v : Nat) (a : INA) (cs : List Call) (hj : batch[j]? = some (u, v)) (ht : s.tk j = .cut)
      (hc : s.h.ina.restoreNets v = some (a, cs)) :
      UStep batch s { s with h := { s.h with ina := a }, tk := wr s.tk j (.nets cs) }
  /-- callback for a net that contains `v` but not `u` (dynamic_hypergraph.cpp:136-139) -/
  | two (s : USt) (j e : Nat) (cs : List Call) (ht : s.tk j = .nets (.two e :: cs)) :
      UStep batch s { s with tk := wr s.tk j (.scan e (s.h.size e) cs) }
  /-- reading one slot (dynamic_hypergraph.cpp:697-703) -/
  | scanHit (s : USt) (j u v e p : Nat) (cs : List Call) (hj : batch[j]? = some (u, v)) (ht : s.tk j = .scan e (p + 1) cs)
      (hp : (s.h.pins e).getD p 0 = u) : UStep batch s { s with tk := wr s.tk j (.write e p cs) }
  | scanMiss (s : USt) (j u v e p : Nat) (cs : List Call) (hj : batch[j]? = some (u, v)) (ht : s.tk j = .scan e (p + 1) cs)
      (hp : (s.h.pins e).getD p 0 ≠ u) : UStep batch s { s with tk := wr s.tk j (.scan e p cs) }
  | scanLost (s : USt) (j e : Nat) (cs : List Call) (ht : s.tk j = .scan e 0 cs) :
      UStep batch s { s with tk := wr s.tk j .lost }
  /-- replacing `u` by `v` (dynamic_hypergraph.cpp:141-145) -/
  | write (s : USt) (j u v e p : Nat) (cs : List Call) (hj : batch[j]? = some (u, v)) (ht : s.tk j = .write e p cs) :
      UStep batch s { s with h := { s.h with pins := wr s.h.pins e ((s.h.pins e).set p v) }, tk := wr s.tk j (.nets cs) }
  /-- callback for a net that contains `u` and `v`: another thread restores it (dynamic_hypergraph.cpp:127-128) -/
  | oneOther (s : USt) (j e : Nat) (cs : List Call) (ht : s.tk j = .nets (.one e :: cs)) (hf : s.flag e = true) :
      UStep batch s { s with tk := wr s.tk j (.nets cs) }
  /-- this thread restores it (dynamic_hypergraph.cpp:127-133) -/
  | one (s : USt) (j e : Nat) (cs : List Call) (ht : s.tk j = .nets (.one e :: cs)) (hf : s.flag e = false) :
      UStep batch s { s with flag := wr s.flag e true, tk := wr s.tk j (.resize e (s.h.size e) cs) }
  /-- one more pin (dynamic_hypergraph.cpp:671-682); the index of the batch is the one of its first memento (cpp:122) -/
  | grow (s : USt) (j e p : Nat) (cs : List Call) (ht : s.tk j = .resize e p cs) (hp : p < (s.h.pins e).length)
      (hb : s.h.bi ((s.h.pins e).getD p 0) = s.h.bi (batch.getD 0 (0, 0)).2) :
      UStep batch s { s with h := { s.h with size := wr s.h.size e (s.h.size e + 1) }, tk := wr s.tk j (.resize e (p + 1) cs) }
  | grown (s : USt) (j e p : Nat) (cs : List Call) (ht : s.tk j = .resize e p cs)
      (hp : (s.h.pins e).length ≤ p ∨ s.h.bi ((s.h.pins e).getD p 0) ≠ s.h.bi (batch.getD 0 (0, 0)).2) :
      UStep batch s { s with tk := wr s.tk j (.nets cs) }
  /-- enabling `v` (dynamic_hypergraph.cpp:152-157) -/
  | enable (s : USt) (j u v : Nat) (hj : batch[j]? = some (u, v)) (ht : s.tk j = .nets []) :
      UStep batch s { s with h := { s.h with en := wr s.h.en v true, wt := wr s.h.wt u (s.h.wt u - s.h.wt v) }, tk := wr s.tk j .done }

/-- states reached while a batch is uncontracted -/
inductive USteps (batch : List (Nat × Nat)) : USt → USt → Prop
  | refl (s : USt) : USteps batch s s
  | tail (s s' s'' : USt) (h : USteps batch s s') (h' : UStep batch s' s'') : USteps batch s s''

/-- `uncontract(batch)` (dynamic_hypergraph.cpp:96-170) -/
def Uncontract (batch : List (Nat × Nat)) (s s' : DH) : Prop :=
  ∃ tk flag, USteps batch ⟨s, fun _ => .wait, fun _ => false⟩ ⟨s', tk, flag⟩ ∧ ∀ j < batch.length, tk j = .done

/-- `restoreIncidentNets` for several nodes (dynamic_hypergraph.cpp:356-358) -/
def INA.restoreAll : List Nat → INA → Option INA
  | [], a => some a
  | x :: l, a => match a.restoreNets x with
    | none => none
    | some r => INA.restoreAll l r.1

/-- `restoreSinglePinAndParallelNets` (dynamic_hypergraph.cpp:337-361) -/
def DH.restoreNetsStep (s : DH) (R : RemovedNets) (ord : List Nat) : Option DH :=
  match INA.restoreAll ord s.ina with
  | none => none
  | some a => some { s with
      een := fun e => s.een e || (R.map Prod.fst).contains e
      ew := fun e => s.ew e - addedWeight s.ew R e
      ina := a
      V := s.V - 1 }

/-- One step of `projectToNextLevelAndRefineImpl` (nlevel_uncoarsener.cpp:139-206) on the batches that are
still to be uncontracted, one list of batches for every version: uncontracting the last batch of the last
version (`batches.back()`, cpp:146-191), or, if the last version has no batch left, restoring the nets that
were removed in front of it (cpp:199-206; the removed nets are kept by the coarsener, here in the field
`removed`, the last ones first) and going on with the version before. The refinement between the steps does
not change the hypergraph. -/
inductive UncStep : List (List (List (Nat × Nat))) × DH → List (List (List (Nat × Nat))) × DH → Prop
  | batch (L : List (List (List (Nat × Nat)))) (B : List (List (Nat × Nat))) (b : List (Nat × Nat)) (s s' : DH)
      (h : Uncontract b s s') : UncStep (L ++ [B ++ [b]], s) (L ++ [B], s')
  | nets (L : List (List (List (Nat × Nat)))) (B : List (List (Nat × Nat))) (s s' : DH) (R : RemovedNets) (rest : List RemovedNets)
      (ord : List Nat) (hr : s.removed = R :: rest) (ho : ord.Perm ((List.range s.n).filter s.en))
      (hs : { s with removed := rest }.restoreNetsStep R ord = some s') : UncStep (L ++ [B] ++ [[]], s) (L ++ [B], s')

/-- several steps -/
inductive UncSteps : List (List (List (Nat × Nat))) × DH → List (List (List (Nat × Nat))) × DH → Prop
  | refl (x : List (List (List (Nat × Nat))) × DH) : UncSteps x x
  | tail (x y z : List (List (List (Nat × Nat))) × DH) (h : UncSteps x y) (h' : UncStep y z) : UncSteps x z

end Dyn
end Verif
