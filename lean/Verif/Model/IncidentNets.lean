import Verif.Model.Maps
/-!
# Model: the incident net lists of the n-level hypergraph

`IncidentNetArray` (incident_net_array.h:93-308, incident_net_array.cpp). Every node owns an array of
entries (net, version); the arrays of the nodes contracted into a node are concatenated by two
circular doubly linked lists, one over all of them and one over the non-empty ones.

Simplifications: the byte array of headers and entries is a set of functions on node ids
(`_index_array` is not modelled); ids are unbounded, versions and degrees are integers (the code
uses unsigned numbers, where -1 is the largest value); loops that follow pointers get a bound on the
number of iterations and fail (`none`) if they do not end within it.
-/
namespace Verif
namespace Dyn
open SMap (wr)

/-- `IncidentNetArray` (incident_net_array.h:107-152, 292-295): fields of the headers and the entries of
each node (the active ones are the first `sz`) -/
structure INA where
  n : Nat
  pv : Nat → Nat
  nx : Nat → Nat
  ipv : Nat → Nat
  inx : Nat → Nat
  tl : Nat → Nat
  sz : Nat → Nat
  dg : Nat → Int
  vr : Nat → Int
  hd : Nat → Bool
  ent : Nat → List (Nat × Int)

/-- the active nets in the array of node `x` -/
def INA.active (s : INA) (x : Nat) : List Nat := ((s.ent x).take (s.sz x)).map Prod.fst

/-- `removeEmptyIncidentNetList` (incident_net_array.cpp:356-364) -/
def INA.removeEmpty (s : INA) (x : Nat) : INA :=
  { s with
    inx := wr (wr s.inx (s.ipv x) (s.inx x)) x x
    ipv := wr (wr s.ipv (s.inx x) (s.ipv x)) x x }

/-- The links set by `append` (incident_net_array.cpp:306-320) -/
def INA.link (s : INA) (u v : Nat) : INA :=
  { s with
    nx := wr (wr s.nx (s.pv u) v) (s.pv v) u
    pv := wr (wr s.pv u (s.pv v)) v (s.pv u)
    tl := wr s.tl v (s.pv v)
    inx := wr (wr s.inx (s.ipv u) v) (s.ipv v) u
    ipv := wr (wr s.ipv u (s.ipv v)) v (s.ipv u)
    hd := wr s.hd v false }

/-- `append` (incident_net_array.cpp:305-325) -/
def INA.append (s : INA) (u v : Nat) : INA :=
  if s.sz v = 0 then (s.link u v).removeEmpty v else s.link u v

/-- search for the next non-empty list in one direction (incident_net_array.cpp:331-342): `f` is
`prev` or `next`, `x` the starting point, `u` the head of the list -/
def INA.findNonEmpty (s : INA) (f : Nat → Nat) (x u : Nat) : Nat → Nat → Option Nat
  | 0, _ => none
  | fuel + 1, c => if (c = x ∨ s.sz c = 0) ∧ c ≠ u then s.findNonEmpty f x u fuel (f c) else some c

/-- the updates of `splice` (incident_net_array.cpp:343-353), `a` and `b` are the non-empty lists
in front of and behind the list of `v` -/
def INA.unlink (s : INA) (v a b : Nat) : INA :=
  { s with
    inx := wr s.inx a b
    ipv := wr s.ipv b a
    pv := wr (wr s.pv v (s.tl v)) (s.nx (s.tl v)) (s.pv v)
    nx := wr (wr s.nx (s.tl v) v) (s.pv v) (s.nx (s.tl v))
    hd := wr s.hd v true }

/-- `splice` (incident_net_array.cpp:327-354) -/
def INA.splice (s : INA) (u v : Nat) : Option INA :=
  match s.findNonEmpty s.pv v u (s.n + 1) v, s.findNonEmpty s.nx (s.tl v) u (s.n + 1) (s.tl v) with
  | some a, some b => some (s.unlink v a b)
  | _, _ => none

/-- exchange of two entries (incident_net_array.h:277-281) -/
def swapAt (l : List (Nat × Int)) (i j : Nat) : List (Nat × Int) :=
  (l.set i (l.getD j (0, 0))).set j (l.getD i (0, 0))

/-- The loop over the entries of one list in `removeIncidentNets` (incident_net_array.cpp:176-188):
entries and new size -/
def rmEntries (flag : Nat → Bool) (nv : Int) (l : List (Nat × Int)) (i last : Nat) : List (Nat × Int) × Nat :=
  if i < last then
    if flag (l.getD i (0, 0)).1 then rmEntries flag nv (swapAt l i (last - 1)) i (last - 1)
    else rmEntries flag nv (l.set i ((l.getD i (0, 0)).1, nv)) (i + 1) last
  else (l, last)
termination_by last - i

/-- the updates of the array of node `c` in `removeIncidentNets` (incident_net_array.cpp:174-188) -/
def INA.rmArr (s : INA) (flag : Nat → Bool) (u c : Nat) : INA :=
  let r := rmEntries flag (s.vr c + 1) (s.ent c) 0 (s.sz c)
  { s with
    vr := wr s.vr c (s.vr c + 1)
    ent := wr s.ent c r.1
    sz := wr s.sz c r.2
    dg := wr s.dg u (s.dg u - (s.sz c - r.2 : Nat)) }

/-- one iteration of `removeIncidentNets` (incident_net_array.cpp:174-194) -/
def INA.rmNode (s : INA) (flag : Nat → Bool) (u c : Nat) : INA :=
  if (s.rmArr flag u c).sz c = 0 ∧ c ≠ u then (s.rmArr flag u c).removeEmpty c else s.rmArr flag u c

/-- the loop of `removeIncidentNets` (incident_net_array.cpp:173-196) -/
def INA.rmLoop (flag : Nat → Bool) (u : Nat) : Nat → Nat → INA → Option INA
  | 0, _, _ => none
  | fuel + 1, c, s =>
    if (s.rmNode flag u c).nx c = u then some (s.rmNode flag u c)
    else INA.rmLoop flag u fuel ((s.rmNode flag u c).nx c) (s.rmNode flag u c)

/-- `removeIncidentNets` (incident_net_array.cpp:169-198) -/
def INA.removeNets (s : INA) (u : Nat) (flag : Nat → Bool) : Option INA := INA.rmLoop flag u (s.n + 1) u s

/-- calls of the functions passed to `uncontract` -/
inductive Call where
  | one (e : Nat)
  | two (e : Nat)

/-- non-active entries of `c` that are activated (incident_net_array.cpp:235-246) -/
def INA.again (s : INA) (c : Nat) : List (Nat × Int) :=
  ((s.ent c).drop (s.sz c)).takeWhile (fun p => p.2 == s.vr c - 1)

/-- the calls made while the array of `c` is processed (incident_net_array.cpp:227-246) -/
def INA.calls (s : INA) (c : Nat) : List Call :=
  (s.active c).map Call.two ++ (s.again c).map (fun p => Call.one p.1)

/-- activating the entries of one array (incident_net_array.cpp:221-246) -/
def INA.restArr (s : INA) (u c : Nat) : INA :=
  { s with
    vr := wr s.vr c (s.vr c - 1)
    sz := wr s.sz c (s.sz c + (s.again c).length)
    dg := wr s.dg u (s.dg u + (s.again c).length) }

/-- Relinking the non-empty lists (incident_net_array.cpp:250-257); `last` is
`last_non_empty_entry` (`none` for `kInvalidHypernode`). Returns the new value of `last`. -/
def INA.relink (s : INA) (u c : Nat) (last : Option Nat) : INA × Option Nat :=
  if s.sz c > 0 ∨ c = u then
    match last with
    | none => (s, some c)
    | some l => if s.ipv c ≠ l then ({ s with inx := wr s.inx l c, ipv := wr s.ipv c l }, some c) else (s, some c)
  else (s, last)

/-- The loop of `restoreIncidentNets` (incident_net_array.cpp:217-259) and the calls it makes -/
def INA.restLoop (u : Nat) : Nat → Nat → Option Nat → INA → Option (INA × Option Nat × List Call)
  | 0, _, _, _ => none
  | fuel + 1, c, last, s =>
    let r := (s.restArr u c).relink u c last
    if r.1.nx c = u then some (r.1, r.2, s.calls c)
    else match INA.restLoop u fuel (r.1.nx c) r.2 r.1 with
      | none => none
      | some q => some (q.1, q.2.1, s.calls c ++ q.2.2)

/-- `restoreIncidentNets` (incident_net_array.cpp:214-265) -/
def INA.restoreNets (s : INA) (u : Nat) : Option (INA × List Call) :=
  match INA.restLoop u (s.n + 1) u none s with
  | some (s', some l, cs) => some ({ s' with ipv := wr s'.ipv u l, inx := wr s'.inx l u }, cs)
  | _ => none

/-- `IncidentNetArray::contract` (incident_net_array.cpp:115-129) -/
def INA.contract (s : INA) (u v : Nat) (shared : Nat → Bool) : Option INA :=
  match s.removeNets v shared with
  | none => none
  | some s' => some { s'.append u v with dg := wr (s'.append u v).dg u ((s'.append u v).dg u + (s'.append u v).dg v) }

/-- the part of `uncontract` that holds the lock of `u` (incident_net_array.cpp:156-162) -/
def INA.cut (s : INA) (u v : Nat) : Option INA :=
  match s.splice u v with
  | none => none
  | some s' => some { s' with dg := wr s'.dg u (s'.dg u - s'.dg v) }

/-- `IncidentNetArray::uncontract` (incident_net_array.cpp:148-166) -/
def INA.uncontract (s : INA) (u v : Nat) : Option (INA × List Call) :=
  match s.cut u v with
  | none => none
  | some s' => s'.restoreNets v

/-- `reset` (incident_net_array.cpp:296-303) -/
def INA.reset (s : INA) : INA :=
  { s with
    vr := fun _ => 0
    ent := fun x => ((s.ent x).take (s.sz x)).map (fun p => (p.1, 0)) ++ (s.ent x).drop (s.sz x) }

/-- The iterator over the incident nets behind the array of `c` (incident_net_array.cpp:92-109):
the nets of the following non-empty lists -/
def INA.netsFrom (s : INA) : Nat → Nat → Option (List Nat)
  | 0, _ => none
  | fuel + 1, c =>
    if s.hd (s.inx c) = true ∨ s.inx c = c then some []
    else (s.netsFrom fuel (s.inx c)).map (fun l => s.active (s.inx c) ++ l)

/-- `incidentEdges(u)` (incident_net_array.h:177-182, incident_net_array.cpp:35-109) -/
def INA.incidentEdges (s : INA) (u : Nat) : Option (List Nat) :=
  (s.netsFrom (s.n + 1) u).map (fun l => s.active u ++ l)

/-- the state after `construct` (incident_net_array.cpp:366-425); `nets x` are the nets of node `x`
in the order in which the parallel loop inserts them, `tl0` the uninitialised field -/
def INA.construct (n : Nat) (nets : Nat → List Nat) (tl0 : Nat → Nat) : INA where
  n := n
  pv := id
  nx := id
  ipv := id
  inx := id
  tl := tl0
  sz := fun x => (nets x).length
  dg := fun x => (nets x).length
  vr := fun _ => 0
  hd := fun _ => true
  ent := fun x => (nets x).map (fun e => (e, 0))

end Dyn
end Verif
