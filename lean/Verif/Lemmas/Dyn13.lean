import Verif.Lemmas.Dyn11
import Verif.Lemmas.Dyn12
import Mathlib.Algebra.BigOperators.Group.Finset.Basic
import Mathlib.Algebra.Order.BigOperators.Group.Finset
/-!
# Invariant of the coarsening phase
-/
namespace Verif
namespace Dyn
open SMap (wr)

/-- nodes in use -/
def DH.live (s0 : DH) (x : Nat) : Prop := x < s0.n ∧ s0.en x = true
/-- nets in use -/
def DH.used (s0 : DH) (e : Nat) : Prop := e < s0.m ∧ s0.een e = true
/-- pins in the beginning -/
def DH.orig (s0 : DH) (x e : Nat) : Prop := s0.used e ∧ x ∈ s0.edgePins e

/-- The state in front of the coarsening: no contraction took place, and the incident nets belong to
the pins. Nodes and nets may already be disabled. -/
structure Clean (s0 : DH) : Prop where
  root : ∀ v, s0.par v = v
  pend : ∀ v, s0.pend v = 0
  ver : ∀ v, s0.ver v = kInvVer
  V : s0.V = 0
  removed : s0.removed = []
  wt : ∀ v, 0 ≤ s0.wt v
  size : ∀ e, s0.used e → s0.size e = (s0.pins e).length
  nodup : ∀ e, s0.used e → (s0.pins e).Nodup
  pins : ∀ e, s0.used e → ∀ x ∈ s0.pins e, s0.live x
  inaN : s0.ina.n = s0.n
  links : ∀ x, s0.live x → s0.ina.nx x = x ∧ s0.ina.pv x = x ∧ s0.ina.inx x = x ∧ s0.ina.ipv x = x ∧ s0.ina.hd x = true
  sz : ∀ x, s0.live x → s0.ina.sz x ≤ (s0.ina.ent x).length
  act : ∀ x, s0.live x → ∀ p ∈ (s0.ina.ent x).take (s0.ina.sz x), p.2 = s0.ina.vr x
  inact : ∀ x, s0.live x → ∀ p ∈ (s0.ina.ent x).drop (s0.ina.sz x), p.2 < s0.ina.vr x
  dg : ∀ x, s0.live x → s0.ina.dg x = s0.ina.sz x
  nets : ∀ x, s0.live x → (s0.ina.active x).Nodup ∧ ∀ e, e ∈ s0.ina.active x ↔ s0.orig x e

/-- history of a state: merged nodes, forest, removals, logs of the nets, removed nets of the
versions, finished contractions, times -/
structure Gh where
  mg : Nat → Bool
  kids : Nat → List Nat
  sg : Nat → List Nat
  ops : Nat → List Op
  one : Nat → Nat → Bool
  two : Nat → Nat → Bool
  rem : Nat → Nat → Bool
  fin : Nat → Bool
  tk : Nat → Bool
  gst : Nat → Nat
  gsp : Nat → Nat

/-- whether a removal leaves a net in the lists -/
def Gh.keep (G : Gh) : Op → Nat → Bool
  | .contr v, e => !G.one v e
  | .ver k, e => !G.rem k e

/-- `x` is a pin of `e`, or was one before it was contracted -/
def Gh.isIn (G : Gh) (s0 : DH) (par : Nat → Nat) (x e : Nat) : Prop := InN (fun x => s0.orig x e) par (fun v => G.two v e) x

/-- nets found in the lists of `v` -/
def Gh.nets (G : Gh) (a : INA) (v : Nat) : List Nat := (G.sg v).flatMap a.active

/-- forest and incident nets -/
structure InvT (s0 : DH) (h : DH) (G : Gh) : Prop where
  nEq : h.n = s0.n
  mEq : h.m = s0.m
  tree : Tree s0.n G.mg h.par G.kids G.sg
  ina : INAOK s0.n s0.live G.mg (fun _ => false) h.par G.kids G.sg h.ver G.keep s0.ina.vr s0.ina.active G.ops h.V h.ina
  fresh : Fresh s0.live s0.ina.vr G.ops h.ina

/-- nets -/
structure InvE (s0 : DH) (h : DH) (G : Gh) : Prop where
  log : ∀ e, LogOK (fun x => s0.orig x e) h.par (fun v => G.one v e) (fun v => G.two v e)
  pins : ∀ e, s0.used e → PinsOK (fun x => s0.orig x e) h.par (fun v => G.one v e) (fun v => G.two v e) (h.pins e) (h.size e)
  other : ∀ e, ¬ s0.used e → h.pins e = s0.pins e ∧ h.size e = s0.size e
  logU : ∀ v e, G.one v e = true ∨ G.two v e = true → s0.used e ∧ s0.live v ∧ h.en v = false ∧ ∀ k < h.ver v, G.rem k e = false
  comp : ∀ v e, G.mg v = true → G.isIn s0 h.par v e → (∀ k < h.ver v, G.rem k e = false) → G.one v e = true ∨ G.two v e = true
  oneIn : ∀ v e, G.one v e = true → s0.orig (h.par v) e ∨ ∃ w, h.par w = h.par v ∧ w ≠ h.par w ∧ G.two w e = true ∧
    (h.ver w < h.ver v ∨ (h.ver w = h.ver v ∧ (G.tk v = true → G.gst w < G.gsp v)))

/-- the pair of a running contraction -/
def Pc.on : Pc → Option (Nat × Nat)
  | .load u v => some (u, v)
  | .iter u v _ _ _ _ => some (u, v)
  | .late u v _ _ _ => some (u, v)
  | .tick u v _ => some (u, v)
  | .unreg u v _ _ => some (u, v)
  | _ => none

open Classical in
/-- children whose contraction is not finished -/
noncomputable def openKids (n : Nat) (par : Nat → Nat) (fin : Nat → Bool) (u : Nat) : Finset Nat :=
  (Finset.range n).filter (fun v => par v = u ∧ v ≠ u ∧ fin v = false)

open Classical in
/-- children whose weight was added -/
noncomputable def inside (s0 : DH) (par : Nat → Nat) (en : Nat → Bool) (u : Nat) : Finset Nat :=
  (Finset.range s0.n).filter (fun v => par v = u ∧ s0.en v = true ∧ en v = false)

/-- contraction tree and weights -/
structure InvP (s0 : DH) (s : St) (G : Gh) : Prop where
  root : ∀ v, s.h.par v ≠ v → s0.live v ∧ s0.live (s.h.par v)
  enLe : ∀ v, s.h.en v = true → s0.en v = true
  dis : ∀ v, s0.live v → s.h.en v = false → s.h.par v ≠ v ∧ (G.fin v = true ∨ ∃ i u, (s.thr i).on = some (u, v))
  uniq : ∀ i j u u' v, (s.thr i).on = some (u, v) → (s.thr j).on = some (u', v) → i = j
  finD : ∀ v, G.fin v = true → s.h.en v = false ∧ s.h.par v ≠ v ∧ G.mg v = true ∧ G.tk v = true ∧ s.h.start v = G.gst v ∧ s.h.stop v = G.gsp v
  mgD : ∀ v, G.mg v = true → s.h.en v = false
  unf : ∀ v, s.h.par v ≠ v → G.fin v = false → s.h.en (s.h.par v) = true ∧ s.h.ver v = s.h.V
  pend : ∀ u, s.h.pend u = (openKids s0.n s.h.par G.fin u).card
  owed : ∀ v, s.h.en v = true → s.h.par v ≠ v → 0 < s.h.pend v ∨ ∃ i, s.thr i = .look v ∨ s.thr i = .tryC (s.h.par v) v
  verR : ∀ v, s.h.par v = v → s.h.ver v = kInvVer
  verM : ∀ v, G.mg v = true → s.h.par (s.h.par v) ≠ s.h.par v → s.h.ver v ≤ s.h.ver (s.h.par v)
  wt0 : ∀ v, 0 ≤ s.h.wt v
  wtS : ∀ u, s.h.wt u = s0.wt u + ∑ v ∈ inside s0 s.h.par s.h.en u, s.h.wt v
  gst : ∀ v, G.gst v ≤ s.h.cidx
  tk : ∀ v, G.tk v = true → G.gst v < G.gsp v ∧ G.gsp v ≤ s.h.cidx ∧ s.h.en v = false

/-- the removed nets of the versions -/
def RemOK (rem : Nat → Nat → Bool) : Nat → List RemovedNets → Prop
  | 0, [] => True
  | k + 1, R :: rest => (∀ e, rem k e = (R.map Prod.fst).contains e) ∧ RemOK rem k rest
  | _, _ => False

/-- undoing the changes of the net weights -/
def undoW : List RemovedNets → (Nat → Int) → Nat → Int
  | [], w => w
  | R :: rest, w => undoW rest (fun e => w e - addedWeight w R e)

/-- undoing the removal of nets -/
def undoE : List RemovedNets → (Nat → Bool) → Nat → Bool
  | [], w => w
  | R :: rest, w => undoE rest (fun e => w e || (R.map Prod.fst).contains e)

/-- removed nets -/
structure InvN (s0 : DH) (h : DH) (G : Gh) : Prop where
  rem : RemOK G.rem h.V h.removed
  remV : ∀ k e, G.rem k e = true → k < h.V
  once : ∀ k j e, G.rem k e = true → G.rem j e = true → j = k
  ew : undoW h.removed h.ew = s0.ew
  een : undoE h.removed h.een = s0.een
  enabled : ∀ e, h.een e = true ↔ s0.een e = true ∧ ∀ k, G.rem k e = false

/-- a running contraction of `v` onto `u` -/
structure RunOK (h : DH) (G : Gh) (u v : Nat) : Prop where
  par : h.par v = u
  ne : u ≠ v
  en : h.en v = false
  fin : G.fin v = false
  pend : h.pend v = 0

/-- the nets `todo` are still to be contracted -/
structure TodoOK (h : DH) (G : Gh) (v : Nat) (sh : Nat → Bool) (todo : List Nat) : Prop where
  nodup : todo.Nodup
  sub : ∀ e ∈ todo, e ∈ G.nets h.ina v
  log : ∀ e, (G.one v e = true ∨ G.two v e = true) ↔ e ∈ G.nets h.ina v ∧ e ∉ todo
  sh : ∀ e, sh e = G.one v e

/-- a thread -/
def ThrOK (s0 : DH) (mx : Int) (h : DH) (ref : Nat → Nat → Bool) (G : Gh) : Pc → Prop
  | .idle => True
  | .look v => s0.live v
  | .tryC u v => s0.live u ∧ s0.live v ∧ u ≠ v ∧ (h.par v = u ∨ h.en v = false ∨ mx < h.wt u + h.wt v ∨ ref u v = true)
  | .load u v => RunOK h G u v ∧ G.mg v = false ∧ G.tk v = false ∧ ∀ e, G.one v e = false ∧ G.two v e = false
  | .iter u v st j sh failed => RunOK h G u v ∧ G.mg v = false ∧ G.tk v = false ∧ st = G.gst v ∧ TodoOK h G v sh (failed ++ (G.nets h.ina v).drop j)
  | .late u v st sh failed => RunOK h G u v ∧ G.mg v = false ∧ G.tk v = false ∧ st = G.gst v ∧ TodoOK h G v sh failed
  | .tick u v st => RunOK h G u v ∧ G.mg v = true ∧ G.tk v = false ∧ st = G.gst v
  | .unreg u v st sp => RunOK h G u v ∧ G.mg v = true ∧ G.tk v = true ∧ st = G.gst v ∧ sp = G.gsp v

/-- The invariant -/
structure Inv (s0 : DH) (mx : Int) (s : St) (G : Gh) : Prop where
  t : InvT s0 s.h G
  e : InvE s0 s.h G
  p : InvP s0 s G
  n : InvN s0 s.h G
  thr : ∀ i, ThrOK s0 mx s.h s.ref G (s.thr i)

theorem ThrOK.run {s0 : DH} {mx : Int} {h : DH} {ref : Nat → Nat → Bool} {G : Gh} {pc : Pc} (hp : ThrOK s0 mx h ref G pc) {u v : Nat}
    (ho : pc.on = some (u, v)) : RunOK h G u v := by
  cases pc <;> simp only [Pc.on, Option.some.injEq, Prod.mk.injEq, reduceCtorEq] at ho
  all_goals
    obtain ⟨rfl, rfl⟩ := ho
    exact hp.1

/-- what a change of the state has to preserve for a running contraction -/
theorem ThrOK.stable {s0 : DH} {mx : Int} {h h' : DH} {ref ref' : Nat → Nat → Bool} {G G' : Gh} {pc : Pc} (hp : ThrOK s0 mx h ref G pc)
    (hrun : ∀ u v, pc.on = some (u, v) → h'.par v = h.par v ∧ h'.en v = h.en v ∧ G'.fin v = G.fin v ∧ h'.pend v = h.pend v ∧
      G'.mg v = G.mg v ∧ G'.tk v = G.tk v ∧ G'.gst v = G.gst v ∧ G'.gsp v = G.gsp v ∧ (∀ e, G'.one v e = G.one v e ∧ G'.two v e = G.two v e) ∧
      (G.mg v = false → G'.nets h'.ina v = G.nets h.ina v))
    (htry : ∀ u v, pc = .tryC u v → u ≠ v → h.par v = u ∨ h.en v = false ∨ mx < h.wt u + h.wt v ∨ ref u v = true →
      h'.par v = u ∨ h'.en v = false ∨ mx < h'.wt u + h'.wt v ∨ ref' u v = true) :
    ThrOK s0 mx h' ref' G' pc := by
  have hr : ∀ u v, pc.on = some (u, v) → RunOK h G u v → RunOK h' G' u v := by
    intro u v ho hr
    obtain ⟨h1, h2, h3, h4, _⟩ := hrun u v ho
    exact ⟨by rw [h1]; exact hr.par, hr.ne, by rw [h2]; exact hr.en, by rw [h3]; exact hr.fin, by rw [h4]; exact hr.pend⟩
  have htodo : ∀ u v sh todo, pc.on = some (u, v) → G.mg v = false → TodoOK h G v sh todo → TodoOK h' G' v sh todo := by
    intro u v sh todo ho hm ht
    obtain ⟨_, _, _, _, _, _, _, _, h9, h10⟩ := hrun u v ho
    refine ⟨ht.nodup, ?_, ?_, ?_⟩
    · rw [h10 hm]; exact ht.sub
    · intro e; rw [(h9 e).1, (h9 e).2, h10 hm]; exact ht.log e
    · intro e; rw [(h9 e).1]; exact ht.sh e
  cases pc with
  | idle => trivial
  | look v => exact hp
  | tryC u v =>
    obtain ⟨h1, h2, h3, h4⟩ := hp
    exact ⟨h1, h2, h3, htry u v rfl h3 h4⟩
  | load u v =>
    obtain ⟨h1, h2, h3, h4⟩ := hp
    obtain ⟨_, _, _, _, k5, k6, _, _, k9, _⟩ := hrun u v rfl
    refine ⟨hr u v rfl h1, by rw [k5]; exact h2, by rw [k6]; exact h3, ?_⟩
    intro e; rw [(k9 e).1, (k9 e).2]; exact h4 e
  | iter u v st j sh failed =>
    obtain ⟨h1, h2, h3, h4, h5⟩ := hp
    obtain ⟨_, _, _, _, k5, k6, k7, _, k9, k10⟩ := hrun u v rfl
    refine ⟨hr u v rfl h1, by rw [k5]; exact h2, by rw [k6]; exact h3, by rw [k7]; exact h4, ?_⟩
    rw [k10 h2]
    exact htodo u v _ _ rfl h2 h5
  | late u v st sh failed =>
    obtain ⟨h1, h2, h3, h4, h5⟩ := hp
    obtain ⟨_, _, _, _, k5, k6, k7, _, k9, k10⟩ := hrun u v rfl
    exact ⟨hr u v rfl h1, by rw [k5]; exact h2, by rw [k6]; exact h3, by rw [k7]; exact h4, htodo u v _ _ rfl h2 h5⟩
  | tick u v st =>
    obtain ⟨h1, h2, h3, h4⟩ := hp
    obtain ⟨_, _, _, _, k5, k6, k7, _⟩ := hrun u v rfl
    exact ⟨hr u v rfl h1, by rw [k5]; exact h2, by rw [k6]; exact h3, by rw [k7]; exact h4⟩
  | unreg u v st sp =>
    obtain ⟨h1, h2, h3, h4, h5⟩ := hp
    obtain ⟨_, _, _, _, k5, k6, k7, k8, _⟩ := hrun u v rfl
    exact ⟨hr u v rfl h1, by rw [k5]; exact h2, by rw [k6]; exact h3, by rw [k7]; exact h4, by rw [k8]; exact h5⟩

end Dyn
end Verif
