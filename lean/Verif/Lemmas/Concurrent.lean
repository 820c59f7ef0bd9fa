import Verif.Model.ConcurrentMoves
import Verif.Lemmas.GainCache
import Verif.Lemmas.PHG
/-!
# Invariants of the interleaving semantics
-/
namespace Verif

/-- hyperedges that are still to be updated -/
def pendEdges (t : List Micro) : List Nat :=
  t.filterMap (fun m => match m with | .edge e => some e | .cache _ => none)

/-- cache operations that are still to be executed -/
def pendOps (t : List Micro) : List CacheOp :=
  t.filterMap (fun m => match m with | .edge _ => none | .cache op => some op)

theorem pendEdges_edges (l : List Nat) : pendEdges (l.map Micro.edge) = l := by
  induction l with
  | nil => rfl
  | cons a l ih => simp only [List.map_cons]; rw [← ih]; simp [pendEdges]

theorem pendOps_edges (l : List Nat) : pendOps (l.map Micro.edge) = [] := by
  induction l with
  | nil => rfl
  | cons a l ih => simp [pendOps]

theorem pendEdges_cache_append (l : List CacheOp) (t : List Micro) :
    pendEdges (l.map Micro.cache ++ t) = pendEdges t := by
  induction l with
  | nil => rfl
  | cons a l ih => simp only [List.map_cons, List.cons_append]; rw [← ih]; rfl

theorem pendOps_cache_append (l : List CacheOp) (t : List Micro) :
    pendOps (l.map Micro.cache ++ t) = l ++ pendOps t := by
  induction l with
  | nil => rfl
  | cons a l ih => simp only [List.map_cons, List.cons_append]; rw [← ih]; rfl

/-- block of a node as seen by the pin counts of hyperedge `e` -/
def viewOf (p : Proc) (pu : Option Nat) (e : Nat) : Option Nat :=
  match p with
  | .idle => pu
  | .accepted src _ => some src
  | .placed src _ => some src
  | .run src _ t => if e ∈ pendEdges t then some src else pu
  | .rejected _ => pu

/-- weight on the counter of block `b` that belongs to a node not (or no longer) assigned to `b` -/
def extra (w : Int) (b : Nat) : Proc → Int
  | .idle => 0
  | .accepted _ dst => if b = dst then w else 0
  | .placed src _ => if b = src then w else 0
  | .run _ _ _ => 0
  | .rejected dst => if b = dst then w else 0

def pendOf : Proc → List CacheOp
  | .run _ _ t => pendOps t
  | _ => []

theorem sum_map_upd {nodes : List Nat} (hn : nodes.Nodup) {u : Nat} (hu : u ∈ nodes)
    {f g : Nat → Int} (h : ∀ v, v ≠ u → g v = f v) :
    (nodes.map g).sum = (nodes.map f).sum + (g u - f u) := by
  induction nodes with
  | nil => simp at hu
  | cons a l ih =>
    rw [List.nodup_cons] at hn
    rw [List.map_cons, List.map_cons, List.sum_cons, List.sum_cons]
    by_cases ha : a = u
    · subst ha
      have : l.map g = l.map f := List.map_congr_left (fun v hv => h v (fun hh => hn.1 (hh ▸ hv)))
      rw [this]; ring
    · have hm : u ∈ l := by
        rcases List.mem_cons.1 hu with h1 | h1
        · exact absurd h1.symm ha
        · exact h1
      rw [ih hn.2 hm, h a ha]; ring

namespace CSt
variable {σ : Type} {C : ConInfo σ} {H : HG} {m k mx : Nat} {o : Metrics.Obj}

def view (s : CSt σ) (e : Nat) : Assign := fun v => viewOf (s.proc v) (s.part v) e

/-- Inversion of one step. -/
inductive Step (C : ConInfo σ) (H : HG) (k : Nat) (o : Metrics.Obj) (s : CSt σ) :
    Act → CSt σ → Prop
  | accept {u src dst lim} (hu : u ∈ H.nodes) (hd : dst < k) (hi : s.proc u = .idle)
      (hp : s.part u = some src) (hne : src ≠ dst) (hle : s.wt dst + H.nw u ≤ lim) :
      Step C H k o s (.start u dst lim)
        { s with wt := addWt s.wt dst (H.nw u), proc := s.setProc u (.accepted src dst),
                 moved := fun v => if v = u then true else s.moved v }
  | reject {u src dst lim} (hu : u ∈ H.nodes) (hd : dst < k) (hi : s.proc u = .idle)
      (hp : s.part u = some src) (hne : src ≠ dst) :
      Step C H k o s (.start u dst lim)
        { s with wt := addWt s.wt dst (H.nw u), proc := s.setProc u (.rejected dst) }
  | place {u src dst} (hq : s.proc u = .accepted src dst) :
      Step C H k o s (.tick u)
        { s with part := s.part.put u dst, proc := s.setProc u (.placed src dst) }
  | release {u src dst} (hq : s.proc u = .placed src dst) :
      Step C H k o s (.tick u)
        { s with wt := addWt s.wt src (-H.nw u),
                 proc := s.setProc u (.run src dst ((H.inc u).map .edge)) }
  | ret {u src dst} (hq : s.proc u = .run src dst []) :
      Step C H k o s (.tick u) { s with proc := s.setProc u .idle }
  | edge {u src dst e t} (hq : s.proc u = .run src dst (.edge e :: t)) :
      Step C H k o s (.tick u)
        { s with con := (PHG.updateEdge C H s.con e src dst).2,
                 log := s.log ++ [(PHG.updateEdge C H s.con e src dst).1],
                 proc := s.setProc u (.run src dst
                   ((gainDelta o k (H.pins e) (PHG.updateEdge C H s.con e src dst).1).map .cache
                     ++ t)) }
  | test {u src dst v b i a t} (hq : s.proc u = .run src dst (.cache (.addIf v b i a) :: t)) :
      Step C H k o s (.tick u)
        { s with proc := s.setProc u (.run src dst
                   (if s.part v = some b then .cache (.add i a) :: t else t)) }
  | add {u src dst i a t} (hq : s.proc u = .run src dst (.cache (.add i a) :: t)) :
      Step C H k o s (.tick u)
        { s with cache := fun j => if j = i then s.cache j + a else s.cache j,
                 proc := s.setProc u (.run src dst t) }
  | undo {u dst} (hq : s.proc u = .rejected dst) :
      Step C H k o s (.tick u)
        { s with wt := addWt s.wt dst (-H.nw u), proc := s.setProc u .idle }
  | recomp {u} (hu : u ∈ H.nodes) (hq : ∀ v ∈ H.nodes, s.proc v = .idle) :
      Step C H k o s (.recompute u)
        { s with
          cache := fun j => if j = penIdx k u then
            recomputePenalty o H (C.pinCount s.con) s.part u else s.cache j
          moved := fun v => if v = u then false else s.moved v }

theorem isIdle_iff (s : CSt σ) (u : Nat) : s.isIdle u = true ↔ s.proc u = .idle := by
  unfold isIdle; split <;> simp_all

theorem quiescent_iff (s : CSt σ) : s.quiescent H = true ↔ ∀ u ∈ H.nodes, s.proc u = .idle := by
  unfold quiescent
  rw [List.all_eq_true]
  constructor
  · intro h u hu; exact (isIdle_iff s u).1 (h u hu)
  · intro h u hu; exact (isIdle_iff s u).2 (h u hu)

theorem step_Step {s s' : CSt σ} {a : Act} (h : step C H k o s a = some s') : Step C H k o s a s' := by
  cases a with
  | start u dst lim =>
    simp only [step] at h
    split at h
    · rename_i hc
      obtain ⟨hu, hd, hi⟩ := hc
      rw [isIdle_iff] at hi
      split at h
      · rename_i src hp
        split at h
        · rename_i hne
          split at h
          · rename_i hle
            cases h
            refine .accept hu hd hi hp hne ?_
            simpa [addWt] using hle
          · cases h; exact .reject hu hd hi hp hne
        · cases h
      · cases h
    · cases h
  | tick u =>
    simp only [step] at h
    split at h
    · cases h
    · rename_i hq; cases h; exact .place hq
    · rename_i hq; cases h; exact .release hq
    · rename_i hq; cases h; exact .ret hq
    · rename_i hq; cases h; exact .edge hq
    · rename_i hq; cases h; exact .test hq
    · rename_i hq; cases h; exact .add hq
    · rename_i hq; cases h; exact .undo hq
  | recompute u =>
    simp only [step] at h
    split at h
    · rename_i hc; cases h; exact .recomp hc.1 ((quiescent_iff s).1 hc.2)
    · cases h

/-- consistency of a program counter with the block id of its node -/
def ProcOK (H : HG) (k u : Nat) (pu : Option Nat) (mv : Bool) : Proc → Prop
  | .idle => True
  | .accepted src dst => pu = some src ∧ src ≠ dst ∧ src < k ∧ dst < k ∧ mv = true
  | .placed src dst => pu = some dst ∧ src ≠ dst ∧ src < k ∧ dst < k ∧ mv = true
  | .run src dst t => pu = some dst ∧ src ≠ dst ∧ src < k ∧ dst < k ∧ mv = true ∧
      (pendEdges t).Nodup ∧ (∀ e ∈ pendEdges t, e ∈ H.inc u) ∧ (∀ op ∈ pendOps t, op.Ok k)
  | .rejected dst => dst < k

/-- base invariant -/
structure Inv (L : C.Lawful m k mx) (H : HG) (s : CSt σ) : Prop where
  outside : ∀ u, u ∉ H.nodes → s.proc u = .idle
  assigned : ∀ v ∈ H.nodes, ∃ b, b < k ∧ s.part v = some b
  range : ∀ v b, s.part v = some b → b < k
  procOK : ∀ u ∈ H.nodes, ProcOK H k u (s.part u) (s.moved u) (s.proc u)
  con : ∃ T, L.R s.con T ∧ ∀ e ∈ H.edges, ∀ b, b < k → T e b = H.pinsIn (s.view e) e b

theorem Inv.mem {L : C.Lawful m k mx} {s : CSt σ} (hI : Inv L H s) {u : Nat}
    (h : s.proc u ≠ .idle) : u ∈ H.nodes := by
  by_contra hu; exact h (hI.outside u hu)

theorem Inv.view_some {L : C.Lawful m k mx} {s : CSt σ} (hI : Inv L H s) {v : Nat}
    (hv : v ∈ H.nodes) (e : Nat) : ∃ b, b < k ∧ s.view e v = some b := by
  have hp := hI.procOK v hv
  obtain ⟨b, hb, hpb⟩ := hI.assigned v hv
  unfold view viewOf
  cases hq : s.proc v with
  | idle => exact ⟨b, hb, hpb⟩
  | rejected d => exact ⟨b, hb, hpb⟩
  | accepted a d => rw [hq] at hp; exact ⟨a, hp.2.2.1, rfl⟩
  | placed a d => rw [hq] at hp; exact ⟨a, hp.2.2.1, rfl⟩
  | run a d t =>
    rw [hq] at hp
    by_cases h : e ∈ pendEdges t
    · exact ⟨a, hp.2.2.1, by simp [h]⟩
    · exact ⟨b, hb, by simp [h, hpb]⟩

/-- If a step of node `u` keeps the view of its incident hyperedges, all views are kept. -/
theorem view_same (hw : H.WF) {s s' : CSt σ} {u : Nat} (hu : u ∈ H.nodes)
    (h1 : ∀ v, v ≠ u → s'.proc v = s.proc v) (h2 : ∀ v, v ≠ u → s'.part v = s.part v)
    (h3 : ∀ e ∈ H.inc u, s'.view e u = s.view e u) :
    ∀ e ∈ H.edges, ∀ v ∈ H.pins e, s'.view e v = s.view e v := by
  intro e he v hv
  by_cases h : v = u
  · subst h; exact h3 e ((hw.inc_iff v hu e).2 ⟨he, hv⟩)
  · unfold view; rw [h1 v h, h2 v h]

theorem Inv.con_same {L : C.Lawful m k mx} {s s' : CSt σ} (hI : Inv L H s)
    (hv : ∀ e ∈ H.edges, ∀ v ∈ H.pins e, s'.view e v = s.view e v) (hc : s'.con = s.con) :
    ∃ T, L.R s'.con T ∧ ∀ e ∈ H.edges, ∀ b, b < k → T e b = H.pinsIn (s'.view e) e b := by
  obtain ⟨T, hR, hT⟩ := hI.con
  refine ⟨T, hc ▸ hR, fun e he b hb => ?_⟩
  rw [hT e he b hb]; exact (HG.pinsIn_congr (hv e he) b).symm

/-- What a step changes, as far as views, logs and pin counts are concerned: nothing, or the
critical section of one hyperedge. -/
inductive Effect (C : ConInfo σ) (H : HG) (k : Nat) (o : Metrics.Obj) (s s' : CSt σ) : Prop
  | none (hv : ∀ e ∈ H.edges, ∀ v ∈ H.pins e, s'.view e v = s.view e v) (hl : s'.log = s.log)
  | edge (u src dst e : Nat) (hu : u ∈ H.nodes) (he : e ∈ H.edges) (hp : u ∈ H.pins e)
      (hs : s.view e u = some src) (hne : src ≠ dst) (hsk : src < k) (hdk : dst < k)
      (hv1 : ∀ v, s'.view e v = (s.view e).put u dst v)
      (hv2 : ∀ e', e' ≠ e → ∀ v, s'.view e' v = s.view e' v)
      (hl : s'.log = s.log ++ [H.mkUpdate (s.view e) e u src dst])
      (hm : s.moved u = true) (hpu : s.part u = some dst)
      (t : List Micro) (hq : s.proc u = .run src dst (.edge e :: t))
      (hq' : s'.proc = s.setProc u (.run src dst
        ((gainDelta o k (H.pins e) (H.mkUpdate (s.view e) e u src dst)).map .cache ++ t)))
      (hcache : s'.cache = s.cache) (hmoved : s'.moved = s.moved) (hpart : s'.part = s.part)
      (hwt : s'.wt = s.wt)

theorem setProc_same (s : CSt σ) (u : Nat) (p : Proc) : s.setProc u p u = p := by simp [setProc]
theorem setProc_other (s : CSt σ) {u v : Nat} (p : Proc) (h : v ≠ u) : s.setProc u p v = s.proc v := by
  simp [setProc, h]

theorem Inv.step {L : C.Lawful m k mx} (hw : H.WF) (hf : H.Fits m mx) {s s' : CSt σ} {a : Act}
    (hI : Inv L H s) (hst : Step C H k o s a s') : Inv L H s' ∧ Effect C H k o s s' := by
  have hproc : ∀ (u : Nat) (p : Proc) (pt : Assign) (mv : Nat → Bool), u ∈ H.nodes →
      (∀ v, v ≠ u → pt v = s.part v) → (∀ v, v ≠ u → mv v = s.moved v) →
      ProcOK H k u (pt u) (mv u) p →
      (∀ v, v ∉ H.nodes → s.setProc u p v = .idle) ∧
      (∀ v ∈ H.nodes, ProcOK H k v (pt v) (mv v) (s.setProc u p v)) := by
    intro u p pt mv hu hpt hmv hok
    constructor
    · intro v hv
      have : v ≠ u := fun h => hv (h ▸ hu)
      rw [setProc_other s p this]; exact hI.outside v hv
    · intro v hv
      by_cases h : v = u
      · subst h; rw [setProc_same]; exact hok
      · rw [setProc_other s p h, hpt v h, hmv v h]; exact hI.procOK v hv
  cases hst with
  | @accept u src dst lim hu hd hi hp hne hle =>
    have hv := view_same (s := s) (s' := { s with
        wt := addWt s.wt dst (H.nw u), proc := s.setProc u (.accepted src dst),
        moved := fun v => if v = u then true else s.moved v }) hw hu
      (fun v h => setProc_other s _ h) (fun _ _ => rfl)
      (fun e _ => by simp [view, setProc_same, viewOf, hi, hp])
    obtain ⟨q1, q2⟩ := hproc u (.accepted src dst) s.part (fun v => if v = u then true else s.moved v)
      hu (fun _ _ => rfl) (fun v h => by simp [h]) ⟨hp, hne, hI.range u src hp, hd, by simp⟩
    exact ⟨⟨q1, hI.assigned, hI.range, q2, hI.con_same hv rfl⟩, .none hv rfl⟩
  | @reject u src dst lim hu hd hi hp hne =>
    have hv := view_same (s := s) (s' := { s with
        wt := addWt s.wt dst (H.nw u), proc := s.setProc u (.rejected dst) }) hw hu
      (fun v h => setProc_other s _ h) (fun _ _ => rfl)
      (fun e _ => by simp [view, setProc_same, viewOf, hi])
    obtain ⟨q1, q2⟩ := hproc u (.rejected dst) s.part s.moved hu (fun _ _ => rfl) (fun _ _ => rfl) hd
    exact ⟨⟨q1, hI.assigned, hI.range, q2, hI.con_same hv rfl⟩, .none hv rfl⟩
  | @place u src dst hq =>
    have hu : u ∈ H.nodes := hI.mem (by rw [hq]; simp)
    have hok := hI.procOK u hu
    rw [hq] at hok
    obtain ⟨a1, a2, a3, a4, a5⟩ := hok
    have hv := view_same (s := s) (s' := { s with
        part := s.part.put u dst, proc := s.setProc u (.placed src dst) }) hw hu
      (fun v h => setProc_other s _ h) (fun v h => Assign.put_other _ h)
      (fun e _ => by simp [view, setProc_same, viewOf, hq])
    obtain ⟨q1, q2⟩ := hproc u (.placed src dst) (s.part.put u dst) s.moved hu
      (fun v h => Assign.put_other _ h) (fun _ _ => rfl)
      ⟨Assign.put_same _ _ _, a2, a3, a4, a5⟩
    refine ⟨⟨q1, ?_, ?_, q2, hI.con_same hv rfl⟩, .none hv rfl⟩
    · intro v hv
      by_cases h : v = u
      · subst h; exact ⟨dst, a4, Assign.put_same _ _ _⟩
      · obtain ⟨b, hb, hpb⟩ := hI.assigned v hv
        exact ⟨b, hb, by rw [← hpb]; exact Assign.put_other _ h⟩
    · intro v b hb
      by_cases h : v = u
      · subst h
        have hb' : s.part.put v dst v = some b := hb
        rw [Assign.put_same] at hb'; cases hb'; exact a4
      · have hb' : s.part.put u dst v = some b := hb
        rw [Assign.put_other s.part h] at hb'; exact hI.range v b hb'
  | @release u src dst hq =>
    have hu : u ∈ H.nodes := hI.mem (by rw [hq]; simp)
    have hok := hI.procOK u hu
    rw [hq] at hok
    obtain ⟨a1, a2, a3, a4, a5⟩ := hok
    have hv := view_same (s := s) (s' := { s with
        wt := addWt s.wt src (-H.nw u),
        proc := s.setProc u (.run src dst ((H.inc u).map .edge)) }) hw hu
      (fun v h => setProc_other s _ h) (fun _ _ => rfl)
      (fun e he => by simp [view, setProc_same, viewOf, hq, pendEdges_edges, he])
    obtain ⟨q1, q2⟩ := hproc u (.run src dst ((H.inc u).map .edge)) s.part s.moved hu
      (fun _ _ => rfl) (fun _ _ => rfl)
      ⟨a1, a2, a3, a4, a5, by rw [pendEdges_edges]; exact hw.inc_nodup u hu,
        fun e he => by rw [pendEdges_edges] at he; exact he,
        fun op hop => by rw [pendOps_edges] at hop; simp at hop⟩
    exact ⟨⟨q1, hI.assigned, hI.range, q2, hI.con_same hv rfl⟩, .none hv rfl⟩
  | @ret u src dst hq =>
    have hu : u ∈ H.nodes := hI.mem (by rw [hq]; simp)
    have hv := view_same (s := s) (s' := { s with proc := s.setProc u .idle }) hw hu
      (fun v h => setProc_other s _ h) (fun _ _ => rfl)
      (fun e he => by simp [view, setProc_same, viewOf, hq, pendEdges])
    obtain ⟨q1, q2⟩ := hproc u .idle s.part s.moved hu (fun _ _ => rfl) (fun _ _ => rfl) trivial
    exact ⟨⟨q1, hI.assigned, hI.range, q2, hI.con_same hv rfl⟩, .none hv rfl⟩
  | @edge u src dst e t hq =>
    have hu : u ∈ H.nodes := hI.mem (by rw [hq]; simp)
    have hok := hI.procOK u hu
    rw [hq] at hok
    obtain ⟨a1, a2, a3, a4, a5, a6, a7, a8⟩ := hok
    have hpe : pendEdges (.edge e :: t) = e :: pendEdges t := rfl
    rw [hpe] at a6 a7
    rw [List.nodup_cons] at a6
    obtain ⟨heE, hpin⟩ := (hw.inc_iff u hu e).1 (a7 e (by simp))
    have hvu : s.view e u = some src := by simp [view, viewOf, hq, hpe]
    obtain ⟨T, hR, hT⟩ := hI.con
    obtain ⟨e1, T', hR', hT1, hT2⟩ := PHG.updateEdge_spec L hw hf hR heE hpin hvu a2 a3 a4 (hT e heE)
    have e1' : (PHG.updateEdge C H s.con e src dst).1 = H.mkUpdate (s.view e) e u src dst := e1
    simp only [e1']
    have v1 : ∀ v, view { s with
        con := (PHG.updateEdge C H s.con e src dst).2,
        log := s.log ++ [H.mkUpdate (s.view e) e u src dst],
        proc := s.setProc u (.run src dst
          ((gainDelta o k (H.pins e) (H.mkUpdate (s.view e) e u src dst)).map .cache ++ t)) } e v =
        (s.view e).put u dst v := by
      intro v
      by_cases h : v = u
      · subst h
        simp [view, setProc_same, viewOf, pendEdges_cache_append, a6.1, a1, Assign.put]
      · rw [Assign.put_other _ h]; simp [view, setProc_other s _ h]
    have v2 : ∀ e', e' ≠ e → ∀ v, view { s with
        con := (PHG.updateEdge C H s.con e src dst).2,
        log := s.log ++ [H.mkUpdate (s.view e) e u src dst],
        proc := s.setProc u (.run src dst
          ((gainDelta o k (H.pins e) (H.mkUpdate (s.view e) e u src dst)).map .cache ++ t)) } e' v =
        s.view e' v := by
      intro e' he' v
      by_cases h : v = u
      · subst h
        simp [view, setProc_same, viewOf, pendEdges_cache_append, hq, hpe, he']
      · simp [view, setProc_other s _ h]
    obtain ⟨q1, q2⟩ := hproc u (.run src dst
      ((gainDelta o k (H.pins e) (H.mkUpdate (s.view e) e u src dst)).map .cache ++ t)) s.part s.moved hu
      (fun _ _ => rfl) (fun _ _ => rfl)
      ⟨a1, a2, a3, a4, a5, by rw [pendEdges_cache_append]; exact a6.2,
        fun e' he' => by rw [pendEdges_cache_append] at he'; exact a7 e' (by simp [he']),
        fun op hop => by
          rw [pendOps_cache_append, List.mem_append] at hop
          rcases hop with h | h
          · exact gainDelta_ok o k _ _ op h
          · exact a8 op h⟩
    refine ⟨⟨q1, hI.assigned, hI.range, q2, T', hR', ?_⟩,
      .edge u src dst e hu heE hpin hvu a2 a3 a4 v1 v2 rfl a5 a1 t hq rfl rfl rfl rfl rfl⟩
    intro e' he' b hb
    by_cases h : e' = e
    · subst h; rw [hT1 b hb]; exact HG.pinsIn_congr (fun v _ => (v1 v).symm) b
    · rw [hT2 e' h b, hT e' he' b hb]; exact HG.pinsIn_congr (fun v _ => (v2 e' h v).symm) b
  | @test u src dst v b i a t hq =>
    have hu : u ∈ H.nodes := hI.mem (by rw [hq]; simp)
    have hok := hI.procOK u hu
    rw [hq] at hok
    obtain ⟨a1, a2, a3, a4, a5, a6, a7, a8⟩ := hok
    have hpe : pendEdges (.cache (.addIf v b i a) :: t) = pendEdges t := rfl
    have hpo : pendOps (.cache (.addIf v b i a) :: t) = .addIf v b i a :: pendOps t := rfl
    have hpe' : pendEdges (if s.part v = some b then .cache (.add i a) :: t else t) = pendEdges t := by
      split <;> rfl
    have hv := view_same (s := s) (s' := { s with proc := s.setProc u (.run src dst
        (if s.part v = some b then .cache (.add i a) :: t else t)) }) hw hu
      (fun v h => setProc_other s _ h) (fun _ _ => rfl)
      (fun e he => by simp [view, setProc_same, viewOf, hq, hpe, hpe'])
    obtain ⟨q1, q2⟩ := hproc u (.run src dst
        (if s.part v = some b then .cache (.add i a) :: t else t)) s.part s.moved hu
      (fun _ _ => rfl) (fun _ _ => rfl)
      ⟨a1, a2, a3, a4, a5, by rw [hpe']; exact a6, by rw [hpe']; exact a7, fun op hop => by
        split at hop
        · rw [show pendOps (.cache (.add i a) :: t) = .add i a :: pendOps t from rfl,
            List.mem_cons] at hop
          rcases hop with rfl | h
          · trivial
          · exact a8 op (by rw [hpo]; exact List.mem_cons_of_mem _ h)
        · exact a8 op (by rw [hpo]; exact List.mem_cons_of_mem _ hop)⟩
    exact ⟨⟨q1, hI.assigned, hI.range, q2, hI.con_same hv rfl⟩, .none hv rfl⟩
  | @add u src dst i a t hq =>
    have hu : u ∈ H.nodes := hI.mem (by rw [hq]; simp)
    have hok := hI.procOK u hu
    rw [hq] at hok
    obtain ⟨a1, a2, a3, a4, a5, a6, a7, a8⟩ := hok
    have hpe : pendEdges (.cache (.add i a) :: t) = pendEdges t := rfl
    have hpo : pendOps (.cache (.add i a) :: t) = .add i a :: pendOps t := rfl
    have hv := view_same (s := s) (s' := { s with
        cache := fun j => if j = i then s.cache j + a else s.cache j,
        proc := s.setProc u (.run src dst t) }) hw hu
      (fun v h => setProc_other s _ h) (fun _ _ => rfl)
      (fun e he => by simp [view, setProc_same, viewOf, hq, hpe])
    obtain ⟨q1, q2⟩ := hproc u (.run src dst t) s.part s.moved hu
      (fun _ _ => rfl) (fun _ _ => rfl)
      ⟨a1, a2, a3, a4, a5, a6, a7, fun op hop => a8 op (by rw [hpo]; exact List.mem_cons_of_mem _ hop)⟩
    exact ⟨⟨q1, hI.assigned, hI.range, q2, hI.con_same hv rfl⟩, .none hv rfl⟩
  | @undo u dst hq =>
    have hu : u ∈ H.nodes := hI.mem (by rw [hq]; simp)
    have hv := view_same (s := s) (s' := { s with
        wt := addWt s.wt dst (-H.nw u), proc := s.setProc u .idle }) hw hu
      (fun v h => setProc_other s _ h) (fun _ _ => rfl)
      (fun e he => by simp [view, setProc_same, viewOf, hq])
    obtain ⟨q1, q2⟩ := hproc u .idle s.part s.moved hu (fun _ _ => rfl) (fun _ _ => rfl) trivial
    exact ⟨⟨q1, hI.assigned, hI.range, q2, hI.con_same hv rfl⟩, .none hv rfl⟩
  | @recomp u hu hq =>
    have hv : ∀ e ∈ H.edges, ∀ v ∈ H.pins e, view { s with
          cache := fun j => if j = penIdx k u then
            recomputePenalty o H (C.pinCount s.con) s.part u else s.cache j
          moved := fun v => if v = u then false else s.moved v } e v = s.view e v :=
      fun _ _ _ _ => rfl
    refine ⟨⟨hI.outside, hI.assigned, hI.range, ?_, hI.con⟩, .none hv rfl⟩
    intro v hv
    show ProcOK H k v (s.part v) _ (s.proc v)
    rw [hq v hv]; trivial


/-! ### block weights -/

def extraSum (H : HG) (s : CSt σ) (b : Nat) : Int :=
  (H.nodes.map (fun u => extra (H.nw u) b (s.proc u))).sum

/-- counters equal the true weights plus the amounts in flight -/
def WtInv (H : HG) (k : Nat) (s : CSt σ) : Prop := ∀ b, b < k → s.wt b = H.blockWeight s.part b + extraSum H s b

theorem extraSum_setProc (hw : H.WF) (s : CSt σ) {u : Nat} (hu : u ∈ H.nodes) (p : Proc) (b : Nat)
    {s' : CSt σ} (hs' : s'.proc = s.setProc u p) :
    extraSum H s' b = extraSum H s b + (extra (H.nw u) b p - extra (H.nw u) b (s.proc u)) := by
  unfold extraSum
  rw [sum_map_upd (f := fun u => extra (H.nw u) b (s.proc u)) hw.nodes_nodup hu]
  · rw [hs', setProc_same]
  · intro v hv; rw [hs', setProc_other s p hv]

theorem WtInv.step {L : C.Lawful m k mx} (hw : H.WF) {s s' : CSt σ} {a : Act}
    (hI : Inv L H s) (hW : WtInv H k s) (hst : Step C H k o s a s') : WtInv H k s' := by
  intro b hbk
  have hb := hW b hbk
  cases hst with
  | @accept u src dst lim hu hd hi hp hne hle =>
    rw [extraSum_setProc hw s hu (.accepted src dst) b rfl, hi]
    simp only [addWt, extra]; split <;> omega
  | @reject u src dst lim hu hd hi hp hne =>
    rw [extraSum_setProc hw s hu (.rejected dst) b rfl, hi]
    simp only [addWt, extra]; split <;> omega
  | @place u src dst hq =>
    have hu : u ∈ H.nodes := hI.mem (by rw [hq]; simp)
    have hok := hI.procOK u hu
    rw [hq] at hok
    obtain ⟨a1, a2, a3, a4, a5⟩ := hok
    rw [extraSum_setProc hw s hu (.placed src dst) b rfl, hq]
    simp only [extra, HG.blockWeight_put hw.nodes_nodup hu, a1, Option.some.injEq]
    have : (src = b) = (b = src) := propext eq_comm
    simp only [this]; omega
  | @release u src dst hq =>
    have hu : u ∈ H.nodes := hI.mem (by rw [hq]; simp)
    rw [extraSum_setProc hw s hu (.run src dst ((H.inc u).map .edge)) b rfl, hq]
    simp only [addWt, extra]; split <;> omega
  | @ret u src dst hq =>
    have hu : u ∈ H.nodes := hI.mem (by rw [hq]; simp)
    rw [extraSum_setProc hw s hu .idle b rfl, hq]
    simp only [extra]; omega
  | @edge u src dst e t hq =>
    have hu : u ∈ H.nodes := hI.mem (by rw [hq]; simp)
    rw [extraSum_setProc hw s hu _ b rfl, hq]
    simp only [extra]; omega
  | @test u src dst v b' i a t hq =>
    have hu : u ∈ H.nodes := hI.mem (by rw [hq]; simp)
    rw [extraSum_setProc hw s hu _ b rfl, hq]
    simp only [extra]; omega
  | @add u src dst i a t hq =>
    have hu : u ∈ H.nodes := hI.mem (by rw [hq]; simp)
    rw [extraSum_setProc hw s hu _ b rfl, hq]
    simp only [extra]; omega
  | @undo u dst hq =>
    have hu : u ∈ H.nodes := hI.mem (by rw [hq]; simp)
    rw [extraSum_setProc hw s hu .idle b rfl, hq]
    simp only [addWt, extra]; split <;> omega
  | @recomp u hu hq => exact hb

theorem extraSum_quiescent {s : CSt σ} (hq : ∀ u ∈ H.nodes, s.proc u = .idle) (b : Nat) :
    extraSum H s b = 0 := by
  unfold extraSum
  rw [List.map_congr_left (g := fun _ => (0 : Int)) (fun u hu => by rw [hq u hu]; rfl)]
  simp

/-- weight of the accepted nodes that are not stored in `part` yet -/
def accOf (w : Int) (b : Nat) : Proc → Int
  | .accepted _ dst => if b = dst then w else 0
  | _ => 0

def accSum (H : HG) (s : CSt σ) (b : Nat) : Int :=
  (H.nodes.map (fun u => accOf (H.nw u) b (s.proc u))).sum

theorem accSum_setProc (hw : H.WF) (s : CSt σ) {u : Nat} (hu : u ∈ H.nodes) (p : Proc) (b : Nat)
    {s' : CSt σ} (hs' : s'.proc = s.setProc u p) :
    accSum H s' b = accSum H s b + (accOf (H.nw u) b p - accOf (H.nw u) b (s.proc u)) := by
  unfold accSum
  rw [sum_map_upd (f := fun u => accOf (H.nw u) b (s.proc u)) hw.nodes_nodup hu]
  · rw [hs', setProc_same]
  · intro v hv; rw [hs', setProc_other s p hv]

theorem sum_nonneg_of {l : List Nat} {f : Nat → Int} (h : ∀ x ∈ l, 0 ≤ f x) : 0 ≤ (l.map f).sum := by
  induction l with
  | nil => simp
  | cons a l ih =>
    rw [List.map_cons, List.sum_cons]
    have := h a (by simp)
    have := ih (fun x hx => h x (by simp [hx]))
    omega

theorem accSum_nonneg (hnw : ∀ u ∈ H.nodes, 0 ≤ H.nw u) (s : CSt σ) (b : Nat) : 0 ≤ accSum H s b := by
  apply sum_nonneg_of
  intro u hu
  have := hnw u hu
  unfold accOf; split
  · split <;> omega
  · omega

theorem sum_le_of {l : List Nat} {f g : Nat → Int} (h : ∀ x ∈ l, f x ≤ g x) :
    (l.map f).sum ≤ (l.map g).sum := by
  induction l with
  | nil => simp
  | cons a l ih =>
    rw [List.map_cons, List.sum_cons, List.map_cons, List.sum_cons]
    have := h a (by simp)
    have := ih (fun x hx => h x (by simp [hx]))
    omega

theorem accSum_le_extraSum (hnw : ∀ u ∈ H.nodes, 0 ≤ H.nw u) (s : CSt σ) (b : Nat) :
    accSum H s b ≤ extraSum H s b := by
  apply sum_le_of
  intro u hu
  have := hnw u hu
  cases s.proc u <;> simp only [accOf, extra] <;> (try split) <;> omega

/-- the limit of a scheduler choice respects `Lim` -/
def ActLim (Lim : Nat → Int) : Act → Prop
  | .start _ dst lim => lim ≤ Lim dst
  | _ => True

/-- committed weight is bounded -/
def BoundInv (H : HG) (k : Nat) (B : Nat → Int) (s : CSt σ) : Prop :=
  ∀ b, b < k → H.blockWeight s.part b + accSum H s b ≤ B b

theorem BoundInv.step {L : C.Lawful m k mx} (hw : H.WF) (hnw : ∀ u ∈ H.nodes, 0 ≤ H.nw u)
    {Lim B : Nat → Int} (hB : ∀ b, Lim b ≤ B b) {s s' : CSt σ} {a : Act} (ha : ActLim Lim a)
    (hI : Inv L H s) (hW : WtInv H k s) (hbd : BoundInv H k B s) (hst : Step C H k o s a s') :
    BoundInv H k B s' := by
  intro b hbk
  have hb := hbd b hbk
  cases hst with
  | @accept u src dst lim hu hd hi hp hne hle =>
    rw [accSum_setProc hw s hu (.accepted src dst) b rfl, hi]
    simp only [accOf]
    split
    · rename_i hbd'
      subst hbd'
      have h1 := hW b hbk
      have h2 := accSum_le_extraSum hnw s b
      have h3 := hB b
      simp only [ActLim] at ha
      omega
    · omega
  | @reject u src dst lim hu hd hi hp hne =>
    rw [accSum_setProc hw s hu (.rejected dst) b rfl, hi]
    simp only [accOf]; omega
  | @place u src dst hq =>
    have hu : u ∈ H.nodes := hI.mem (by rw [hq]; simp)
    have hok := hI.procOK u hu
    rw [hq] at hok
    obtain ⟨a1, a2, a3, a4, a5⟩ := hok
    have := hnw u hu
    rw [accSum_setProc hw s hu (.placed src dst) b rfl, hq]
    simp only [accOf, HG.blockWeight_put hw.nodes_nodup hu, a1, Option.some.injEq]
    split <;> split <;> omega
  | @release u src dst hq =>
    have hu : u ∈ H.nodes := hI.mem (by rw [hq]; simp)
    rw [accSum_setProc hw s hu _ b rfl, hq]; simp only [accOf]; omega
  | @ret u src dst hq =>
    have hu : u ∈ H.nodes := hI.mem (by rw [hq]; simp)
    rw [accSum_setProc hw s hu _ b rfl, hq]; simp only [accOf]; omega
  | @edge u src dst e t hq =>
    have hu : u ∈ H.nodes := hI.mem (by rw [hq]; simp)
    rw [accSum_setProc hw s hu _ b rfl, hq]; simp only [accOf]; omega
  | @test u src dst v b' i a t hq =>
    have hu : u ∈ H.nodes := hI.mem (by rw [hq]; simp)
    rw [accSum_setProc hw s hu _ b rfl, hq]; simp only [accOf]; omega
  | @add u src dst i a t hq =>
    have hu : u ∈ H.nodes := hI.mem (by rw [hq]; simp)
    rw [accSum_setProc hw s hu _ b rfl, hq]; simp only [accOf]; omega
  | @undo u dst hq =>
    have hu : u ∈ H.nodes := hI.mem (by rw [hq]; simp)
    rw [accSum_setProc hw s hu _ b rfl, hq]; simp only [accOf]; omega
  | @recomp u hu hq => exact hb

/-! ### attributed gains -/

/-- sum of reported gains + initial objective = objective of the views; `og` is the objective
whose attributed gains are summed (it may differ from the one of the gain cache) -/
def LogInv (H : HG) (og : Metrics.Obj) (base : Int) (s : CSt σ) : Prop :=
  base + (s.log.map (attrGain og)).sum = (H.edges.map (fun e => H.term (s.view e) e og)).sum

theorem LogInv.step {L : C.Lawful m k mx} (hw : H.WF) {og : Metrics.Obj} {base : Int}
    {s s' : CSt σ} (hI : Inv L H s) (hL : LogInv H og base s) (heff : Effect C H k o s s') :
    LogInv H og base s' := by
  unfold LogInv at *
  cases heff with
  | none hv hl =>
    rw [hl, hL]
    exact congrArg List.sum (List.map_congr_left (fun e he =>
      HG.term_congr (fun v hv' => (hv e he v hv').symm) og))
  | edge u src dst e hu he hp hs hne hsk hdk hv1 hv2 hl hm hpu t hq hq' hcache hmoved hpart hwt =>
    rw [hl, List.map_append, List.sum_append, ← add_assoc, hL]
    rw [sum_map_upd (f := fun e => H.term (s.view e) e og) (g := fun e => H.term (s'.view e) e og)
      hw.edges_nodup he (fun e' he' => HG.term_congr (fun v _ => hv2 e' he' v) og)]
    have hall : ∀ v ∈ H.pins e, s.view e v ≠ none := by
      intro v hv
      obtain ⟨b, _, hb⟩ := hI.view_some (hw.pins_mem e he v hv) e
      rw [hb]; simp
    simp only [List.map_cons, List.map_nil, List.sum_cons, List.sum_nil, add_zero]
    rw [attrGain_eq (hw.pins_nodup e he) hp hs hne hall og,
      HG.term_congr (Φ := s'.view e) (Ψ := (s.view e).put u dst) (fun v _ => hv1 v) og]

end CSt
end Verif
