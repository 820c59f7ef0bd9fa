import Verif.Lemmas.Concurrent
import Verif.Props.C10
/-!
# Gain cache invariant of the interleaving semantics
-/
namespace Verif

theorem opsSum_congr_pen {k : Nat} {l : List CacheOp} (hok : ∀ op ∈ l, op.Ok k) {Φ Ψ : Assign}
    {v : Nat} (h : Φ v = Ψ v) : opsSum Φ (penIdx k v) l = opsSum Ψ (penIdx k v) l := by
  unfold opsSum
  refine congrArg List.sum (List.map_congr_left (fun op hop => ?_))
  have := hok op hop
  cases op with
  | add i a => rfl
  | addIf u b i a =>
    simp only [CacheOp.Ok] at this
    subst this
    simp only [CacheOp.contrib]
    by_cases hu : u = v
    · subst hu; rw [h]
    · have : penIdx k u ≠ penIdx k v := fun hh => hu (penIdx_inj hh)
      simp [this]

theorem opsSum_congr_ben {k : Nat} {l : List CacheOp} (hok : ∀ op ∈ l, op.Ok k) (Φ Ψ : Assign)
    {v b : Nat} (hb : b < k) : opsSum Φ (benIdx k v b) l = opsSum Ψ (benIdx k v b) l := by
  unfold opsSum
  refine congrArg List.sum (List.map_congr_left (fun op hop => ?_))
  have := hok op hop
  cases op with
  | add i a => rfl
  | addIf u b i a =>
    simp only [CacheOp.Ok] at this
    subst this
    simp [CacheOp.contrib, penIdx_ne_benIdx hb]

namespace CSt
variable {σ : Type} {C : ConInfo σ} {H : HG} {m k mx : Nat} {o : Metrics.Obj}

/-- amount still to be added to cache index `i` by all active calls -/
def pendSum (H : HG) (s : CSt σ) (i : Nat) : Int :=
  (H.nodes.map (fun u => opsSum s.part i (pendOf (s.proc u)))).sum

/-- `∑ w(e) f(|e|, pins of e in b)` over the incident hyperedges of `v`, seen through `V` -/
def multSum (H : HG) (f : Nat → Nat → Int) (V : Nat → Assign) (v b : Nat) : Int :=
  ((H.inc v).map (fun e => H.ew e * f (H.pins e).length (H.pinsIn (V e) e b))).sum

/-- cache entries plus pending amounts are exact; the penalty term only of nodes that were not moved
since it was computed -/
structure CacheInv (H : HG) (k : Nat) (o : Metrics.Obj) (s : CSt σ) : Prop where
  ben : ∀ v ∈ H.nodes, ∀ b, b < k →
    s.cache (benIdx k v b) + pendSum H s (benIdx k v b) = multSum H (benMult o) s.view v b
  pen : ∀ v ∈ H.nodes, s.moved v = false → ∀ p, s.part v = some p →
    s.cache (penIdx k v) + pendSum H s (penIdx k v) = multSum H (penMult o) s.view v p

theorem multSum_congr (hw : H.WF) {f : Nat → Nat → Int} {V W : Nat → Assign} {v : Nat}
    (hv : v ∈ H.nodes) (h : ∀ e ∈ H.edges, ∀ x ∈ H.pins e, V e x = W e x) (b : Nat) :
    multSum H f V v b = multSum H f W v b := by
  unfold multSum
  refine congrArg List.sum (List.map_congr_left (fun e he => ?_))
  rw [HG.pinsIn_congr (h e ((hw.inc_iff v hv e).1 he).1)]

theorem pendSum_setProc (hw : H.WF) (s : CSt σ) {u : Nat} (hu : u ∈ H.nodes) (p : Proc) (i : Nat)
    {s' : CSt σ} (hs' : s'.proc = s.setProc u p) (hp : s'.part = s.part) :
    pendSum H s' i = pendSum H s i +
      (opsSum s.part i (pendOf p) - opsSum s.part i (pendOf (s.proc u))) := by
  unfold pendSum
  rw [sum_map_upd (f := fun u => opsSum s.part i (pendOf (s.proc u))) hw.nodes_nodup hu]
  · rw [hs', setProc_same, hp]
  · intro v hv; rw [hs', setProc_other s p hv, hp]

theorem pendSum_quiescent {s : CSt σ} (hq : ∀ u ∈ H.nodes, s.proc u = .idle) (i : Nat) :
    pendSum H s i = 0 := by
  unfold pendSum
  rw [List.map_congr_left (g := fun _ => (0 : Int)) (fun u hu => by rw [hq u hu]; rfl)]
  simp

theorem Inv.pendOk {L : C.Lawful m k mx} {s : CSt σ} (hI : Inv L H s) {u : Nat} (hu : u ∈ H.nodes) :
    ∀ op ∈ pendOf (s.proc u), op.Ok k := by
  have := hI.procOK u hu
  cases hq : s.proc u with
  | run a b t => rw [hq] at this; exact this.2.2.2.2.2.2.2
  | _ => intro op hop; simp [pendOf] at hop

/-- an unmoved node is seen at its block by every hyperedge -/
theorem Inv.view_unmoved {L : C.Lawful m k mx} {s : CSt σ} (hI : Inv L H s) {v : Nat}
    (hv : v ∈ H.nodes) (hm : s.moved v = false) (e : Nat) : s.view e v = s.part v := by
  have := hI.procOK v hv
  unfold view
  cases hq : s.proc v with
  | idle => rfl
  | rejected d => rfl
  | accepted a b => rw [hq] at this; rw [this.2.2.2.2] at hm; cases hm
  | placed a b => rw [hq] at this; rw [this.2.2.2.2] at hm; cases hm
  | run a b t => rw [hq] at this; rw [this.2.2.2.2.1] at hm; cases hm

theorem pendOf_edges (a b : Nat) (l : List Nat) : pendOf (.run a b (l.map Micro.edge)) = [] :=
  pendOps_edges l

theorem recomputePenalty_eq {s : CSt σ} {u p : Nat} {pc : Nat → Nat → Nat} (hp : s.part u = some p)
    (hc : ∀ e ∈ H.inc u, pc e p = H.pinsIn s.part e p) :
    recomputePenalty o H pc s.part u = multSum H (penMult o) (fun _ => s.part) u p := by
  unfold recomputePenalty multSum
  rw [hp]
  simp only []
  rw [foldl_add_eq, zero_add]
  refine congrArg List.sum (List.map_congr_left (fun e he => ?_))
  rw [hc e he]; ring

theorem view_quiescent {s : CSt σ} (hq : ∀ u ∈ H.nodes, s.proc u = .idle) (hw : H.WF) :
    ∀ e ∈ H.edges, ∀ x ∈ H.pins e, s.view e x = s.part x := by
  intro e he x hx
  unfold view; rw [hq x (hw.pins_mem e he x hx)]; rfl

/-- steps that leave the cache and the views alone -/
theorem CacheInv.frame {s s' : CSt σ} (hw : H.WF) (hC : CacheInv H k o s)
    (hv : ∀ e ∈ H.edges, ∀ x ∈ H.pins e, s'.view e x = s.view e x)
    (hp : s'.part = s.part) (hm : ∀ v, s'.moved v = false → s.moved v = false)
    (hs : ∀ i, s'.cache i + pendSum H s' i = s.cache i + pendSum H s i) : CacheInv H k o s' where
  ben v hvn b hb := by rw [hs, hC.ben v hvn b hb]; exact (multSum_congr hw hvn hv b).symm
  pen v hvn hmv p hpp := by
    rw [hs, hC.pen v hvn (hm v hmv) p (hp ▸ hpp)]; exact (multSum_congr hw hvn hv p).symm

theorem CacheInv.frameP {s s' : CSt σ} (hw : H.WF) (hC : CacheInv H k o s)
    (hv : ∀ e ∈ H.edges, ∀ x ∈ H.pins e, s'.view e x = s.view e x)
    (hp : s'.part = s.part) (hm : ∀ v, s'.moved v = false → s.moved v = false)
    {u : Nat} (hu : u ∈ H.nodes) {p : Proc} (hs' : s'.proc = s.setProc u p)
    (hs : ∀ i, s'.cache i + opsSum s.part i (pendOf p) =
      s.cache i + opsSum s.part i (pendOf (s.proc u))) : CacheInv H k o s' :=
  hC.frame hw hv hp hm (fun i => by
    rw [pendSum_setProc hw s hu p i hs' hp]
    have := hs i
    omega)

/-- change of a `multSum` when the view of one hyperedge changes -/
theorem multSum_upd (hw : H.WF) {f : Nat → Nat → Int} {V W : Nat → Assign} {v e : Nat}
    (hv : v ∈ H.nodes) (he : e ∈ H.edges) (h : ∀ e', e' ≠ e → ∀ x, V e' x = W e' x) (b : Nat) :
    multSum H f V v b = multSum H f W v b +
      if v ∈ H.pins e then H.ew e * (f (H.pins e).length (H.pinsIn (V e) e b) -
        f (H.pins e).length (H.pinsIn (W e) e b)) else 0 := by
  unfold multSum
  have hc : ∀ e', e' ≠ e → H.ew e' * f (H.pins e').length (H.pinsIn (V e') e' b) =
      H.ew e' * f (H.pins e').length (H.pinsIn (W e') e' b) := by
    intro e' he'; rw [HG.pinsIn_congr (fun x _ => h e' he' x)]
  split
  · rename_i hp
    rw [sum_map_upd (u := e) (f := fun e => H.ew e * f (H.pins e).length (H.pinsIn (W e) e b))
      (hw.inc_nodup v hv) ((hw.inc_iff v hv e).2 ⟨he, hp⟩) hc]
    ring
  · rename_i hp
    rw [add_zero]
    refine congrArg List.sum (List.map_congr_left (fun e' he' => hc e' ?_))
    rintro rfl
    exact hp ((hw.inc_iff v hv e').1 he').2

theorem CacheInv.step {L : C.Lawful m k mx} (hw : H.WF) (hf : H.Fits m mx) {s s' : CSt σ} {a : Act}
    (hI : Inv L H s) (hC : CacheInv H k o s) (hst : Step C H k o s a s') : CacheInv H k o s' := by
  have heff := (hI.step hw hf hst).2
  cases heff with
  | edge u src dst e hu he hp hs hne hsk hdk hv1 hv2 hl hm hpu t hq hq' hcache hmoved hpart hwt =>
    have hpend : ∀ i, pendSum H s' i = pendSum H s i +
        opsSum s.part i (gainDelta o k (H.pins e) (H.mkUpdate (s.view e) e u src dst)) := by
      intro i
      rw [pendSum_setProc hw s hu _ i hq' hpart, hq]
      simp only [pendOf]
      rw [pendOps_cache_append, opsSum_append]
      have : pendOps (.edge e :: t) = pendOps t := rfl
      rw [this]; ring
    have hn := hw.pins_nodup e he
    have key : ∀ c, H.pinsIn ((s.view e).put u dst) e c + (if s.view e u = some c then 1 else 0) =
      H.pinsIn (s.view e) e c + (if c = dst then 1 else 0) := fun c => HG.pinsIn_put_mem hn hp
    simp only [hs, Option.some.injEq] at key
    have ks := key src
    have kd := key dst
    simp only [if_true, if_neg hne] at ks kd
    have hnew : ∀ c, H.pinsIn (s'.view e) e c = H.pinsIn ((s.view e).put u dst) e c :=
      fun c => HG.pinsIn_congr (fun v _ => hv1 v) c
    have h5 : ∀ c, c ≠ src → c ≠ dst →
        H.pinsIn ((s.view e).put u dst) e c = H.pinsIn (s.view e) e c := by
      intro c h1 h2
      have := key c
      rw [if_neg (fun h => h1 h.symm), if_neg h2] at this
      omega
    have hle : ∀ (Φ : Assign) c, H.pinsIn Φ e c ≤ (H.pins e).length := fun Φ c =>
      List.countP_le_length
    constructor
    · intro v hv b hb
      rw [hcache, hpend, ← add_assoc, hC.ben v hv b hb, multSum_upd hw hv he hv2 b]
      congr 1
      rw [gainDelta_ben (s := H.mkUpdate (s.view e) e u src dst) o hn hb hsk hdk hne
        (H.pinsIn (s.view e) e) (H.pinsIn ((s.view e).put u dst) e) rfl rfl
        (by simp only [HG.mkUpdate]; omega) (by simp only [HG.mkUpdate]; omega) h5
        (hle _ _) (hle _ _)]
      simp only [hnew]
      rfl
    · intro v hv hmv p hpv
      rw [hmoved] at hmv
      rw [hpart] at hpv
      have hvu : v ≠ u := by rintro rfl; rw [hm] at hmv; cases hmv
      have hview := hI.view_unmoved hv hmv e
      rw [hpv] at hview
      rw [hcache, hpend, ← add_assoc, hC.pen v hv hmv p hpv, multSum_upd hw hv he hv2 p]
      congr 1
      rw [gainDelta_pen (s := H.mkUpdate (s.view e) e u src dst) o hn hsk hdk hne
        (H.pinsIn (s.view e) e) (H.pinsIn ((s.view e).put u dst) e) rfl rfl
        (by simp only [HG.mkUpdate]; omega) (by simp only [HG.mkUpdate]; omega) h5
        (fun c d h => HG.pinsIn_add_le h) (fun c d h => HG.pinsIn_add_le h) hpv ?_]
      · simp only [hnew]; rfl
      · intro hvp
        unfold HG.pinsIn
        rw [List.countP_pos_iff, List.countP_pos_iff]
        exact ⟨⟨v, hvp, by simp [hview]⟩, ⟨v, hvp, by simp [Assign.put_other _ hvu, hview]⟩⟩
  | none hv hl =>
    cases hst with
    | @accept u src dst lim hu hd hi hp hne hle =>
      refine hC.frameP hw hv rfl (fun v h => ?_) hu rfl (fun i => ?_)
      · simp only at h; split at h
        · cases h
        · exact h
      · rw [hi]; simp [pendOf]
    | @reject u src dst lim hu hd hi hp hne =>
      refine hC.frameP hw hv rfl (fun v h => h) hu rfl (fun i => ?_)
      rw [hi]; simp [pendOf]
    | @place u src dst hq =>
      have hu : u ∈ H.nodes := hI.mem (by rw [hq]; simp)
      have hok := hI.procOK u hu
      rw [hq] at hok
      obtain ⟨a1, a2, a3, a4, a5⟩ := hok
      have hpo : ∀ v, pendOf (s.setProc u (.placed src dst) v) = pendOf (s.proc v) := by
        intro v
        by_cases h : v = u
        · subst h; rw [setProc_same, hq]; rfl
        · rw [setProc_other s _ h]
      constructor
      · intro v hvn b hb
        rw [multSum_congr hw hvn hv b, ← hC.ben v hvn b hb]
        congr 1
        unfold pendSum
        refine congrArg List.sum (List.map_congr_left (fun w hwn => ?_))
        simp only [hpo]
        exact opsSum_congr_ben (hI.pendOk hwn) _ _ hb
      · intro v hvn hmv p hpv
        have hvu : v ≠ u := by rintro rfl; simp only at hmv; rw [a5] at hmv; cases hmv
        have hpv' : s.part v = some p := by rw [← hpv]; exact (Assign.put_other _ hvu).symm
        rw [multSum_congr hw hvn hv p, ← hC.pen v hvn hmv p hpv']
        congr 1
        unfold pendSum
        refine congrArg List.sum (List.map_congr_left (fun w hwn => ?_))
        simp only [hpo]
        exact opsSum_congr_pen (hI.pendOk hwn) (Assign.put_other _ hvu)
    | @release u src dst hq =>
      have hu : u ∈ H.nodes := hI.mem (by rw [hq]; simp)
      refine hC.frameP hw hv rfl (fun v h => h) hu rfl (fun i => ?_)
      rw [hq, pendOf_edges]; simp [pendOf]
    | @ret u src dst hq =>
      have hu : u ∈ H.nodes := hI.mem (by rw [hq]; simp)
      refine hC.frameP hw hv rfl (fun v h => h) hu rfl (fun i => ?_)
      rw [hq]; simp [pendOf, pendOps]
    | @edge u src dst e t hq =>
      simp at hl
    | @test u src dst v b i' a t hq =>
      have hu : u ∈ H.nodes := hI.mem (by rw [hq]; simp)
      refine hC.frameP hw hv rfl (fun v h => h) hu rfl (fun i => ?_)
      rw [hq]
      simp only [pendOf]
      have : pendOps (.cache (.addIf v b i' a) :: t) = .addIf v b i' a :: pendOps t := rfl
      rw [this, opsSum_cons]
      split
      · rename_i hc
        have : pendOps (.cache (.add i' a) :: t) = .add i' a :: pendOps t := rfl
        rw [this, opsSum_cons]
        simp [CacheOp.contrib, hc]
      · rename_i hc
        simp [CacheOp.contrib, hc]
    | @add u src dst i' a t hq =>
      have hu : u ∈ H.nodes := hI.mem (by rw [hq]; simp)
      refine hC.frameP hw hv rfl (fun v h => h) hu rfl (fun i => ?_)
      rw [hq]
      simp only [pendOf]
      have : pendOps (.cache (.add i' a) :: t) = .add i' a :: pendOps t := rfl
      rw [this, opsSum_cons]
      simp only [CacheOp.contrib]
      by_cases h : i = i'
      · subst h; simp; ring
      · have h' : ¬ i' = i := fun hh => h hh.symm
        simp [h, h']
    | @undo u dst hq =>
      have hu : u ∈ H.nodes := hI.mem (by rw [hq]; simp)
      refine hC.frameP hw hv rfl (fun v h => h) hu rfl (fun i => ?_)
      rw [hq]; simp [pendOf]
    | @recomp u hu hq =>
      have hpS : ∀ i, pendSum H { s with
          cache := fun j => if j = penIdx k u then
            recomputePenalty o H (C.pinCount s.con) s.part u else s.cache j
          moved := fun v => if v = u then false else s.moved v } i = 0 :=
        fun i => pendSum_quiescent hq i
      have hvq := view_quiescent hq hw
      constructor
      · intro v hvn b hb
        rw [hpS, add_zero, multSum_congr hw hvn hv b, ← hC.ben v hvn b hb, pendSum_quiescent hq,
          add_zero]
        simp [(penIdx_ne_benIdx hb).symm]
      · intro v hvn hmv p hpv
        rw [hpS, add_zero, multSum_congr hw hvn hv p]
        by_cases h : v = u
        · subst h
          simp only [if_true]
          obtain ⟨T, hR, hT⟩ := hI.con
          rw [recomputePenalty_eq (p := p) hpv]
          · exact (multSum_congr hw hvn hvq p).symm
          · intro e he
            have heE := ((hw.inc_iff v hvn e).1 he).1
            have hpk := hI.range v p hpv
            rw [L.pinCount_eq hR (hf e heE |>.1) hpk, hT e heE p hpk]
            exact HG.pinsIn_congr (hvq e heE) p
        · have hne : penIdx k v ≠ penIdx k u := fun hh => h (penIdx_inj hh)
          simp only [if_neg hne]
          simp only [if_neg h] at hmv
          rw [← hC.pen v hvn hmv p hpv, pendSum_quiescent hq, add_zero]

end CSt
end Verif
