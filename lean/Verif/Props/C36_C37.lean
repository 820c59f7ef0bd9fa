import Verif.Lemmas.PGraph2
/-!
# C36  Concurrent moves on partitioned graphs
# C37  The gain cache of the graph cut metric
-/
namespace Verif
open GSt

/-- `GraphCutGainCache::gain` (cut_gain_cache_for_graphs.h:140-145) -/
def GSt.gain (kc : Nat) (s : GSt) (u src dst : Nat) : Int := s.cache (gIdx kc u dst) - s.cache (gIdx kc u src)

/-- the action is not a call of `changeNodePartNoSync` -/
def GAct.Synced : GAct → Prop
  | .start _ _ _ sync => sync = true
  | _ => True

namespace GSt
variable {G : AGraph} {k kc : Nat}

theorem exec_induct {P : GSt → Prop} {Q : GAct → Prop} (hstep : ∀ s s' a, Q a → P s → Step G k kc s a s' → P s')
    (as : List GAct) : ∀ {s s' : GSt}, (∀ a ∈ as, Q a) → P s → exec G k kc s as = some s' → P s' := by
  induction as with
  | nil => intro s s' _ hP h; cases h; exact hP
  | cons a as ih =>
    intro s s' hQ hP h
    simp only [exec] at h
    split at h
    · rename_i s1 h1
      exact ih (fun b hb => hQ b (by simp [hb])) (hstep s s1 a (hQ a (by simp)) hP (step_Step h1)) h
    · cases h

theorem create_Inv {Φ : Assign} (hΦ : ∀ u ∈ G.nodes, ∃ b < k, Φ u = some b) (c : Nat → Int) :
    Inv G k (create G Φ c) where
  outside := fun _ _ => rfl
  assigned := hΦ
  ver := fun _ => Nat.le_refl _
  proc := fun _ => by unfold ProcOk create; trivial
  entry := by
    intro _ u _
    unfold EntryOk create
    intro e _ b _ h
    simp only [EdgeMove.entry] at h
    split at h <;> cases h

theorem exec_Inv (hw : G.WF) {s s' : GSt} (hI : Inv G k s) {as : List GAct} (h : exec G k kc s as = some s') :
    Inv G k s' :=
  exec_induct (P := Inv G k) (Q := fun _ => True) (fun _ _ _ _ hI hst => hI.step hw hst) as (fun _ _ => trivial) hI h

theorem foldl_wt (l : List Nat) (Φ : Assign) (w : Nat → Int) (b : Nat) : ∀ z : Int,
    l.foldl (fun acc v => if Φ v = some b then acc + w v else acc) z = z + (l.map (fun v => if Φ v = some b then w v else 0)).sum := by
  induction l with
  | nil => intro z; simp
  | cons a l ih =>
    intro z
    rw [List.foldl_cons, ih, List.map_cons, List.sum_cons]
    split <;> omega

theorem create_WtInv (Φ : Assign) (c : Nat → Int) : WtInv G k (create G Φ c) := by
  intro b _
  show G.nodes.foldl _ 0 = _
  rw [foldl_wt]
  simp only [Int.zero_add]
  rfl

theorem create_quiescent (Φ : Assign) (c : Nat → Int) : (create G Φ c).quiescent G = true := by
  rw [quiescent_iff]; intro u _; rfl

/-- the log only grows, synchronized schedules keep the state clean -/
theorem Step.log {s s' : GSt} {a : GAct} (h : Step G k kc s a s') : ∃ L, s'.log = s.log ++ L := by
  cases h with
  | crit => exact ⟨_, rfl⟩
  | _ => exact ⟨[], by simp⟩

theorem Step.clean {s s' : GSt} {a : GAct} (h : Step G k kc s a s') (ha : a.Synced) (hd : s.dirty = false) :
    s'.dirty = false := by
  cases h with
  | accept => have : _ = true := ha; simp [hd, this]
  | reset => rfl
  | _ => exact hd

theorem cache_init (hw : G.WF) (hkc : k ≤ kc) {s : GSt} (hI : Inv G k s) (hd : s.dirty = false)
    (hq : s.quiescent G = true) {order : List (Nat × Nat)}
    (ho : order.Perm (G.nodes.flatMap (fun u => (G.inc u).map (fun e => (u, e))))) :
    CacheInv G k kc { s with cache := gInit G kc s.part order } := by
  have hq' := (quiescent_iff s).1 hq
  have key : ∀ (l : List (Nat × Nat)) (c : Nat → Int) (i : Nat),
      l.foldl (fun (c : Nat → Int) p => fun i =>
        if i = gIdx kc p.1 ((s.part (G.tgt p.2)).getD 0) then c i + G.ew p.2 else c i) c i =
      c i + (l.map (fun p => if i = gIdx kc p.1 ((s.part (G.tgt p.2)).getD 0) then G.ew p.2 else 0)).sum := by
    intro l
    induction l with
    | nil => intro c i; simp
    | cons p l ih =>
      intro c i
      rw [List.foldl_cons, ih, List.map_cons, List.sum_cons]
      split <;> omega
  intro v hv b hb
  have h0 : pendSum G { s with cache := gInit G kc s.part order } (gIdx kc v b) = 0 := by
    unfold pendSum
    rw [List.map_congr_left (g := fun _ => (0 : Int))]
    · simp
    · intro u hu
      show pendAt _ (s.proc u) = 0
      rw [hq' u hu]; rfl
  rw [h0]
  show gInit G kc s.part order (gIdx kc v b) + 0 = vconn G s v b
  unfold gInit
  rw [key, (ho.map _).sum_eq]
  simp only [Int.zero_add, Int.add_zero]
  -- only the edges of `v` contribute
  have hflat : ∀ l : List Nat, (∀ u ∈ l, u ∈ G.nodes) → l.Nodup →
      ((l.flatMap (fun u => (G.inc u).map (fun e => (u, e)))).map
        (fun p => if gIdx kc v b = gIdx kc p.1 ((s.part (G.tgt p.2)).getD 0) then G.ew p.2 else 0)).sum =
      if v ∈ l then ((G.inc v).map (fun e => if s.part (G.tgt e) = some b then G.ew e else 0)).sum else 0 := by
    intro l hl hnd
    induction l with
    | nil => simp
    | cons u l ih =>
      rw [List.flatMap_cons, List.map_append, List.sum_append, ih (fun x hx => hl x (by simp [hx])) (List.nodup_cons.1 hnd).2,
        List.map_map]
      have hun : u ∈ G.nodes := hl u (by simp)
      have hterm : (G.inc u).map ((fun p : Nat × Nat => if gIdx kc v b = gIdx kc p.1 ((s.part (G.tgt p.2)).getD 0) then G.ew p.2 else 0) ∘ (fun e => (u, e)))
          = (G.inc u).map (fun e => if v = u ∧ s.part (G.tgt e) = some b then G.ew e else 0) := by
        apply List.map_congr_left
        intro e he
        simp only [Function.comp]
        obtain ⟨c, hc, hc'⟩ := hI.assigned _ (tgt_ne hw hun he).2.1
        rw [hc']
        simp only [Option.getD_some, Option.some.injEq]
        have e1 : (gIdx kc v b = gIdx kc u c) ↔ (v = u ∧ c = b) := by
          rw [gIdx_inj (by omega) (by omega)]
          exact ⟨fun h => ⟨h.1, h.2.symm⟩, fun h => ⟨h.1, h.2.symm⟩⟩
        simp only [e1]
      rw [hterm]
      by_cases hvu : v = u
      · subst hvu
        have : v ∉ l := (List.nodup_cons.1 hnd).1
        simp [this]
      · simp [hvu]
  rw [hflat G.nodes (fun _ h => h) hw.nodes_nodup, if_pos hv]
  unfold vconn
  refine congrArg List.sum (List.map_congr_left (fun f hf => ?_))
  obtain ⟨g, hg, h1, h2⟩ := reverse_exists hw hv hf
  have ht := (tgt_ne hw hv hf).2.1
  have := view_idle hI hd ht (hq' _ ht) hg
  rw [h1, h2] at this
  rw [this]

theorem vconn_quiescent (hw : G.WF) {s : GSt} (hI : Inv G k s) (hd : s.dirty = false)
    (hq : s.quiescent G = true) {v : Nat} (hv : v ∈ G.nodes) (b : Nat) :
    vconn G s v b = ((G.inc v).map (fun e => if s.part (G.tgt e) = some b then G.ew e else 0)).sum := by
  have hq' := (quiescent_iff s).1 hq
  unfold vconn
  refine congrArg List.sum (List.map_congr_left (fun f hf => ?_))
  obtain ⟨g, hg, h1, h2⟩ := reverse_exists hw hv hf
  have ht := (tgt_ne hw hv hf).2.1
  have := view_idle hI hd ht (hq' _ ht) hg
  rw [h1, h2] at this
  rw [this]

/-- change of the cut if one node changes its block, from the adjacency array -/
theorem cut_put (hw : G.WF) {Φ : Assign} {u src dst : Nat} (hu : u ∈ G.nodes) (hs : Φ u = some src) :
    G.cut Φ - G.cut (Φ.put u dst) =
      ((G.inc u).map (fun e => if Φ (G.tgt e) = some dst then G.ew e else 0)).sum -
      ((G.inc u).map (fun e => if Φ (G.tgt e) = some src then G.ew e else 0)).sum := by
  let T : Assign → Nat → Int := fun Φ x => if Φ (G.ends x).1 ≠ Φ (G.ends x).2 then G.w x else 0
  have hinc : ∀ l : List Nat, (∀ e ∈ l, e ∈ G.inc u) → (l.map G.uid).Nodup → ∀ E : List Nat, E.Nodup →
      (∀ x, x ∈ l.map G.uid ↔ x ∈ E ∧ (u = (G.ends x).1 ∨ u = (G.ends x).2)) →
      (E.map (fun x => T Φ x - T (Φ.put u dst) x)).sum =
      (l.map (fun e => (if Φ (G.tgt e) = some dst then G.ew e else 0) - (if Φ (G.tgt e) = some src then G.ew e else 0))).sum := by
    intro l hl hnd E hE hx
    have h1 : (E.map (fun x => T Φ x - T (Φ.put u dst) x)).sum =
        ((E.filter (fun x => decide (u = (G.ends x).1 ∨ u = (G.ends x).2))).map (fun x => T Φ x - T (Φ.put u dst) x)).sum := by
      rw [sum_filter_ite]
      refine congrArg List.sum (List.map_congr_left (fun x _ => ?_))
      by_cases h : u = (G.ends x).1 ∨ u = (G.ends x).2
      · simp [h]
      · rw [if_neg (by simpa using h)]
        simp only [not_or] at h
        simp only [T, Assign.put, if_neg (Ne.symm h.1), if_neg (Ne.symm h.2)]
        omega
    have hperm : (E.filter (fun x => decide (u = (G.ends x).1 ∨ u = (G.ends x).2))).Perm (l.map G.uid) := by
      rw [List.perm_ext_iff_of_nodup (hE.filter _) hnd]
      intro x
      rw [hx x]; simp
    rw [h1, (hperm.map _).sum_eq, List.map_map]
    refine congrArg List.sum (List.map_congr_left (fun e he => ?_))
    have he' := hl e he
    have hne := (tgt_ne hw hu he').1
    simp only [Function.comp, T]
    rw [hw.ew u hu e he']
    rcases hw.tgt u hu e he' with h | h <;> rw [h]
    · simp only [Assign.put, if_true, if_neg hne, hs]
      by_cases h1 : Φ (G.tgt e) = some src
      · by_cases h2 : some src = some dst
        · simp [h1, h2]
        · have : ¬ src = dst := fun h => h2 (by rw [h])
          simp [h1, this, Ne.symm this]
      · by_cases h2 : Φ (G.tgt e) = some dst
        · have h3 : ¬ dst = src := fun h => h1 (by rw [h2, h])
          simp [h2, h3, Ne.symm h3]
        · simp [h1, h2, Ne.symm h1, Ne.symm h2]
    · simp only [Assign.put, if_true, if_neg hne, hs]
      by_cases h1 : Φ (G.tgt e) = some src
      · by_cases h2 : some src = some dst
        · simp [h1, h2]
        · have : ¬ src = dst := fun h => h2 (by rw [h])
          simp [h1, this]
      · by_cases h2 : Φ (G.tgt e) = some dst
        · have h3 : ¬ dst = src := fun h => h1 (by rw [h2, h])
          simp [h2, h3]
        · simp [h1, h2]
  have := hinc (G.inc u) (fun _ h => h) (hw.inc_nodup u hu) G.edges hw.edges_nodup (hw.inc_iff u hu)
  have sub : ∀ (l : List Nat) (f g : Nat → Int), (l.map (fun x => f x - g x)).sum = (l.map f).sum - (l.map g).sum := by
    intro l f g
    induction l with
    | nil => simp
    | cons a l ih => simp only [List.map_cons, List.sum_cons, ih]; omega
  rw [sub, sub] at this
  exact this

end GSt

section
variable {G : AGraph} {k kc : Nat} {Φ : Assign} {c : Nat → Int}

/-- C36, block weights: after any history of synchronized and unsynchronized concurrent moves and
resets, when no move is active every node is assigned to one of the `k` blocks, and the weight counter
of every block is the total weight of its nodes. -/
theorem C36_graph_block_weights (hw : G.WF) (hΦ : ∀ u ∈ G.nodes, ∃ b < k, Φ u = some b) {as : List GAct} {s : GSt}
    (h : exec G k kc (create G Φ c) as = some s) (hq : s.quiescent G = true) :
    (∀ u ∈ G.nodes, ∃ b < k, s.part u = some b) ∧ ∀ b < k, s.wt b = G.blockWeight s.part b := by
  have hI := exec_Inv hw (create_Inv hΦ c) h
  refine ⟨hI.assigned, fun b hb => ?_⟩
  have hW : Inv G k s ∧ WtInv G k s :=
    exec_induct (P := fun s => Inv G k s ∧ WtInv G k s) (Q := fun _ => True)
      (fun _ _ _ _ hP hst => ⟨hP.1.step hw hst, hP.2.step hw hP.1 hst⟩) as (fun _ _ => trivial)
      ⟨create_Inv hΦ c, create_WtInv Φ c⟩ h
  rw [hW.2 b hb, sumOver_quiescent (fun _ _ _ => rfl) hq]

/-- C36, balance: if every move is called with a weight limit of at most `Lim` for its target block,
then no block is heavier than its limit, unless it was from the beginning. -/
theorem C36_graph_never_overloaded (hw : G.WF) (hnw : ∀ u ∈ G.nodes, 0 ≤ G.nw u)
    (hΦ : ∀ u ∈ G.nodes, ∃ b < k, Φ u = some b) {Lim : Nat → Int} {as : List GAct}
    (hl : ∀ u dst lim sync, GAct.start u dst lim sync ∈ as → lim ≤ Lim dst) {s : GSt}
    (h : exec G k kc (create G Φ c) as = some s) (hq : s.quiescent G = true) :
    ∀ b < k, G.blockWeight s.part b ≤ max (Lim b) (G.blockWeight Φ b) := by
  intro b hb
  have hB : ∀ b, Lim b ≤ max (Lim b) (G.blockWeight Φ b) := fun b => le_max_left _ _
  have h0 : BoundInv G k (fun b => max (Lim b) (G.blockWeight Φ b)) (create G Φ c) := by
    intro b _
    rw [sumOver_quiescent (fun _ _ _ => rfl) (create_quiescent Φ c)]
    exact le_max_right _ _
  have hP : Inv G k s ∧ WtInv G k s ∧ BoundInv G k (fun b => max (Lim b) (G.blockWeight Φ b)) s :=
    exec_induct (P := fun s => Inv G k s ∧ WtInv G k s ∧ BoundInv G k (fun b => max (Lim b) (G.blockWeight Φ b)) s)
      (Q := ActLim Lim)
      (fun _ _ _ ha hP hst => ⟨hP.1.step hw hst, hP.2.1.step hw hP.1 hst,
        hP.2.2.step hw hnw hB ha hP.1 hP.2.1 hst⟩) as
      (fun a ha => by
        cases a with
        | start u dst lim sync => exact hl u dst lim sync ha
        | tick => trivial
        | resetSync => trivial)
      ⟨create_Inv hΦ c, create_WtInv Φ c, h0⟩ h
  rw [← sumOver_quiescent (f := target) (fun _ _ _ => rfl) hq]
  exact hP.2.2 b hb

/-- C36, attributed gains: start in any reachable state without active moves in which edge
synchronization is not outdated, run any concurrent schedule of synchronized moves (and resets).  The
updates handed to the callers, with the weights and sizes seen by each caller, sum up exactly to the
change of the edge cut. -/
theorem C36_graph_attributed_gains (hw : G.WF) (hΦ : ∀ u ∈ G.nodes, ∃ b < k, Φ u = some b) {as bs : List GAct}
    {s0 s : GSt} (h0 : exec G k kc (create G Φ c) as = some s0) (hq0 : s0.quiescent G = true)
    (hd : s0.dirty = false) (hs : ∀ a ∈ bs, a.Synced) (h : exec G k kc s0 bs = some s)
    (hq : s.quiescent G = true) :
    ∃ L, s.log = s0.log ++ L ∧ (L.map GUpdate.gain).sum = G.cut s.part - G.cut s0.part := by
  have hI0 := exec_Inv hw (create_Inv hΦ c) h0
  have hP := exec_induct (P := fun s => Inv G k s ∧ s.dirty = false ∧
      LogInv G (G.cut s0.part - (s0.log.map GUpdate.gain).sum) s ∧ ∃ L, s.log = s0.log ++ L) (Q := GAct.Synced)
      (fun _ _ _ ha hP hst => by
        obtain ⟨h1, h2, h3, L, h4⟩ := hP
        refine ⟨h1.step hw hst, hst.clean ha h2, h3.step hw h1 h2 hst, ?_⟩
        obtain ⟨L', hL'⟩ := hst.log
        exact ⟨L ++ L', by rw [hL', h4, List.append_assoc]⟩) bs hs
      ⟨hI0, hd, by unfold LogInv; rw [vterm_quiescent hw hI0 hd hq0]; omega, [], by simp⟩ h
  obtain ⟨hI, hd', hL, L, hlog⟩ := hP
  refine ⟨L, hlog, ?_⟩
  unfold LogInv at hL
  rw [vterm_quiescent hw hI hd' hq, hlog, List.map_append, List.sum_append] at hL
  omega

/-- C37: initialize the gain cache (with any order of the parallel loop) in any reachable state without
active moves and without outdated edge synchronization, and run any concurrent schedule of synchronized
moves.  Afterwards the gain of every node and target block is exactly the decrease of the cut that
moving that node alone would cause. -/
theorem C37_graph_gain_exact (hw : G.WF) (hkc : k ≤ kc) (hΦ : ∀ u ∈ G.nodes, ∃ b < k, Φ u = some b)
    {as bs : List GAct} {s0 s : GSt} (h0 : exec G k kc (create G Φ c) as = some s0) (hq0 : s0.quiescent G = true)
    (hd : s0.dirty = false) {order : List (Nat × Nat)}
    (ho : order.Perm (G.nodes.flatMap (fun u => (G.inc u).map (fun e => (u, e)))))
    (hs : ∀ a ∈ bs, a.Synced) (h : exec G k kc { s0 with cache := gInit G kc s0.part order } bs = some s)
    (hq : s.quiescent G = true) {u src dst : Nat} (hu : u ∈ G.nodes) (hsrc : s.part u = some src) (hdst : dst < k) :
    s.gain kc u src dst = G.cut s.part - G.cut (s.part.put u dst) := by
  have hI0 := exec_Inv hw (create_Inv hΦ c) h0
  have hI1 : Inv G k { s0 with cache := gInit G kc s0.part order } :=
    ⟨hI0.outside, hI0.assigned, hI0.ver, hI0.proc, hI0.entry⟩
  have hP := exec_induct (P := fun s => Inv G k s ∧ s.dirty = false ∧ CacheInv G k kc s) (Q := GAct.Synced)
      (fun _ _ _ ha hP hst => ⟨hP.1.step hw hst, hst.clean ha hP.2.1, hP.2.2.step hw hkc hP.1 hP.2.1 hst⟩) bs hs
      ⟨hI1, hd, cache_init hw hkc hI0 hd hq0 ho⟩ h
  obtain ⟨hI, hd', hC⟩ := hP
  have hsk : src < k := by
    obtain ⟨b, hb, hb'⟩ := hI.assigned u hu
    rw [hsrc] at hb'; cases hb'; exact hb
  have hpend : ∀ i, pendSum G s i = 0 := by
    intro i
    unfold pendSum
    rw [List.map_congr_left (g := fun _ => (0 : Int))]
    · simp
    · intro v hv
      rw [(quiescent_iff s).1 hq v hv]; rfl
  have h1 := hC u hu dst hdst
  have h2 := hC u hu src hsk
  rw [hpend, vconn_quiescent hw hI hd' hq hu] at h1 h2
  rw [cut_put hw hu hsrc]
  unfold GSt.gain
  omega

end

/-! Concrete case: a triangle with a weighted edge; nodes 0 and 1 move at the same time, with their
critical sections on the common edge interleaved, after an unsynchronized move and a reset. -/

def exTri : AGraph :=
  { nodes := [0, 1, 2], nw := fun v => v + 1, edges := [0, 1, 2]
    ends := fun x => if x = 0 then (0, 1) else if x = 1 then (1, 2) else (0, 2)
    w := fun x => x + 5
    inc := fun u => if u = 0 then [0, 1] else if u = 1 then [2, 3] else [4, 5]
    tgt := fun e => if e = 0 then 1 else if e = 1 then 2 else if e = 2 then 0 else if e = 3 then 2 else if e = 4 then 0 else 1
    uid := fun e => if e = 0 then 0 else if e = 1 then 2 else if e = 2 then 0 else if e = 3 then 1 else if e = 4 then 2 else 1
    ew := fun e => if e = 0 then 5 else if e = 1 then 7 else if e = 2 then 5 else if e = 3 then 6 else if e = 4 then 7 else 6 }

theorem exTri_wf : exTri.WF where
  nodes_nodup := by decide
  edges_nodup := by decide
  ends_mem := by decide
  ends_ne := by decide
  inc_nodup := by decide
  inc_iff := by
    intro u hu x
    have : u = 0 ∨ u = 1 ∨ u = 2 := by simpa [exTri] using hu
    rcases this with rfl | rfl | rfl
    all_goals
      simp only [exTri]
      constructor
      · intro h
        simp at h
        rcases h with rfl | rfl <;> simp
      · rintro ⟨h, h'⟩
        simp at h
        rcases h with rfl | rfl | rfl <;> simp at h' ⊢
  tgt := by decide
  ew := by decide

/-- all nodes in block 0 -/
def exTriΦ : Assign := fun v => if v < 3 then some 0 else none

/-- node 2 moves unsynchronized to block 1; reset -/
def exTri1 : List GAct := [.start 2 1 100 false, .tick 2, .tick 2, .resetSync]

/-- nodes 0 and 1 move concurrently to block 1; both have loaded the old block of the other before
either enters its critical section on edge 0 -/
def exTri2 : List GAct :=
  [.start 0 1 100 true, .start 1 1 100 true, .tick 0, .tick 1, .tick 0, .tick 1,
   .tick 0, .tick 1, .tick 0, .tick 1, .tick 0, .tick 1, .tick 0, .tick 1, .tick 0, .tick 1,
   .tick 0, .tick 1, .tick 0, .tick 1, .tick 0, .tick 1]

def exTriOrder : List (Nat × Nat) := [(2, 5), (0, 0), (1, 3), (1, 2), (0, 1), (2, 4)]

example : ∃ s0, exec exTri 2 2 (create exTri exTriΦ (fun _ => 0)) exTri1 = some s0 ∧ s0.quiescent exTri = true ∧
    s0.dirty = false ∧ exTri.cut s0.part = 13 ∧
    ∃ s, exec exTri 2 2 { s0 with cache := gInit exTri 2 s0.part exTriOrder } exTri2 = some s ∧
      s.quiescent exTri = true ∧ exTri.cut s.part = 0 ∧ s.log.map GUpdate.gain = [5, -5, -7, -6] ∧
      s.gain 2 0 1 0 = -12 :=
  ⟨_, rfl, by decide, by decide, by decide, _, rfl, by decide, by decide, by decide, by decide⟩

example : exTriOrder.Perm (exTri.nodes.flatMap (fun u => (exTri.inc u).map (fun e => (u, e)))) := by decide

/-- The example as an instance of the theorems. -/
example {s0 s : GSt} (h0 : exec exTri 2 2 (create exTri exTriΦ (fun _ => 0)) exTri1 = some s0)
    (h : exec exTri 2 2 { s0 with cache := gInit exTri 2 s0.part exTriOrder } exTri2 = some s)
    (hq0 : s0.quiescent exTri = true) (hd : s0.dirty = false) (hq : s.quiescent exTri = true) (hp : s.part 0 = some 1) :
    s.gain 2 0 1 0 = exTri.cut s.part - exTri.cut (s.part.put 0 0) :=
  C37_graph_gain_exact exTri_wf (by decide) (by decide) h0 hq0 hd (by decide) (by simp [exTri2, GAct.Synced]) h hq (by decide) hp (by decide)

end Verif
