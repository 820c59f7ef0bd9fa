import Verif.Lemmas.PGraph
/-! Block weights, attributed gains and gain cache under concurrent moves on a partitioned graph. -/
namespace Verif
namespace GSt
variable {G : AGraph} {k kc : Nat}

/-! ### Block weights -/

/-- amount of node weight that node counts for on the counter of block `b` -/
def held (w : Int) (b : Nat) (pu : Option Nat) : GProc → Int
  | .idle => if pu = some b then w else 0
  | .accepted _ dst _ => (if pu = some b then w else 0) + (if b = dst then w else 0)
  | .run _ dst _ _ _ => if b = dst then w else 0
  | .rejected dst => (if pu = some b then w else 0) + (if b = dst then w else 0)

/-- weight that will end up in block `b` -/
def target (w : Int) (b : Nat) (pu : Option Nat) : GProc → Int
  | .idle => if pu = some b then w else 0
  | .accepted _ dst _ => if b = dst then w else 0
  | .run _ dst _ _ _ => if b = dst then w else 0
  | .rejected _ => if pu = some b then w else 0

def sumOver (G : AGraph) (f : Int → Nat → Option Nat → GProc → Int) (s : GSt) (b : Nat) : Int :=
  (G.nodes.map (fun u => f (G.nw u) b (s.part u) (s.proc u))).sum

theorem sumOver_upd (hw : G.WF) (f : Int → Nat → Option Nat → GProc → Int) (s : GSt) {u : Nat} (hu : u ∈ G.nodes)
    (p : GProc) (b : Nat) {s' : GSt} (hs' : s'.proc = s.setProc u p) (hp : ∀ v, v ≠ u → s'.part v = s.part v) :
    sumOver G f s' b = sumOver G f s b + (f (G.nw u) b (s'.part u) p - f (G.nw u) b (s.part u) (s.proc u)) := by
  unfold sumOver
  rw [sum_map_upd (f := fun u => f (G.nw u) b (s.part u) (s.proc u)) hw.nodes_nodup hu]
  · rw [hs', setProc_same]
  · intro v hv; rw [hs', setProc_other s p hv, hp v hv]

theorem sum_filter_ite (l : List Nat) (p : Nat → Bool) (w : Nat → Int) :
    ((l.filter p).map w).sum = (l.map (fun v => if p v = true then w v else 0)).sum := by
  induction l with
  | nil => rfl
  | cons a l ih =>
    rw [List.filter_cons]
    by_cases h : p a = true
    · simp [h, ih]
    · simp [h, ih]

theorem sumOver_quiescent {f : Int → Nat → Option Nat → GProc → Int}
    (hf : ∀ w b pu, f w b pu .idle = if pu = some b then w else 0) {s : GSt} (hq : s.quiescent G = true) (b : Nat) :
    sumOver G f s b = G.blockWeight s.part b := by
  have hq' := (quiescent_iff s).1 hq
  unfold sumOver AGraph.blockWeight
  rw [sum_filter_ite]
  refine congrArg List.sum (List.map_congr_left (fun v hv => ?_))
  rw [hq' v hv, hf]
  simp

theorem sumOver_eq_of (hw : G.WF) {f : Int → Nat → Option Nat → GProc → Int} {s s' : GSt} {u : Nat} (hu : u ∈ G.nodes)
    {p : GProc} {b : Nat} {X Y : Int} (h0 : X = sumOver G f s b) (hs' : s'.proc = s.setProc u p)
    (hp : ∀ v, v ≠ u → s'.part v = s.part v)
    (h : Y = X + (f (G.nw u) b (s'.part u) p - f (G.nw u) b (s.part u) (s.proc u))) : Y = sumOver G f s' b := by
  rw [sumOver_upd hw f s hu p b hs' hp, ← h0, h]

theorem sumOver_le_of (hw : G.WF) {f : Int → Nat → Option Nat → GProc → Int} {s s' : GSt} {u : Nat} (hu : u ∈ G.nodes)
    {p : GProc} {b : Nat} {X : Int} (h0 : sumOver G f s b ≤ X) (hs' : s'.proc = s.setProc u p)
    (hp : ∀ v, v ≠ u → s'.part v = s.part v)
    (h : f (G.nw u) b (s'.part u) p ≤ f (G.nw u) b (s.part u) (s.proc u)) : sumOver G f s' b ≤ X := by
  rw [sumOver_upd hw f s hu p b hs' hp]; omega

def WtInv (G : AGraph) (k : Nat) (s : GSt) : Prop := ∀ b, b < k → s.wt b = sumOver G held s b

theorem WtInv.step (hw : G.WF) {s s' : GSt} {a : GAct} (hI : Inv G k s) (hW : WtInv G k s)
    (hst : Step G k kc s a s') : WtInv G k s' := by
  intro b hbk
  have hb := hW b hbk
  cases hst with
  | @accept u src dst lim sync hu hd hi hs hp hne hle =>
    refine sumOver_eq_of hw hu (p := (.accepted src dst sync)) hb rfl (fun _ _ => rfl) ?_
    rw [hi]
    simp only [addWt, held]; split <;> omega
  | @reject u src dst lim sync hu hd hi hp =>
    refine sumOver_eq_of hw hu (p := (.rejected dst)) hb rfl (fun _ _ => rfl) ?_
    rw [hi]
    simp only [addWt, held]; split <;> omega
  | @release u src dst sync hq =>
    have hu : u ∈ G.nodes := hI.mem (by rw [hq]; simp)
    have hp := hI.proc u
    unfold ProcOk at hp
    rw [hq] at hp
    refine sumOver_eq_of hw hu (p := _) hb rfl (fun _ _ => rfl) ?_
    rw [hq]
    simp only [addWt, held, hp.1, Option.some.injEq]
    have : (src = b) = (b = src) := propext eq_comm
    simp only [this]
    split <;> split <;> omega
  | @cacheOp u src dst i a t l rest hq =>
    have hu : u ∈ G.nodes := hI.mem (by rw [hq]; simp)
    refine sumOver_eq_of hw hu (p := _) hb rfl (fun _ _ => rfl) ?_
    rw [hq]
    simp only [held]; omega
  | @crit u src dst e bv rest hq =>
    have hu : u ∈ G.nodes := hI.mem (by rw [hq]; simp)
    refine sumOver_eq_of hw hu (p := _) hb rfl (fun _ _ => rfl) ?_
    rw [hq]
    simp only [held]; omega
  | @load u src dst e rest hq =>
    have hu : u ∈ G.nodes := hI.mem (by rw [hq]; simp)
    refine sumOver_eq_of hw hu (p := _) hb rfl (fun _ _ => rfl) ?_
    rw [hq]
    simp only [held]; omega
  | @store u src dst hq =>
    have hu : u ∈ G.nodes := hI.mem (by rw [hq]; simp)
    refine sumOver_eq_of hw hu (p := .idle) hb rfl (fun v hv => by simp [Assign.put, hv]) ?_
    rw [hq]
    simp only [held, Assign.put, if_true, Option.some.injEq]
    have : (dst = b) = (b = dst) := propext eq_comm
    simp only [this]
    omega
  | @undo u dst hq =>
    have hu : u ∈ G.nodes := hI.mem (by rw [hq]; simp)
    refine sumOver_eq_of hw hu (p := .idle) hb rfl (fun _ _ => rfl) ?_
    rw [hq]
    simp only [addWt, held]; split <;> omega
  | reset hq => exact hb

theorem sum_map_le (l : List Nat) (f g : Nat → Int) (h : ∀ u ∈ l, f u ≤ g u) : (l.map f).sum ≤ (l.map g).sum := by
  induction l with
  | nil => simp
  | cons a l ih =>
    have h1 := h a (by simp)
    have h2 := ih (fun u hu => h u (by simp [hu]))
    simp only [List.map_cons, List.sum_cons]; omega

theorem target_le_held (hnw : ∀ u ∈ G.nodes, 0 ≤ G.nw u) (s : GSt) (b : Nat) :
    sumOver G target s b ≤ sumOver G held s b := by
  refine sum_map_le _ _ _ ?_
  intro u hu
  have := hnw u hu
  cases s.proc u <;> simp only [target, held] <;> (try split) <;> (try split) <;> omega

/-- limits of a started move -/
def ActLim (Lim : Nat → Int) : GAct → Prop
  | .start _ dst lim _ => lim ≤ Lim dst
  | _ => True

def BoundInv (G : AGraph) (k : Nat) (B : Nat → Int) (s : GSt) : Prop := ∀ b, b < k → sumOver G target s b ≤ B b

theorem BoundInv.step (hw : G.WF) (hnw : ∀ u ∈ G.nodes, 0 ≤ G.nw u) {Lim B : Nat → Int} (hB : ∀ b, Lim b ≤ B b)
    {s s' : GSt} {a : GAct} (ha : ActLim Lim a) (hI : Inv G k s) (hW : WtInv G k s) (hbd : BoundInv G k B s)
    (hst : Step G k kc s a s') : BoundInv G k B s' := by
  have hW' := hW.step hw hI hst
  have hb := hbd
  intro b hbk
  have hb := hbd b hbk
  cases hst with
  | @accept u src dst lim sync hu hd hi hs hp hne hle =>
    by_cases hbd : b = dst
    · subst hbd
      have h1 := hW' b hbk
      have h2 := target_le_held hnw { s with wt := addWt s.wt b (G.nw u)
                                             proc := s.setProc u (.accepted src b sync)
                                             dirty := s.dirty || !sync } b
      simp only at h1
      have h3 : lim ≤ Lim b := ha
      have h4 := hB b
      omega
    · refine sumOver_le_of hw hu (p := (.accepted src dst sync)) hb rfl (fun _ _ => rfl) ?_
      rw [hi]
      have := hnw u hu
      simp only [target, if_neg hbd]
      split <;> omega
  | @reject u src dst lim sync hu hd hi hp =>
    refine sumOver_le_of hw hu (p := (.rejected dst)) hb rfl (fun _ _ => rfl) ?_
    rw [hi]
    simp only [target]; omega
  | @release u src dst sync hq =>
    have hu : u ∈ G.nodes := hI.mem (by rw [hq]; simp)
    refine sumOver_le_of hw hu (p := _) hb rfl (fun _ _ => rfl) ?_
    rw [hq]
    simp only [target]; omega
  | @cacheOp u src dst i a t l rest hq =>
    have hu : u ∈ G.nodes := hI.mem (by rw [hq]; simp)
    refine sumOver_le_of hw hu (p := _) hb rfl (fun _ _ => rfl) ?_
    rw [hq]
    simp only [target]; omega
  | @crit u src dst e bv rest hq =>
    have hu : u ∈ G.nodes := hI.mem (by rw [hq]; simp)
    refine sumOver_le_of hw hu (p := _) hb rfl (fun _ _ => rfl) ?_
    rw [hq]
    simp only [target]; omega
  | @load u src dst e rest hq =>
    have hu : u ∈ G.nodes := hI.mem (by rw [hq]; simp)
    refine sumOver_le_of hw hu (p := _) hb rfl (fun _ _ => rfl) ?_
    rw [hq]
    simp only [target]; omega
  | @store u src dst hq =>
    have hu : u ∈ G.nodes := hI.mem (by rw [hq]; simp)
    refine sumOver_le_of hw hu (p := .idle) hb rfl (fun v hv => by simp [Assign.put, hv]) ?_
    rw [hq]
    simp only [target, Assign.put, if_true, Option.some.injEq]
    have : (dst = b) = (b = dst) := propext eq_comm
    simp only [this]
    omega
  | @undo u dst hq =>
    have hu : u ∈ G.nodes := hI.mem (by rw [hq]; simp)
    refine sumOver_le_of hw hu (p := .idle) hb rfl (fun _ _ => rfl) ?_
    rw [hq]
    simp only [target]; omega
  | reset hq => exact hb

/-! ### The view of an edge on its end nodes -/

/-- block of end node `u` of the undirected edge `x = {u, v}`, in the order of the critical sections -/
def view (s : GSt) (x u v : Nat) : Option Nat :=
  if (s.sync x).version = s.version then ((s.sync x).entry u v).or (s.part u) else s.part u

theorem view_of_weak {s : GSt} {x u v : Nat}
    (h : ∀ b, (s.sync x).version = s.version → (s.sync x).entry u v = some b → s.part u = some b) :
    s.view x u v = s.part u := by
  unfold view
  split
  · rename_i hc
    cases he : (s.sync x).entry u v with
    | none => simp
    | some b => rw [h b hc he]; simp
  · rfl

/-- no call active: the view is the stored block -/
theorem view_idle {s : GSt} (hI : Inv G k s) (hd : s.dirty = false) {u e : Nat} (hu : u ∈ G.nodes)
    (hi : s.proc u = .idle) (he : e ∈ G.inc u) : s.view (G.uid e) u (G.tgt e) = s.part u := by
  apply view_of_weak
  have := hI.entry hd u hu
  unfold EntryOk Cur at this
  rw [hi] at this
  exact this e he

/-- what the critical section of `e` does to the views -/
structure CritSpec (G : AGraph) (s s' : GSt) (u src dst e : Nat) (upd : GUpdate) : Prop where
  inc : e ∈ G.inc u
  before : s.view (G.uid e) u (G.tgt e) = some src
  after : s'.view (G.uid e) u (G.tgt e) = some dst
  other : s'.view (G.uid e) (G.tgt e) u = s.view (G.uid e) (G.tgt e) u
  upd : upd.other = s.view (G.uid e) (G.tgt e) u
  frame : ∀ x, x ≠ G.uid e → ∀ a b, s'.view x a b = s.view x a b

theorem crit_spec (hw : G.WF) {s : GSt} (hI : Inv G k s) {u src dst e : Nat} {bv : Option Nat} {rest : List Nat}
    (hq : s.proc u = .run src dst [] (some (e, bv)) rest) {s' : GSt} (h1 : s'.part = s.part)
    (h2 : s'.version = s.version)
    (h3 : s'.sync = fun x => if x = G.uid e then
                    (critical (s.sync (G.uid e)) s.version u (G.tgt e) dst bv).2 else s.sync x) :
    CritSpec G s s' u src dst e (updOf G s u src dst e bv) := by
  have hu : u ∈ G.nodes := hI.mem (by rw [hq]; simp)
  have hp := hI.proc u
  unfold ProcOk at hp
  rw [hq] at hp
  obtain ⟨a1, a2, a3, a4⟩ := hp
  have hd : s.dirty = false := by
    cases h : s.dirty with
    | false => rfl
    | true => have := (a4 h).2.1; simp at this
  have hue := hI.entry hd u hu
  unfold EntryOk at hue
  rw [hq] at hue
  obtain ⟨done, b1, b2, b3, b4⟩ := hue
  simp only [remaining] at b1
  have heu : e ∈ G.inc u := by rw [b1]; simp
  obtain ⟨t1, t2, t3⟩ := tgt_ne hw hu heu
  refine ⟨heu, ?_, ?_, ?_, ?_, ?_⟩
  · rw [view_of_weak, a1]
    intro b hc hb
    rw [a1, b3 e (by simp [remaining]) b hc hb]
  · unfold view
    rw [h3, h2]
    simp only [if_true]
    rw [if_pos critical_version, critical_own]; simp
  · unfold view
    rw [h3, h2, h1]
    simp only [if_true]
    rw [if_pos critical_version, critical_other t1.symm]
    split
    · rfl
    · simp
  · show (critical (s.sync (G.uid e)) s.version u (G.tgt e) dst bv).1 = _
    rw [critical_fst]
    unfold view
    have h4 := b4 e bv rfl
    unfold Cur at h4
    by_cases hc : (s.sync (G.uid e)).version = s.version
    · rw [if_pos hc]
      cases hm : (s.sync (G.uid e)).entry (G.tgt e) u with
      | none =>
        rw [hm] at h4
        simp at h4
        simp [h4]
      | some b => simp [hc]
    · rw [if_neg hc, if_neg (fun h => hc h.2)]
      rcases h4 with h4 | h4
      · exact absurd h4.1 hc
      · exact h4.symm
  · intro x hx a b
    unfold view
    rw [h3, h2, h1]
    simp only [if_neg hx]

/-- storing the block does not change any view -/
theorem store_view (hw : G.WF) {s : GSt} (hI : Inv G k s) (hd : s.dirty = false) {u src dst : Nat}
    (hq : s.proc u = .run src dst [] none []) {s' : GSt} (h1 : s'.part = s.part.put u dst)
    (h2 : s'.version = s.version) (h3 : s'.sync = s.sync) {v e : Nat} (hv : v ∈ G.nodes) (he : e ∈ G.inc v) :
    s'.view (G.uid e) v (G.tgt e) = s.view (G.uid e) v (G.tgt e) := by
  have hu : u ∈ G.nodes := hI.mem (by rw [hq]; simp)
  unfold view
  rw [h1, h2, h3]
  by_cases hvu : v = u
  · subst hvu
    have hue := hI.entry hd v hv
    unfold EntryOk at hue
    rw [hq] at hue
    obtain ⟨done, b1, b2, _, _⟩ := hue
    simp only [remaining, List.append_nil] at b1
    have := b2 e (by rw [← b1]; exact he)
    unfold Cur at this
    rw [if_pos this.1, if_pos this.1, this.2]
    simp
  · simp [Assign.put, hvu]

/-! ### Attributed gains -/

/-- contribution of the undirected edge `x` to the cut, as seen by its record -/
def vterm (G : AGraph) (s : GSt) (x : Nat) : Int :=
  if s.view x (G.ends x).1 (G.ends x).2 ≠ s.view x (G.ends x).2 (G.ends x).1 then G.w x else 0

def LogInv (G : AGraph) (base : Int) (s : GSt) : Prop :=
  base + (s.log.map GUpdate.gain).sum = (G.edges.map (vterm G s)).sum

theorem vterm_congr {s s' : GSt} (h : ∀ x ∈ G.edges, s'.view x (G.ends x).1 (G.ends x).2 = s.view x (G.ends x).1 (G.ends x).2
    ∧ s'.view x (G.ends x).2 (G.ends x).1 = s.view x (G.ends x).2 (G.ends x).1) :
    G.edges.map (vterm G s') = G.edges.map (vterm G s) := by
  apply List.map_congr_left
  intro x hx
  unfold vterm
  rw [(h x hx).1, (h x hx).2]

/-- both ends of an undirected edge as directed edges -/
theorem ends_dir (hw : G.WF) {x : Nat} (hx : x ∈ G.edges) :
    (∃ e ∈ G.inc (G.ends x).1, G.uid e = x ∧ G.tgt e = (G.ends x).2) ∧
    (∃ e ∈ G.inc (G.ends x).2, G.uid e = x ∧ G.tgt e = (G.ends x).1) := by
  obtain ⟨h1, h2⟩ := hw.ends_mem x hx
  have hne := hw.ends_ne x hx
  constructor
  · have : x ∈ (G.inc (G.ends x).1).map G.uid := (hw.inc_iff _ h1 x).2 ⟨hx, Or.inl rfl⟩
    obtain ⟨e, he, rfl⟩ := List.mem_map.1 this
    refine ⟨e, he, rfl, ?_⟩
    rcases hw.tgt _ h1 e he with h | h
    · rw [Prod.ext_iff] at h; exact h.2.symm
    · rw [Prod.ext_iff] at h; exact absurd h.2.symm hne
  · have : x ∈ (G.inc (G.ends x).2).map G.uid := (hw.inc_iff _ h2 x).2 ⟨hx, Or.inr rfl⟩
    obtain ⟨e, he, rfl⟩ := List.mem_map.1 this
    refine ⟨e, he, rfl, ?_⟩
    rcases hw.tgt _ h2 e he with h | h
    · rw [Prod.ext_iff] at h; exact absurd h.1 hne
    · rw [Prod.ext_iff] at h; exact h.1.symm

/-- a step that keeps part, records and version keeps the views -/
theorem view_eq {s s' : GSt} (h1 : s'.part = s.part) (h2 : s'.version = s.version) (h3 : s'.sync = s.sync)
    (x a b : Nat) : s'.view x a b = s.view x a b := by unfold view; rw [h1, h2, h3]

theorem edge_view (hw : G.WF) {s s' : GSt}
    (h : ∀ v ∈ G.nodes, ∀ e ∈ G.inc v, s'.view (G.uid e) v (G.tgt e) = s.view (G.uid e) v (G.tgt e)) :
    ∀ x ∈ G.edges, s'.view x (G.ends x).1 (G.ends x).2 = s.view x (G.ends x).1 (G.ends x).2
      ∧ s'.view x (G.ends x).2 (G.ends x).1 = s.view x (G.ends x).2 (G.ends x).1 := by
  intro x hx
  obtain ⟨m1, m2⟩ := hw.ends_mem x hx
  obtain ⟨⟨e, he, h1, h2⟩, ⟨f, hf, h3, h4⟩⟩ := ends_dir hw hx
  have he' := h _ m1 e he
  have hf' := h _ m2 f hf
  rw [h1, h2] at he'
  rw [h3, h4] at hf'
  exact ⟨he', hf'⟩

/-- views are unchanged by resetting the synchronization when no call is active -/
theorem reset_view {s : GSt} (hI : Inv G k s) (hd : s.dirty = false) (hq : s.quiescent G = true) {s' : GSt}
    (h1 : s'.part = s.part) (h2 : s'.version = s.version + 1) (h3 : s'.sync = s.sync) :
    ∀ v ∈ G.nodes, ∀ e ∈ G.inc v, s'.view (G.uid e) v (G.tgt e) = s.view (G.uid e) v (G.tgt e) := by
  intro v hv e he
  rw [view_idle hI hd hv ((quiescent_iff s).1 hq v hv) he]
  unfold view
  rw [h1, h2, h3, if_neg]
  have := hI.ver (G.uid e); omega

theorem LogInv.step (hw : G.WF) {base : Int} {s s' : GSt} {a : GAct} (hI : Inv G k s) (hd : s.dirty = false)
    (hL : LogInv G base s) (hst : Step G k kc s a s') : LogInv G base s' := by
  have same : ∀ s' : GSt, s'.log = s.log → (∀ v ∈ G.nodes, ∀ e ∈ G.inc v,
      s'.view (G.uid e) v (G.tgt e) = s.view (G.uid e) v (G.tgt e)) → LogInv G base s' := by
    intro s' h1 h2
    unfold LogInv
    rw [h1, vterm_congr (edge_view hw h2)]
    exact hL
  cases hst with
  | accept => exact same _ rfl (fun _ _ _ _ => view_eq rfl rfl rfl _ _ _)
  | reject => exact same _ rfl (fun _ _ _ _ => view_eq rfl rfl rfl _ _ _)
  | release => exact same _ rfl (fun _ _ _ _ => view_eq rfl rfl rfl _ _ _)
  | cacheOp => exact same _ rfl (fun _ _ _ _ => view_eq rfl rfl rfl _ _ _)
  | load => exact same _ rfl (fun _ _ _ _ => view_eq rfl rfl rfl _ _ _)
  | undo => exact same _ rfl (fun _ _ _ _ => view_eq rfl rfl rfl _ _ _)
  | @store u src dst hq => exact same _ rfl (fun v hv e he => store_view hw hI hd hq (s' := { s with part := s.part.put u dst, proc := s.setProc u .idle }) rfl rfl rfl hv he)
  | reset hq => exact same _ rfl (reset_view hI hd hq rfl rfl rfl)
  | @crit u src dst e bv rest hq =>
    have hu : u ∈ G.nodes := hI.mem (by rw [hq]; simp)
    set s' : GSt := { s with sync := fun x => if x = G.uid e then
                    (critical (s.sync (G.uid e)) s.version u (G.tgt e) dst bv).2 else s.sync x
                             log := s.log ++ [updOf G s u src dst e bv]
                             proc := s.setProc u (.run src dst (gDelta G kc (updOf G s u src dst e bv)) none rest) } with hs'
    have hc := crit_spec hw hI hq (s' := s') rfl rfl rfl
    obtain ⟨t1, t2, t3⟩ := tgt_ne hw hu hc.inc
    unfold LogInv at hL ⊢
    have hsum : (G.edges.map (vterm G s')).sum = (G.edges.map (vterm G s)).sum +
        (vterm G s' (G.uid e) - vterm G s (G.uid e)) := by
      refine sum_map_upd hw.edges_nodup t3 ?_
      intro x hx
      unfold vterm
      rw [hc.frame x hx, hc.frame x hx]
    rw [hsum, ← hL]
    have hgain : (updOf G s u src dst e bv).gain = vterm G s' (G.uid e) - vterm G s (G.uid e) := by
      have hew : (updOf G s u src dst e bv).weight = G.w (G.uid e) := hw.ew u hu e hc.inc
      have ho := hc.upd
      have hne : src ≠ dst := by
        have hp := hI.proc u
        unfold ProcOk at hp
        rw [hq] at hp
        exact hp.2.2.1
      have hgv : (updOf G s u src dst e bv).gain =
          (if (updOf G s u src dst e bv).other = some dst then 0 else G.w (G.uid e)) -
          (if (updOf G s u src dst e bv).other = some src then 0 else G.w (G.uid e)) := by
        unfold GUpdate.gain
        rw [hew]
        show (if (if (updOf G s u src dst e bv).other = some dst then 2 else 1) = 1 then G.w (G.uid e) else 0) +
          (if (if (updOf G s u src dst e bv).other = some src then 1 else 0) = 0 then -G.w (G.uid e) else 0) = _
        by_cases h1 : (updOf G s u src dst e bv).other = some dst
        · by_cases h2 : (updOf G s u src dst e bv).other = some src
          · rw [h1] at h2; exact absurd (Option.some.inj h2).symm hne
          · simp only [if_pos h1, if_neg h2]; simp
        · by_cases h2 : (updOf G s u src dst e bv).other = some src
          · simp only [if_neg h1, if_pos h2]; simp
          · simp only [if_neg h1, if_neg h2]; simp
      rw [hgv, ho]
      unfold vterm
      rcases hw.tgt u hu e hc.inc with h | h <;> rw [h] <;> simp only
      · rw [hc.before, hc.after, hc.other]
        have e1 : ∀ a b : Option Nat, (if a ≠ b then G.w (G.uid e) else 0) = if b = a then 0 else G.w (G.uid e) := by
          intro a b
          by_cases hab : a = b
          · simp [hab]
          · simp [hab, Ne.symm hab]
        rw [e1, e1]
      · rw [hc.before, hc.after, hc.other]
        simp only [ne_eq, ite_not]
    show base + ((s.log ++ [updOf G s u src dst e bv]).map GUpdate.gain).sum = _
    rw [List.map_append, List.sum_append, List.map_cons, List.map_nil, List.sum_cons, List.sum_nil, hgain]
    omega

theorem vterm_quiescent (hw : G.WF) {s : GSt} (hI : Inv G k s) (hd : s.dirty = false) (hq : s.quiescent G = true) :
    (G.edges.map (vterm G s)).sum = G.cut s.part := by
  have hq' := (quiescent_iff s).1 hq
  unfold AGraph.cut
  refine congrArg List.sum (List.map_congr_left (fun x hx => ?_))
  obtain ⟨m1, m2⟩ := hw.ends_mem x hx
  obtain ⟨⟨e, he, h1, h2⟩, ⟨f, hf, h3, h4⟩⟩ := ends_dir hw hx
  have he' := view_idle hI hd m1 (hq' _ m1) he
  have hf' := view_idle hI hd m2 (hq' _ m2) hf
  rw [h1, h2] at he'
  rw [h3, h4] at hf'
  unfold vterm
  rw [he', hf']

/-! ### Gain cache -/

/-- weight of the edges between `v` and block `b`, as seen by the records -/
def vconn (G : AGraph) (s : GSt) (v b : Nat) : Int :=
  ((G.inc v).map (fun f => if s.view (G.uid f) (G.tgt f) v = some b then G.ew f else 0)).sum

/-- pending additions of a process at cache index `i` -/
def pendAt (i : Nat) : GProc → Int
  | .run _ _ pend _ _ => (pend.map (fun p => if p.1 = i then p.2 else 0)).sum
  | _ => 0

def pendSum (G : AGraph) (s : GSt) (i : Nat) : Int := (G.nodes.map (fun u => pendAt i (s.proc u))).sum

def CacheInv (G : AGraph) (k kc : Nat) (s : GSt) : Prop :=
  ∀ v ∈ G.nodes, ∀ b, b < k → s.cache (gIdx kc v b) + pendSum G s (gIdx kc v b) = vconn G s v b

theorem pendSum_upd (hw : G.WF) (s : GSt) {u : Nat} (hu : u ∈ G.nodes) (p : GProc) (i : Nat) {s' : GSt}
    (hs' : s'.proc = s.setProc u p) :
    pendSum G s' i = pendSum G s i + (pendAt i p - pendAt i (s.proc u)) := by
  unfold pendSum
  rw [sum_map_upd (f := fun u => pendAt i (s.proc u)) hw.nodes_nodup hu]
  · rw [hs', setProc_same]
  · intro v hv; rw [hs', setProc_other s p hv]

theorem gIdx_inj {u b v c : Nat} (hb : b < kc) (hc : c < kc) : gIdx kc u b = gIdx kc v c ↔ u = v ∧ b = c := by
  unfold gIdx
  constructor
  · intro h
    have h1 : (u * kc + b) / kc = (v * kc + c) / kc := by rw [h]
    have hk : 0 < kc := by omega
    rw [Nat.mul_comm u, Nat.mul_comm v, Nat.mul_add_div hk, Nat.mul_add_div hk, Nat.div_eq_of_lt hb,
      Nat.div_eq_of_lt hc] at h1
    have : u = v := by omega
    subst this
    exact ⟨rfl, by omega⟩
  · rintro ⟨rfl, rfl⟩; rfl

theorem other_view (hw : G.WF) {s s' : GSt}
    (h : ∀ v ∈ G.nodes, ∀ e ∈ G.inc v, s'.view (G.uid e) v (G.tgt e) = s.view (G.uid e) v (G.tgt e)) :
    ∀ v ∈ G.nodes, ∀ e ∈ G.inc v, s'.view (G.uid e) (G.tgt e) v = s.view (G.uid e) (G.tgt e) v := by
  intro v hv e he
  obtain ⟨f, hf, h1, h2⟩ := reverse_exists hw hv he
  have := h _ (tgt_ne hw hv he).2.1 f hf
  rw [h1, h2] at this
  exact this

theorem vconn_congr (hw : G.WF) {s s' : GSt}
    (h : ∀ v ∈ G.nodes, ∀ e ∈ G.inc v, s'.view (G.uid e) v (G.tgt e) = s.view (G.uid e) v (G.tgt e))
    {v : Nat} (hv : v ∈ G.nodes) (b : Nat) : vconn G s' v b = vconn G s v b := by
  unfold vconn
  refine congrArg List.sum (List.map_congr_left (fun f hf => ?_))
  rw [other_view hw h v hv f hf]

theorem nodup_of_map {l : List Nat} {f : Nat → Nat} (h : (l.map f).Nodup) : l.Nodup := List.Nodup.of_map f h

theorem CacheInv.step (hw : G.WF) (hkc : k ≤ kc) {s s' : GSt} {a : GAct} (hI : Inv G k s) (hd : s.dirty = false)
    (hC : CacheInv G k kc s) (hst : Step G k kc s a s') : CacheInv G k kc s' := by
  have same : ∀ (u : Nat) (p : GProc) (s' : GSt), u ∈ G.nodes → s'.cache = s.cache → s'.proc = s.setProc u p →
      (∀ i, pendAt i p = pendAt i (s.proc u)) → (∀ v ∈ G.nodes, ∀ e ∈ G.inc v,
      s'.view (G.uid e) v (G.tgt e) = s.view (G.uid e) v (G.tgt e)) → CacheInv G k kc s' := by
    intro u p s' hu h1 h2 h3 h4 v hv b hb
    rw [h1, vconn_congr hw h4 hv, pendSum_upd hw s hu p _ h2, h3, ← hC v hv b hb]
    omega
  cases hst with
  | @accept u src dst lim sync hu hd hi hs hp hne hle =>
    exact same u _ _ hu rfl rfl (fun i => by rw [hi]; rfl) (fun _ _ _ _ => view_eq rfl rfl rfl _ _ _)
  | @reject u src dst lim sync hu hd hi hp =>
    exact same u _ _ hu rfl rfl (fun i => by rw [hi]; rfl) (fun _ _ _ _ => view_eq rfl rfl rfl _ _ _)
  | @release u src dst sync hq =>
    exact same u _ _ (hI.mem (by rw [hq]; simp)) rfl rfl (fun i => by rw [hq]; rfl)
      (fun _ _ _ _ => view_eq rfl rfl rfl _ _ _)
  | @load u src dst e rest hq =>
    exact same u _ _ (hI.mem (by rw [hq]; simp)) rfl rfl (fun i => by rw [hq]; rfl)
      (fun _ _ _ _ => view_eq rfl rfl rfl _ _ _)
  | @undo u dst hq =>
    exact same u _ _ (hI.mem (by rw [hq]; simp)) rfl rfl (fun i => by rw [hq]; rfl)
      (fun _ _ _ _ => view_eq rfl rfl rfl _ _ _)
  | @store u src dst hq =>
    exact same u _ _ (hI.mem (by rw [hq]; simp)) rfl rfl (fun i => by rw [hq]; rfl)
      (fun v hv e he => store_view hw hI hd hq (s' := { s with part := s.part.put u dst, proc := s.setProc u .idle }) rfl rfl rfl hv he)
  | reset hq =>
    intro v hv b hb
    have h1 := vconn_congr hw (s := s) (s' := { s with version := s.version + 1, dirty := false })
      (reset_view hI hd hq (s' := { s with version := s.version + 1, dirty := false }) rfl rfl rfl) hv b
    rw [h1]
    exact hC v hv b hb
  | @cacheOp u src dst i a t l rest hq =>
    have hu : u ∈ G.nodes := hI.mem (by rw [hq]; simp)
    intro v hv b hb
    set s' : GSt := { s with cache := fun j => if j = i then s.cache j + a else s.cache j
                             proc := s.setProc u (.run src dst t l rest) } with hs'
    have h1 := vconn_congr hw (s := s) (s' := s') (fun _ _ _ _ => view_eq rfl rfl rfl _ _ _) hv b
    have h2 := pendSum_upd hw s hu (.run src dst t l rest) (gIdx kc v b) (s' := s') rfl
    rw [h1, h2, ← hC v hv b hb, hq, hs']
    simp only [pendAt, List.map_cons, List.sum_cons]
    by_cases h : gIdx kc v b = i
    · simp [h]; omega
    · simp [h, Ne.symm h]
  | @crit u src dst e bv rest hq =>
    have hu : u ∈ G.nodes := hI.mem (by rw [hq]; simp)
    set s' : GSt := { s with sync := fun x => if x = G.uid e then
                    (critical (s.sync (G.uid e)) s.version u (G.tgt e) dst bv).2 else s.sync x
                             log := s.log ++ [updOf G s u src dst e bv]
                             proc := s.setProc u (.run src dst (gDelta G kc (updOf G s u src dst e bv)) none rest) } with hs'
    have hc := crit_spec hw hI hq (s' := s') rfl rfl rfl
    obtain ⟨t1, t2, t3⟩ := tgt_ne hw hu hc.inc
    have hp := hI.proc u
    unfold ProcOk at hp
    rw [hq] at hp
    obtain ⟨a1, a2, a3, _⟩ := hp
    have hsrc : src < k := by
      obtain ⟨b, hb, hb'⟩ := hI.assigned u hu
      rw [a1] at hb'
      cases hb'; exact hb
    intro v hv b hb
    have hps := pendSum_upd hw s hu (.run src dst (gDelta G kc (updOf G s u src dst e bv)) none rest) (gIdx kc v b)
      (s' := s') rfl
    rw [hps, hq]
    have hcv := hC v hv b hb
    show s.cache (gIdx kc v b) + _ = _
    have hpend : pendAt (gIdx kc v b) (.run src dst (gDelta G kc (updOf G s u src dst e bv)) none rest) =
        if v = G.tgt e then (if b = src then -G.ew e else 0) + (if b = dst then G.ew e else 0) else 0 := by
      have e1 : ∀ c, c < kc → (gIdx kc (G.tgt e) c = gIdx kc v b) = (v = G.tgt e ∧ b = c) := by
        intro c hc
        rw [gIdx_inj hc (by omega)]
        exact propext ⟨fun h => ⟨h.1.symm, h.2.symm⟩, fun h => ⟨h.1.symm, h.2.symm⟩⟩
      show ([(gIdx kc (G.tgt e) src, -G.ew e), (gIdx kc (G.tgt e) dst, G.ew e)].map _).sum = _
      simp only [List.map_cons, List.map_nil, List.sum_cons, List.sum_nil, e1 src (by omega), e1 dst (by omega)]
      by_cases hvt : v = G.tgt e
      · simp only [hvt, true_and, if_true]; omega
      · simp only [hvt, false_and, if_false]; omega
    rw [hpend]
    have hpe : pendAt (gIdx kc v b) (.run src dst [] (some (e, bv)) rest) = 0 := by simp [pendAt]
    rw [hpe]
    by_cases hvt : v = G.tgt e
    · rw [if_pos hvt]
      obtain ⟨f, hf, hfu, hft⟩ := reverse_exists hw hu hc.inc
      rw [← hvt] at hf
      have hvc : vconn G s' v b = vconn G s v b + ((if s'.view (G.uid f) (G.tgt f) v = some b then G.ew f else 0) -
          (if s.view (G.uid f) (G.tgt f) v = some b then G.ew f else 0)) := by
        unfold vconn
        have hnd : (G.inc v).Nodup := nodup_of_map (hw.inc_nodup v hv)
        have key : ((G.inc v).map (fun f => if s'.view (G.uid f) (G.tgt f) v = some b then G.ew f else 0)) =
            (G.inc v).map (fun g => if g = f then (if s'.view (G.uid f) (G.tgt f) v = some b then G.ew f else 0)
              else (if s.view (G.uid g) (G.tgt g) v = some b then G.ew g else 0)) := by
          apply List.map_congr_left
          intro g hg
          by_cases hgf : g = f
          · rw [if_pos hgf, hgf]
          · rw [if_neg hgf, hc.frame]
            intro h
            exact hgf (uid_inj hw hv hg hf (h.trans hfu.symm))
        rw [key, sum_map_upd (f := fun g => if s.view (G.uid g) (G.tgt g) v = some b then G.ew g else 0) hnd hf]
        · simp
        · intro g hg; simp [hg]
      rw [hvc, ← hcv, hfu, hft, hvt, hc.before, hc.after]
      have hew : G.ew f = G.ew e := by rw [hw.ew v hv f hf, hw.ew u hu e hc.inc, hfu]
      rw [hew]
      simp only [Option.some.injEq]
      have e1 : (dst = b) = (b = dst) := propext eq_comm
      have e2 : (src = b) = (b = src) := propext eq_comm
      simp only [e1, e2]
      split <;> split <;> omega
    · rw [if_neg hvt]
      have hvc : vconn G s' v b = vconn G s v b := by
        unfold vconn
        refine congrArg List.sum (List.map_congr_left (fun f hf => ?_))
        by_cases hfe : G.uid f = G.uid e
        · by_cases hvu : v = u
          · subst hvu
            have := uid_inj hw hv hf hc.inc hfe
            subst this
            rw [hc.other]
          · exact absurd (other_end hw hu hv hc.inc hf hvu hfe).1 hvt
        · rw [hc.frame _ hfe]
      rw [hvc, ← hcv]
      omega

end GSt
end Verif
