import Verif.Lemmas.Dyn30
import Verif.Lemmas.DynW
import Verif.Props.C28
/-!
# C27: n-level uncontraction undoes the contractions

`Steps mx ⟨s0, ..⟩ s` is the coarsening phase (see C41). At its end a schedule `L` of the contractions is
computed (C28), the hypergraph is prepared (`Prepared`), and the batches are uncontracted from the last one
to the first one (`UncSteps`); the mementos of a batch are processed by any number of threads in any
interleaving (`UStep`), and the removed nets are restored between the versions. The specifications
`ContractedBy`, `SameHypergraph`, `mementoPar` and `netSum` (Spec/NLevel.lean) and `Forest.Valid`
(Spec/Schedule.lean) do not refer to the bookkeeping of the algorithm.
-/
namespace Verif
namespace Dyn
open SMap (wr)
open Schedule

/-- Coarsening of `s0` ended in `s`, `L` is a valid schedule of the contractions, and `h` is the hypergraph
prepared for it. -/
structure Ready (s0 : DH) (mx : Int) (ref : Nat → Nat → Bool) (s : St) (mxb : Nat) (L : List (List (List (Nat × Nat)))) (h : DH) : Prop where
  clean : Clean s0
  reach : Steps mx ⟨s0, fun _ => .idle, ref⟩ s
  idle : ∀ i, s.thr i = .idle
  acyclic : Acyclic s.h.n s.h.par
  versions : L.length = s.h.V + 1
  valid : ∀ k B, L[k]? = some B → s.h.history.Valid k mxb B
  prepared : Prepared s.h L h

variable {s0 : DH} {mx : Int} {ref : Nat → Nat → Bool} {s : St} {mxb : Nat} {L : List (List (List (Nat × Nat)))} {h0 h : DH}

theorem Ready.start (hR : Ready s0 mx ref s mxb L h0) : ∃ G, Stat s0 s.h.par s.h.ver h0.bi G ∧ SchedOK s.h.par s.h.ver h0.bi L ∧
    ∃ L1 B U, L = L1 ++ [B] ∧ UncInv s0 s.h.par s.h.ver h0.bi G L L1 B h0 U := by
  obtain ⟨G, hI⟩ := Inv.reach hR.clean hR.reach
  have hf : ∀ v, s.h.par v ≠ v → G.fin v = true := fun v hv => hI.all_fin hR.idle hR.acyclic hv
  obtain ⟨hS, hT⟩ := hI.stat hf hR.valid hR.versions hR.prepared.bi
  refine ⟨G, hS, hT, ?_⟩
  have hB := hI.binv hf hR.prepared hT
  rcases List.eq_nil_or_concat L with hL | ⟨L1, B, hL⟩
  · have := hR.versions; rw [hL] at this; cases this
  · rw [List.concat_eq_append] at hL
    refine ⟨L1, B, ⟨G.mg, fun _ => false, G.kids, G.sg, G.ops, G.one, G.two⟩, hL, ⟨[], [], by rw [List.append_nil]; exact hL⟩, ?_⟩
    have h1 : L1.length = s.h.V := by
      have := hR.versions
      rw [hL, List.length_append, List.length_singleton] at this; omega
    have h2 : off L L1.length + B.length = L.flatten.length := by
      rw [hL, take_flatten_length]; simp
    rw [h1] at h2 ⊢
    rw [h2]
    exact hB

theorem Ready.unc (hR : Ready s0 mx ref s mxb L h0) {Lr : List (List (List (Nat × Nat)))} (h' : UncSteps (L, h0) (Lr, h)) :
    ∃ G, Stat s0 s.h.par s.h.ver h0.bi G ∧ SchedOK s.h.par s.h.ver h0.bi L ∧
      ∃ L1 B U, Lr = L1 ++ [B] ∧ UncInv s0 s.h.par s.h.ver h0.bi G L L1 B h U := by
  obtain ⟨G, hS, hT, h1⟩ := hR.start
  exact ⟨G, hS, hT, UncInv.steps hR.clean hS hT h1 h'⟩

/-- **C27**: at any time between two batches, the hypergraph is the original one contracted along the
contractions that are not undone yet: nodes, weights, pins, incident nets and degrees. -/
theorem C27_contracted (hR : Ready s0 mx ref s mxb L h0) {Lr : List (List (List (Nat × Nat)))} (h' : UncSteps (L, h0) (Lr, h)) :
    ContractedBy s0 h (mementoPar Lr) := by
  obtain ⟨G, hS, hT, L1, B, U, rfl, hI⟩ := hR.unc h'
  exact hI.contracted hR.clean hS hT

/-- **C27**: when all batches are undone, the hypergraph is the original one: nodes, weights, nets, net
weights, pins, incident nets and degrees. -/
theorem C27_inverse (hR : Ready s0 mx ref s mxb L h0) (h' : UncSteps (L, h0) ([[]], h)) : SameHypergraph s0 h := by
  obtain ⟨G, hS, hT, L1, B, U, he, hI⟩ := hR.unc h'
  obtain ⟨rfl, rfl⟩ := snoc_inj (show [] ++ [[]] = L1 ++ [B] from he)
  exact hI.final hR.clean hS hT

/-- **C27**: at any time between two batches, every objective function that is a sum over the nets, in which
nets with all pins in one block do not count, has the same value on the current hypergraph and on the
original one, for all partitions `ρ` of the original nodes in which contracted nodes belong to the block of
the node that contains them. -/
theorem C27_objective (hR : Ready s0 mx ref s mxb L h0) {Lr : List (List (List (Nat × Nat)))} (h' : UncSteps (L, h0) (Lr, h))
    (ρ : Nat → Nat) (hρ : ∀ v, ρ (mementoPar Lr v) = ρ v) (f : Finset Nat → Int) (hf : ∀ S : Finset Nat, S.card ≤ 1 → f S = 0) :
    netSum h ρ f = netSum s0 ρ f := by
  obtain ⟨G, hS, hT, L1, B, U, rfl, hI⟩ := hR.unc h'
  refine hI.objective hR.clean hS hT ?_ ρ hρ f hf
  have hp := past_reach hR.clean hR.reach
  have hE := hR.prepared.same
  have := past_unc h' (par := s.h.par) (ver := s.h.ver) (s0 := s0) (by
    show PastOK s0 s.h.par s.h.ver (L.length - 1) h0.removed h0.een
    rw [hE, hR.versions]; exact hp)
  simpa using this

/-- **C27**: the uncoarsening never gets stuck: as long as there is a batch, it can be uncontracted, and
removed nets can be restored. -/
theorem C27_progress (hR : Ready s0 mx ref s mxb L h0) {Lr : List (List (List (Nat × Nat)))} (h' : UncSteps (L, h0) (Lr, h)) :
    Lr = [[]] ∨ ∃ y, UncStep (Lr, h) y := by
  obtain ⟨G, hS, hT, L1, B, U, rfl, hI⟩ := hR.unc h'
  rcases hI.next hR.clean hS hT with ⟨rfl, rfl⟩ | h
  · exact Or.inl rfl
  · exact Or.inr h

/-- **C27**: restoring the removed nets never fails, in whatever order the nodes are visited. -/
theorem C27_restore_nets (hR : Ready s0 mx ref s mxb L h0) {L' : List (List (List (Nat × Nat)))} {B : List (List (Nat × Nat))}
    (h' : UncSteps (L, h0) (L' ++ [B] ++ [[]], h)) {ord : List Nat} (ho : ord.Perm ((List.range h.n).filter h.en)) :
    ∃ R rest h1, h.removed = R :: rest ∧ { h with removed := rest }.restoreNetsStep R ord = some h1 := by
  obtain ⟨G, hS, hT, L1, B', U, he, hI⟩ := hR.unc h'
  obtain ⟨rfl, rfl⟩ := snoc_inj he
  obtain ⟨R, rest, h1, h2, h3, _⟩ := hI.nets hS hT ho
  exact ⟨R, rest, h2, h1, h3⟩

/-- **C27**: while a batch is uncontracted by several threads, no thread gets stuck or fails to find a pin, in
whatever order the threads are scheduled; there is no infinite execution; and every execution can be
completed. -/
theorem C27_batch_no_failure (hR : Ready s0 mx ref s mxb L h0) {L' : List (List (List (Nat × Nat)))} {B : List (List (Nat × Nat))} {b : List (Nat × Nat)}
    (h' : UncSteps (L, h0) (L' ++ [B ++ [b]], h)) {x : USt} (hx : USteps b ⟨h, fun _ => .wait, fun _ => false⟩ x) :
    (∀ j, x.tk j ≠ .lost) ∧ (∀ j < b.length, x.tk j ≠ .done → ∃ y, UStep b x y ∧ y.tk j ≠ x.tk j) ∧
    (∀ f : Nat → USt, f 0 = x → ¬ ∀ i, UStep b (f i) (f (i + 1))) ∧
    ∃ y, USteps b x y ∧ ∀ j < b.length, y.tk j = .done := by
  obtain ⟨G, hS, hT, L1, B', U, he, hI⟩ := hR.unc h'
  obtain ⟨rfl, rfl⟩ := snoc_inj he
  obtain ⟨hb, hver, hB⟩ := hI.batchInfo hT
  obtain ⟨U', hU⟩ := (UInv.start hb hB).steps hR.clean hS hb hver hx
  refine ⟨?_, fun j hj hd => hU.progress hR.clean hS hb hver hj hd, fun f h0 hf => hU.no_infinite hR.clean hS hb hver f h0 hf, hU.complete hR.clean hS hb hver⟩
  intro j hj
  obtain ⟨u, v, hm⟩ := hU.entry (j := j) (by rw [hj]; exact fun h => Tk.noConfusion h)
  exact hU.at hm hj

/-- number of steps that are left -/
theorem UncStep.decr {x y : List (List (List (Nat × Nat))) × DH} (h : UncStep x y) : y.1.flatten.length + y.1.length + 1 = x.1.flatten.length + x.1.length := by
  cases h with
  | batch L B b s s' hu => simp; omega
  | nets L B s s' R rest ord hr ho hs => simp; omega

/-- **C27**: the uncoarsening ends: there is no infinite sequence of batches. -/
theorem C27_ends (f : Nat → List (List (List (Nat × Nat))) × DH) : ¬ ∀ i, UncStep (f i) (f (i + 1)) := by
  intro hf
  have key : ∀ i, (f i).1.flatten.length + (f i).1.length + i = (f 0).1.flatten.length + (f 0).1.length := by
    intro i
    induction i with
    | zero => rfl
    | succ i ih => have := (hf i).decr; omega
  have := key ((f 0).1.flatten.length + (f 0).1.length + 1)
  omega

/-- the contraction tree at the end of the coarsening -/
def DH.ctree (s : DH) : Uncontract.CTree := ⟨s.n, s.par, s.ver, s.start, s.stop⟩

/-- **C27**: the hypotheses of C28 hold at the end of the coarsening. -/
theorem C27_tree (hc : Clean s0) (hr : Steps mx ⟨s0, fun _ => .idle, ref⟩ s) (hi : ∀ i, s.thr i = .idle) (ha : Acyclic s.h.n s.h.par)
    (hV : s.h.V + 1 ≤ kInvVer) (hx : s.h.cidx < kInvalid) : Uncontract.TreeOK s.h.ctree (s.h.V + 1) := by
  obtain ⟨G, hI⟩ := Inv.reach hc hr
  have hf : ∀ v, s.h.par v ≠ v → G.fin v = true := fun v hv => hI.all_fin hi ha hv
  refine ⟨⟨?_, ha, ?_, ?_, ?_⟩, fun v _ hp => hI.p.verR v hp, hV, ?_⟩
  · intro v hv
    show s.h.par v < s.h.n
    by_cases hp : s.h.par v = v
    · rw [hp]; exact hv
    · rw [hI.t.nEq]; exact (hI.p.root v hp).2.1
  · rintro v ⟨_, hp⟩
    have := hI.ver_V hf hp
    show s.h.ver v < _
    omega
  · rintro v ⟨_, hp⟩ ⟨_, hp'⟩
    exact hI.ver_le hf hp hp'
  · rintro v ⟨_, hp⟩
    exact Nat.le_of_lt (hI.interval hf hp)
  · intro v _ hp
    obtain ⟨_, _, _, _, h5, _⟩ := hI.p.finD v (hf v hp)
    have := hI.p.gst v
    show s.h.start v ≠ _
    omega

/-- **C27**: coarsening, construction of the batches and uncontraction together: whatever the schedules of the
threads are, the construction of the batches succeeds, and once the batches are undone, the hypergraph is the
original one. -/
theorem C27_round_trip (hc : Clean s0) (hr : Steps mx ⟨s0, fun _ => .idle, ref⟩ s) (hi : ∀ i, s.thr i = .idle) (ha : Acyclic s.h.n s.h.par)
    (hV : s.h.V + 1 ≤ kInvVer) (hx : s.h.cidx < kInvalid) (hn : 0 < s.h.n) (hmx : 0 < mxb) {T : Nat} {f : Uncontract.FinSched} (hf : f.OK s.h.n)
    {res : Option (List (List (List (Nat × Nat))))} (hH : Uncontract.Hierarchy s.h.ctree (s.h.V + 1) mxb T f res) :
    ∃ L, res = some L ∧ ∀ h0, Prepared s.h L h0 → Ready s0 mx ref s mxb L h0 ∧
      (∃ h, UncSteps (L, h0) ([[]], h)) ∧ ∀ h, UncSteps (L, h0) ([[]], h) → SameHypergraph s0 h := by
  obtain ⟨L, h1, h2, h3⟩ := Uncontract.C28_hierarchy_valid (C27_tree hc hr hi ha hV hx) hn hmx hf hH
  refine ⟨L, h1, fun h0 hP => ?_⟩
  have hR : Ready s0 mx ref s mxb L h0 := ⟨hc, hr, hi, ha, h2, h3, hP⟩
  refine ⟨hR, ?_, fun h h' => C27_inverse hR h'⟩
  have key : ∀ (d : Nat) (x : List (List (List (Nat × Nat))) × DH), x.1.flatten.length + x.1.length = d → UncSteps (L, h0) x → ∃ h, UncSteps (L, h0) ([[]], h) := by
    intro d
    induction d using Nat.strong_induction_on with
    | _ d ih =>
      rintro ⟨Lr, h⟩ hd hs
      rcases C27_progress hR hs with rfl | ⟨y, hy⟩
      · exact ⟨h, hs⟩
      · have := hy.decr
        exact ih _ (by omega) y rfl (.tail _ _ _ hs hy)
  exact key _ (L, h0) rfl (.refl _)

/-- **C27**: the preparation (storing the batch indices and sorting the pins) is possible for every list of
batches. -/
theorem C27_prepared (s : DH) (L : List (List (List (Nat × Nat)))) (hs : ∀ e, s.size e ≤ (s.pins e).length) : ∃ h, Prepared s L h := by
  have hlen : ∀ e, (s.edgePins e).length = s.size e := by
    intro e
    unfold DH.edgePins
    rw [List.length_take]; exact Nat.min_eq_left (hs e)
  refine ⟨{ s with
    bi := fun v => (batchOf L v).getD 0
    pins := fun e => s.edgePins e ++ ((s.pins e).drop (s.size e)).mergeSort (fun a b => decide ((batchOf L b).getD 0 ≤ (batchOf L a).getD 0)) }, ?_, rfl, ?_, ?_, ?_⟩
  · intro v b hb
    show (batchOf L v).getD 0 = b
    rw [hb]; rfl
  · intro e
    exact List.take_left' (hlen e)
  · intro e
    show ((s.edgePins e ++ _).drop (s.size e)).Perm _
    rw [List.drop_left' (hlen e)]
    exact List.mergeSort_perm _ _
  · intro e
    show ((s.edgePins e ++ _).drop (s.size e)).Pairwise _
    rw [List.drop_left' (hlen e)]
    have := List.pairwise_mergeSort (le := fun a b => decide ((batchOf L b).getD 0 ≤ (batchOf L a).getD 0))
      (by intro a b c; simp only [decide_eq_true_eq]; omega) (by intro a b; simp only [Bool.or_eq_true, decide_eq_true_eq]; omega) ((s.pins e).drop (s.size e))
    exact this.imp (fun h => by simpa using h)

/-! ### A concrete case -/

/-- the schedule for the run of `DynW`: node 1 was contracted onto node 0 in version 0 -/
def wL : List (List (List (Nat × Nat))) := [[[(0, 1)]], []]

/-- the prepared hypergraph -/
def wPrep : DH := { wEnd with bi := fun _ => 0 }

theorem w_ready : Ready wH 10 (fun _ _ => false) w14 5 wL wPrep := by
  have hfields : w14.h.V = 1 ∧ w14.h.par = w13.h.par ∧ w14.h.ver = w13.h.ver ∧ w14.h.n = 3 := by
    have := w_rem
    unfold DH.removeNetsStep at this
    split at this
    · cases this
    injection this with this
    show wEnd.V = 1 ∧ wEnd.par = w13.h.par ∧ wEnd.ver = w13.h.ver ∧ wEnd.n = 3
    rw [← this]
    exact ⟨rfl, rfl, rfl, rfl⟩
  obtain ⟨f1, f2, f3, f4⟩ := hfields
  have hcon : ∀ v, w14.h.history.Contracted v ↔ v = 1 := by
    intro v
    show v < w14.h.n ∧ w14.h.par v ≠ v ↔ v = 1
    rw [f2, f4]
    constructor
    · rintro ⟨h1, h2⟩
      rcases lt3 h1 with rfl | rfl | rfl
      · exact absurd rfl h2
      · rfl
      · exact absurd rfl h2
    · rintro rfl; exact ⟨by decide, by decide⟩
  have hpar : w14.h.history.par 1 = 0 := by show w14.h.par 1 = 0; rw [f2]; rfl
  have hver : w14.h.history.ver 1 = 0 := by show w14.h.ver 1 = 0; rw [f3]; rfl
  refine ⟨wH_clean, w_run', w13_idle, w14_acyclic, by rw [f1]; rfl, ?_, ?_⟩
  · intro k B hk
    match k, hk with
    | 0, hk =>
      have hB : B = [[(0, 1)]] := by injection hk with hk; exact hk.symm
      subst hB
      have one : ∀ (i : Nat) (b : List (Nat × Nat)) (u v : Nat), [[(0, 1)]][i]? = some b → (u, v) ∈ b → i = 0 ∧ u = 0 ∧ v = 1 := by
        intro i b u v h1 h2
        match i, h1 with
        | 0, h1 =>
          injection h1 with h1
          subst h1
          simpa using h2
        | i + 1, h1 => simp at h1
      refine ⟨by decide, ?_, by decide, ?_, ?_, ?_, ?_⟩
      · intro u v
        constructor
        · intro h
          have : u = 0 ∧ v = 1 := by simpa using h
          obtain ⟨rfl, rfl⟩ := this
          exact ⟨(hcon 1).2 rfl, hpar, hver⟩
        · rintro ⟨h1, h2, _⟩
          rw [hcon] at h1; subst h1
          rw [hpar] at h2; subst h2
          decide
      · intro i j bi bj u v w h1 h2 h3 h4
        have := one _ _ _ _ h1 h3
        have := one _ _ _ _ h2 h4
        omega
      · intro i j bi bj u v w h1 h2 h3 h4 _
        have := one _ _ _ _ h1 h3
        have := one _ _ _ _ h2 h4
        omega
      · intro i j bi bj u v w h1 h2 h3 h4 _
        have := one _ _ _ _ h1 h3
        have := one _ _ _ _ h2 h4
        omega
      · intro b hb
        have : b = [(0, 1)] := by simpa using hb
        subst this
        refine ⟨[], [(0, 1)], rfl, by decide, ⟨0, by decide⟩, ?_⟩
        intro a c h1 h2 h3
        cases a with
        | nil => exact absurd rfl h2
        | cons x a =>
          cases c with
          | nil => exact absurd rfl h3
          | cons y c =>
            have := congrArg List.length h1
            simp at this
    | 1, hk =>
      have hB : B = [] := by injection hk with hk; exact hk.symm
      subst hB
      refine ⟨by decide, ?_, by simp, by intro i j bi bj u v w h; simp at h, by intro i j bi bj u v w h; simp at h, by intro i j bi bj u v w h; simp at h, by simp⟩
      intro u v
      constructor
      · intro h; simp at h
      · rintro ⟨h1, _, h3⟩
        rw [hcon] at h1; subst h1
        rw [hver] at h3; cases h3
    | k + 2, hk => simp [wL] at hk
  · refine ⟨?_, rfl, fun _ => rfl, fun _ => List.Perm.refl _, ?_⟩
    · intro v b hb
      have : b = 0 := by
        have h1 := hb
        unfold batchOf at h1
        obtain ⟨hlt, _⟩ := List.findIdx?_eq_some_iff_getElem.1 h1
        have : wL.flatten.length = 1 := rfl
        omega
      exact this.symm
    · intro e
      refine List.Pairwise.imp (R := fun _ _ => True) (fun _ => Nat.le_refl 0) ?_
      exact List.pairwise_of_forall (fun _ _ => trivial)

/-- the uncoarsening of that run can be executed, and it leads back to the hypergraph: net 0 and net 2 have
two and three pins again -/
example : ∃ h, UncSteps (wL, wPrep) ([[]], h) ∧ h.een 0 = true ∧ h.en 1 = true ∧ h.wt 0 = 1 ∧ h.ew 1 = 2 ∧ (h.edgePins 2).length = 3 := by
  have hb : ∃ y, UncStep (wL, wPrep) y := (C27_progress w_ready (.refl _)).resolve_left (by decide)
  obtain ⟨⟨Lr, h1⟩, hy⟩ := hb
  have key : ∀ (d : Nat) (x : List (List (List (Nat × Nat))) × DH), x.1.flatten.length + x.1.length = d → UncSteps (wL, wPrep) x → ∃ h, UncSteps (wL, wPrep) ([[]], h) := by
    intro d
    induction d using Nat.strong_induction_on with
    | _ d ih =>
      rintro ⟨Lr, h⟩ hd hs
      rcases C27_progress w_ready hs with rfl | ⟨y, hy⟩
      · exact ⟨h, hs⟩
      · have := hy.decr
        exact ih _ (by omega) y rfl (.tail _ _ _ hs hy)
  obtain ⟨h, hs⟩ := key _ _ rfl (.refl _)
  have hS := C27_inverse w_ready hs
  exact ⟨h, hs, hS.nets 0 (by decide), hS.nodes 1 (by decide), hS.weight 0 (by decide) rfl, hS.netWeight 1 (by decide),
    by rw [(hS.pins 2 (by decide) rfl).length_eq]; rfl⟩

/-- the whole round trip for that run, with four threads and batches of two contractions -/
example : ∃ (f : Uncontract.FinSched) (L : List (List (List (Nat × Nat)))) (h0 h : DH), f.OK 3 ∧ Uncontract.Hierarchy w14.h.ctree 2 2 4 f (some L) ∧
    Prepared w14.h L h0 ∧ UncSteps (L, h0) ([[]], h) ∧ SameHypergraph wH h := by
  have e1 : w14.h.V = 1 := by decide +kernel
  have e2 : w14.h.n = 3 := by decide +kernel
  have e3 : w14.h.cidx = 1 := by decide +kernel
  have hf : (Uncontract.FinSched.mk (List.range 3) (List.range 3) (List.range 3) (List.range 3) (fun _ => 0)).OK w14.h.n := by
    rw [e2]; exact ⟨List.Perm.refl _, List.Perm.refl _, List.Perm.refl _, List.Perm.refl _⟩
  have hT := C27_tree wH_clean w_run' w13_idle w14_acyclic (by rw [e1]; decide) (by rw [e3]; decide)
  obtain ⟨L, hL⟩ := Uncontract.C28_returns (mx := 2) (T := 4) hT (by show 0 < w14.h.n; rw [e2]; decide) (by decide) (by decide) hf
  obtain ⟨L', h1, h2⟩ := C27_round_trip wH_clean w_run' w13_idle w14_acyclic (by rw [e1]; decide) (by rw [e3]; decide) (by rw [e2]; decide) (by decide) hf hL
  injection h1 with h1
  subst h1
  obtain ⟨h0, hP⟩ := C27_prepared w14.h L (by
    intro e
    by_cases he : wH.used e
    · obtain ⟨G, hI⟩ := Inv.reach wH_clean w_run'
      exact (hI.e.pins e he).le
    · obtain ⟨G, hI⟩ := Inv.reach wH_clean w_run'
      obtain ⟨g1, g2⟩ := hI.e.other e he
      rw [g1, g2]
      by_cases h1 : e = 2
      · exact absurd (wH_used.2 (by omega)) he
      · by_cases h0 : e = 0
        · exact absurd (wH_used.2 (by omega)) he
        · by_cases h01 : e = 1
          · exact absurd (wH_used.2 (by omega)) he
          · simp [wH, h1, h0, h01])
  obtain ⟨_, ⟨h, h3⟩, h4⟩ := h2 h0 hP
  exact ⟨_, L, h0, h, by rw [← e2]; exact hf, by rw [e1] at hL; exact hL, hP, h3, h4 h h3⟩

/-- in front of the first batch the contraction of node 1 is still to be undone -/
example : mementoPar wL 1 = 0 ∧ mementoPar wL 2 = 2 ∧ wPrep.en 1 = false := ⟨rfl, rfl, w_result.2.2.2.2.2.2.1⟩

end Dyn
end Verif
