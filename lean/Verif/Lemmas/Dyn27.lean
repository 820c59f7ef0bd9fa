import Verif.Lemmas.Dyn26
/-!
# Uncontraction of all batches
-/
namespace Verif
namespace Dyn
open SMap (wr)

variable {s0 : DH} {par ver bi : Nat → Nat} {G : Gh} {L : List (List (List (Nat × Nat)))}

/-- the invariant between the batches -/
structure UncInv (s0 : DH) (par ver bi : Nat → Nat) (G : Gh) (L L1 : List (List (List (Nat × Nat)))) (B : List (List (Nat × Nat))) (h : DH) (U : UG) : Prop where
  pre : ∃ B2 L2, L = L1 ++ (B ++ B2) :: L2
  inv : BInv s0 par ver bi G L1.length (off L L1.length + B.length) h U

theorem take_flatten_length {α : Type} (L1 L2 : List (List α)) : off (L1 ++ L2) L1.length = L1.flatten.length := by
  unfold off
  rw [List.take_left' rfl]

theorem getElem?_mid {α : Type} (L1 : List α) (x : α) (L2 : List α) : (L1 ++ x :: L2)[L1.length]? = some x := by
  rw [List.getElem?_append_right (Nat.le_refl _), Nat.sub_self]; rfl

theorem snoc_inj {α : Type} {L L' : List α} {x x' : α} (h : L ++ [x] = L' ++ [x']) : L = L' ∧ x = x' := by
  have := List.append_inj' h rfl
  exact ⟨this.1, by injection this.2⟩

theorem UncInv.batchInfo (hT : SchedOK par ver bi L) {L1 : List (List (List (Nat × Nat)))} {B : List (List (Nat × Nat))} {b : List (Nat × Nat)} {h : DH} {U : UG}
    (hI : UncInv s0 par ver bi G L L1 (B ++ [b]) h U) : BatchOK par bi (off L L1.length + B.length) b ∧
      (∀ v, par v ≠ v → bi v = off L L1.length + B.length → ver v = L1.length) ∧ BInv s0 par ver bi G L1.length (off L L1.length + B.length + 1) h U := by
  obtain ⟨B2, L2, hL⟩ := hI.pre
  have hk : L[L1.length]? = some (B ++ [b] ++ B2) := by rw [hL]; exact getElem?_mid _ _ _
  have hi : (B ++ [b] ++ B2)[B.length]? = some b := by
    rw [List.append_assoc]; exact getElem?_mid B b B2
  have hb := hT.batch _ _ _ _ hk hi
  refine ⟨hb, ?_, ?_⟩
  · intro v h1 h2
    exact hT.ver _ _ _ _ _ _ hk hi ((hb.mem (par v) v).2 ⟨h1, rfl, h2⟩)
  · have := hI.inv
    rw [List.length_append] at this
    exact this

theorem UncInv.batch (hc : Clean s0) (hS : Stat s0 par ver bi G) (hT : SchedOK par ver bi L) {L1 : List (List (List (Nat × Nat)))} {B : List (List (Nat × Nat))}
    {b : List (Nat × Nat)} {h h' : DH} {U : UG} (hI : UncInv s0 par ver bi G L L1 (B ++ [b]) h U) (hu : Uncontract b h h') :
    ∃ U', UncInv s0 par ver bi G L L1 B h' U' := by
  obtain ⟨hb, hver, hB⟩ := hI.batchInfo hT
  obtain ⟨tk, flag, hs, hd⟩ := hu
  obtain ⟨U', hU⟩ := (UInv.start hb hB).steps hc hS hb hver hs
  obtain ⟨B2, L2, hL⟩ := hI.pre
  exact ⟨U', ⟨⟨b :: B2, L2, by rw [hL, List.append_assoc]; rfl⟩, hU.finish hb hd⟩⟩

theorem UncInv.netsInfo (hT : SchedOK par ver bi L) {L1 : List (List (List (Nat × Nat)))} {B : List (List (Nat × Nat))} {h : DH} {U : UG}
    (hI : UncInv s0 par ver bi G L (L1 ++ [B]) [] h U) : BInv s0 par ver bi G (L1.length + 1) (off L L1.length + B.length) h U ∧
      (∀ v, U.mg v = true → ver v ≤ L1.length) ∧ ∃ B2 L2, L = L1 ++ (B ++ B2) :: L2 := by
  obtain ⟨B2, L2, hL⟩ := hI.pre
  have hL' : L = L1 ++ (B ++ []) :: (([] : List (List (Nat × Nat))) ++ B2) :: L2 := by rw [hL]; simp
  have hk : L[L1.length]? = some B := by rw [hL', List.append_nil]; exact getElem?_mid _ _ _
  have ho := off_succ hk
  have hB := hI.inv
  rw [List.length_append, List.length_singleton, List.length_nil, Nat.add_zero, ho] at hB
  refine ⟨hB, ?_, ⟨[], _, hL'⟩⟩
  intro v hv
  obtain ⟨h1, h2⟩ := (hB.mg_iff v).1 hv
  obtain ⟨k, i, A, b, a1, a2, a3⟩ := hT.mem v h1
  rw [hT.ver _ _ _ _ _ _ a1 a2 a3]
  rw [((hT.batch _ _ _ _ a1 a2).mem _ _).1 a3 |>.2.2] at h2
  by_contra hlt
  have := off_mono L (show L1.length + 1 ≤ k by omega)
  omega

theorem UncInv.nets (hS : Stat s0 par ver bi G) (hT : SchedOK par ver bi L) {L1 : List (List (List (Nat × Nat)))} {B : List (List (Nat × Nat))}
    {h : DH} {U : UG} (hI : UncInv s0 par ver bi G L (L1 ++ [B]) [] h U) {ord : List Nat} (ho : ord.Perm ((List.range h.n).filter h.en)) :
    ∃ R rest, h.removed = R :: rest ∧ ∃ h', { h with removed := rest }.restoreNetsStep R ord = some h' ∧ ∃ U', UncInv s0 par ver bi G L L1 B h' U' := by
  obtain ⟨hB, hver, hpre⟩ := hI.netsInfo hT
  obtain ⟨R, rest, h1, h', h2, U', _, h3⟩ := hB.nets_back hS hver ho
  exact ⟨R, rest, h1, h', h2, U', hpre, h3⟩

theorem UncInv.step (hc : Clean s0) (hS : Stat s0 par ver bi G) (hT : SchedOK par ver bi L) {x y : List (List (List (Nat × Nat))) × DH}
    (hI : ∃ L1 B U, x.1 = L1 ++ [B] ∧ UncInv s0 par ver bi G L L1 B x.2 U) (h : UncStep x y) :
    ∃ L1 B U, y.1 = L1 ++ [B] ∧ UncInv s0 par ver bi G L L1 B y.2 U := by
  obtain ⟨L1, B, U, h1, h2⟩ := hI
  cases h with
  | batch L' B' b s s' hu =>
    obtain ⟨rfl, rfl⟩ := snoc_inj h1
    obtain ⟨U', h3⟩ := h2.batch hc hS hT hu
    exact ⟨_, _, U', rfl, h3⟩
  | nets L' B' s s' R rest ord hr ho hs =>
    obtain ⟨rfl, rfl⟩ := snoc_inj h1
    obtain ⟨R', rest', g1, h', g2, U', g3⟩ := h2.nets hS hT ho
    rw [hr] at g1
    injection g1 with g4 g5
    subst g4; subst g5
    rw [hs] at g2
    injection g2 with g2
    subst g2
    exact ⟨_, _, U', rfl, g3⟩

theorem UncInv.steps (hc : Clean s0) (hS : Stat s0 par ver bi G) (hT : SchedOK par ver bi L) {x y : List (List (List (Nat × Nat))) × DH}
    (hI : ∃ L1 B U, x.1 = L1 ++ [B] ∧ UncInv s0 par ver bi G L L1 B x.2 U) (h : UncSteps x y) :
    ∃ L1 B U, y.1 = L1 ++ [B] ∧ UncInv s0 par ver bi G L L1 B y.2 U := by
  induction h with
  | refl => exact hI
  | tail y z h h' ih => exact UncInv.step hc hS hT ih h'

/-- the remaining forest is given by the remaining mementos -/
theorem UncInv.memento (hT : SchedOK par ver bi L) {L1 : List (List (List (Nat × Nat)))} {B : List (List (Nat × Nat))} {h : DH} {U : UG}
    (hI : UncInv s0 par ver bi G L L1 B h U) : mementoPar (L1 ++ [B]) = restPar par U.mg := by
  obtain ⟨B2, L2, hL⟩ := hI.pre
  have hc : (L1 ++ [B]).flatten.length = off L L1.length + B.length := by
    rw [hL, take_flatten_length]; simp
  have hpre : L.flatten = (L1 ++ [B]).flatten ++ (B2 ++ L2.flatten) := by rw [hL]; simp
  have hmem : ∀ u v, (u, v) ∈ (L1 ++ [B]).flatten.flatten → par v = u ∧ U.mg v = true := by
    intro u v hm
    rw [List.mem_flatten] at hm
    obtain ⟨b, hb, hm⟩ := hm
    obtain ⟨p, hp⟩ := List.getElem?_of_mem hb
    have hlt := (List.getElem?_eq_some_iff.1 hp).1
    have hp' : L.flatten[p]? = some b := by rw [hpre, List.getElem?_append_left hlt]; exact hp
    obtain ⟨k, A, i, a1, a2, a3⟩ := off_get_inv hp'
    have := ((hT.batch _ _ _ _ a1 a2).mem u v).1 hm
    refine ⟨this.2.1, (hI.inv.mg_iff v).2 ⟨this.1, ?_⟩⟩
    rw [this.2.2, ← a3, ← hc]; exact hlt
  funext v
  unfold mementoPar
  cases hf : (L1 ++ [B]).flatten.flatten.find? (fun p => p.2 == v) with
  | some p =>
    have hp := List.find?_some hf
    have hpv : p.2 = v := by simpa using hp
    have hm := List.mem_of_find?_eq_some hf
    obtain ⟨h1, h2⟩ := hmem p.1 p.2 hm
    rw [hpv] at h1 h2
    show p.1 = _
    rw [restPar_mg h2, h1]
  | none =>
    show v = _
    by_contra hne
    have hm := (hI.inv.mg_rest v).2 (Ne.symm hne)
    obtain ⟨h1, h2⟩ := (hI.inv.mg_iff v).1 hm
    obtain ⟨k, i, A, b, a1, a2, a3⟩ := hT.mem v h1
    rw [((hT.batch _ _ _ _ a1 a2).mem _ _).1 a3 |>.2.2] at h2
    have hg := off_get a1 a2
    rw [hpre, List.getElem?_append_left (by omega)] at hg
    have := List.find?_eq_none.1 hf (par v, v) (List.mem_flatten.2 ⟨b, List.mem_of_getElem? hg, a3⟩)
    simp at this

theorem UncInv.contracted (hc : Clean s0) (hS : Stat s0 par ver bi G) (hT : SchedOK par ver bi L) {L1 : List (List (List (Nat × Nat)))} {B : List (List (Nat × Nat))}
    {h : DH} {U : UG} (hI : UncInv s0 par ver bi G L L1 B h U) : ContractedBy s0 h (mementoPar (L1 ++ [B])) := by
  rw [hI.memento hT]; exact hI.inv.contracted hc hS

theorem iterate_id (i v : Nat) : (fun v : Nat => v)^[i] v = v := by
  induction i with
  | zero => rfl
  | succ i ih => rw [Function.iterate_succ_apply]; exact ih

theorem inCluster_id {v u : Nat} : InCluster (fun v => v) v u ↔ v = u := by
  constructor
  · rintro ⟨_, i, hi⟩; rw [← hi, iterate_id]
  · rintro rfl; exact ⟨rfl, 0, rfl⟩

theorem ContractedBy.id_pins {s : DH} (h : ContractedBy s0 s (fun v => v)) {e : Nat} (hm : e < s0.m) (he : s.een e = true) (u : Nat) :
    u ∈ s.edgePins e ↔ u ∈ s0.edgePins e := by
  rw [h.pins e hm he]
  constructor
  · rintro ⟨v, h1, h2⟩; rw [← inCluster_id.1 h2]; exact h1
  · intro h1; exact ⟨u, h1, inCluster_id.2 rfl⟩

/-- all batches are undone -/
theorem UncInv.final (hc : Clean s0) (hS : Stat s0 par ver bi G) (hT : SchedOK par ver bi L) {h : DH} {U : UG}
    (hI : UncInv s0 par ver bi G L [] [] h U) : SameHypergraph s0 h := by
  classical
  have hC := hI.contracted hc hS hT
  have hid : mementoPar ([] ++ [([] : List (List (Nat × Nat)))]) = fun v => v := by funext v; rfl
  rw [hid] at hC
  have h0 : ContractedBy s0 s0 (fun v => v) := by
    obtain ⟨G', hI'⟩ := Inv.reach (mx := 0) (ref := fun _ _ => false) hc (Steps.refl _)
    have := hI'.contracted hc (fun v hv => absurd (hc.root v) hv)
    have hp : s0.par = fun v => v := funext hc.root
    rw [← hp]; exact this
  have hB := hI.inv
  rw [show off L ([] : List (List (List (Nat × Nat)))).length = 0 from off_zero L] at hB
  have hen : ∀ v < s0.n, h.en v = s0.en v := by
    intro v hv
    rw [Bool.eq_iff_iff, hC.nodes v hv]; simp
  have heen : ∀ e, h.een e = s0.een e := by
    intro e
    rw [Bool.eq_iff_iff, hB.core.een e]
    simp
  have hrem : h.removed = [] := by
    have := hB.core.rem
    cases hr : h.removed with
    | nil => rfl
    | cons R rest => rw [hr] at this; exact this.elim
  have hew := hB.core.ew
  rw [hrem] at hew
  have hew : h.ew = s0.ew := hew
  have hperm : ∀ e < s0.m, s0.een e = true → (h.edgePins e).Perm (s0.edgePins e) := by
    intro e hm he
    rw [List.perm_ext_iff_of_nodup (hC.pinsNodup e hm (by rw [heen]; exact he)) (h0.pinsNodup e hm he)]
    exact hC.id_pins hm (by rw [heen]; exact he)
  have hinc : ∀ v < s0.n, s0.en v = true → (∃ l l0, h.ina.incidentEdges v = some l ∧ s0.ina.incidentEdges v = some l0 ∧ l.Perm l0) ∧ h.ina.dg v = s0.ina.dg v := by
    intro v hv he
    obtain ⟨l, a1, a2, a3, a4⟩ := hC.nets v hv (by rw [hen v hv]; exact he)
    obtain ⟨l0, c1, c2, c3, c4⟩ := h0.nets v hv he
    have hp : l.Perm l0 := by
      rw [List.perm_ext_iff_of_nodup a2 c2]
      intro e
      rw [a3, c3, heen]
      constructor
      · rintro ⟨h1, h2, h3⟩; exact ⟨h1, h2, (hperm e h1 h2).mem_iff.1 h3⟩
      · rintro ⟨h1, h2, h3⟩; exact ⟨h1, h2, (hperm e h1 h2).mem_iff.2 h3⟩
    exact ⟨⟨l, l0, a1, c1, hp⟩, by rw [a4, c4, hp.length_eq]⟩
  refine ⟨hen, ?_, fun e _ => heen e, fun e _ => by rw [hew], hperm, fun v hv he => (hinc v hv he).1, fun v hv he => (hinc v hv he).2⟩
  intro v hv he
  rw [hC.weight v hv (by rw [hen v hv]; exact he)]
  have : (Finset.range s0.n).filter (fun w => s0.en w = true ∧ InCluster (fun v => v) w v) = {v} := by
    ext w
    rw [Finset.mem_filter, Finset.mem_range, Finset.mem_singleton, inCluster_id]
    constructor
    · rintro ⟨_, _, h⟩; exact h
    · rintro rfl; exact ⟨hv, he, rfl⟩
  rw [this, Finset.sum_singleton]

end Dyn
end Verif
