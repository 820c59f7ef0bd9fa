import Verif.Lemmas.Dyn25
import Verif.Lemmas.Dyn19
/-!
# From the end of the coarsening to the uncontraction
-/
namespace Verif
namespace Dyn
open SMap (wr)
open Schedule

variable {s0 : DH} {mx : Int} {s : St} {G : Gh}

/-- the contraction history stored in the hypergraph -/
def DH.history (s : DH) : Forest := ⟨s.n, s.par, s.ver, s.start, s.stop⟩

theorem Inv.par_lt (hI : Inv s0 mx s G) {v : Nat} (h : s.h.par v ≠ v) : v < s.h.n := by
  rw [hI.t.nEq]; exact (hI.p.root v h).1.1

theorem Inv.interval (hI : Inv s0 mx s G) (hf : ∀ v, s.h.par v ≠ v → G.fin v = true) {v : Nat} (h : s.h.par v ≠ v) : s.h.start v < s.h.stop v := by
  obtain ⟨_, _, _, h4, h5, h6⟩ := hI.p.finD v (hf v h)
  rw [h5, h6]; exact (hI.p.tk v h4).1

theorem Inv.ver_le (hI : Inv s0 mx s G) (hf : ∀ v, s.h.par v ≠ v → G.fin v = true) {v : Nat} (h : s.h.par v ≠ v) (h' : s.h.par (s.h.par v) ≠ s.h.par v) :
    s.h.ver v ≤ s.h.ver (s.h.par v) := hI.p.verM v (hI.p.finD v (hf v h)).2.2.1 h'

theorem Inv.ver_V (hI : Inv s0 mx s G) (hf : ∀ v, s.h.par v ≠ v → G.fin v = true) {v : Nat} (h : s.h.par v ≠ v) : s.h.ver v ≤ s.h.V :=
  (hI.t.ina.stk v (hI.p.finD v (hf v h)).2.2.1).1

/-- the static facts -/
theorem Inv.stat (hI : Inv s0 mx s G) (hf : ∀ v, s.h.par v ≠ v → G.fin v = true) {mx' : Nat} {L : List (List (List (Nat × Nat)))} {bi : Nat → Nat}
    (hV : ∀ k B, L[k]? = some B → s.h.history.Valid k mx' B) (hlen : L.length = s.h.V + 1) (hbi : ∀ v b, batchOf L v = some b → bi v = b) :
    Stat s0 s.h.par s.h.ver bi G ∧ SchedOK s.h.par s.h.ver bi L := by
  have hl : ∀ v, s.h.history.Contracted v → s.h.history.ver v < L.length := by
    rintro v ⟨_, h⟩
    have := hI.ver_V hf h
    show s.h.ver v < _
    omega
  have hn : ∀ v, s.h.history.par v ≠ v → v < s.h.history.n := fun v h => hI.par_lt h
  refine ⟨⟨hI.p.root, hI.e.log, ?_, ?_, ?_, ?_, hI.n.once⟩, sched_of_valid hV hl hn hbi⟩
  · intro v e h
    obtain ⟨a1, _, _, a4⟩ := hI.e.logU v e h
    exact ⟨a1, a4⟩
  · intro v e h hin hr
    exact hI.e.comp v e (hI.p.finD v (hf v h)).2.2.1 hin hr
  · intro v e h
    have hv : s.h.par v ≠ v := (hI.e.log e |>.inn v (Or.inl h)).2
    rcases hI.e.oneIn v e h with h1 | ⟨w, h1, h2, h3, h4⟩
    · exact Or.inl h1
    · refine Or.inr ⟨w, h1, h2, h3, ?_⟩
      refine bi_sib hV hl hn hbi (fun x hx => Nat.le_of_lt (hI.interval hf hx.2)) hv (Ne.symm h2) h1 ?_
      rcases h4 with h4 | ⟨h4, h5⟩
      · exact Or.inl h4
      · refine Or.inr ⟨h4, ?_⟩
        obtain ⟨_, _, _, f4, f5, f6⟩ := hI.p.finD v (hf v hv)
        obtain ⟨_, _, _, g4, g5, g6⟩ := hI.p.finD w (hf w (Ne.symm h2))
        show s.h.start w < s.h.stop v
        rw [g5, f6]; exact h5 f4
  · intro v h1 h2
    exact bi_up hV hl hn hbi (fun x a b => hI.ver_le hf a b) v h1 h2

theorem off_length {α : Type} (L : List (List α)) : off L L.length = L.flatten.length := by unfold off; rw [List.take_length]

/-- the state in front of the first uncontraction -/
theorem Inv.binv (hI : Inv s0 mx s G) (hf : ∀ v, s.h.par v ≠ v → G.fin v = true) {L : List (List (List (Nat × Nat)))} {h : DH}
    (hP : Prepared s.h L h) (hS : SchedOK s.h.par s.h.ver h.bi L) :
    BInv s0 s.h.par s.h.ver h.bi G s.h.V L.flatten.length h ⟨G.mg, fun _ => false, G.kids, G.sg, G.ops, G.one, G.two⟩ := by
  have hE := hP.same
  have E : h.n = s.h.n ∧ h.m = s.h.m ∧ h.en = s.h.en ∧ h.wt = s.h.wt ∧ h.een = s.h.een ∧ h.ew = s.h.ew ∧ h.ina = s.h.ina ∧ h.V = s.h.V ∧
      h.removed = s.h.removed ∧ h.size = s.h.size := by
    generalize h.bi = x at hE
    generalize h.pins = y at hE
    subst hE
    exact ⟨rfl, rfl, rfl, rfl, rfl, rfl, rfl, rfl, rfl, rfl⟩
  obtain ⟨e1, e2, e3, e4, e5, e6, e7, e8, e9, e10⟩ := E
  have hbic : ∀ v, s.h.par v ≠ v → h.bi v < L.flatten.length := by
    intro v hv
    obtain ⟨k, i, B, b, a1, a2, a3⟩ := hS.mem v hv
    rw [((hS.batch k i B b a1 a2).mem _ _).1 a3 |>.2.2]
    exact (List.getElem?_eq_some_iff.1 (off_get a1 a2)).1
  refine ⟨⟨by rw [e1, hI.t.nEq], by rw [e2, hI.t.mEq], rfl, e8, hI.t.tree, by rw [e7]; exact hI.t.ina, hI.e.log, ?_, ?_, ?_, fun _ _ h => h, fun _ _ h => h, ?_, ?_, ?_,
    by rw [e9]; exact hI.n.rem, by rw [e9, e6]; exact hI.n.ew, by rw [e9, e5]; exact hI.n.een⟩, ?_, ?_⟩
  · intro e he
    rw [e10]
    refine (hI.e.pins e he).perm ?_ (hP.perm e)
    rw [hP.valid e]; rfl
  · intro e he
    rw [e10]
    exact hP.sorted e
  · intro e he
    have := hI.e.other e he
    rw [e10, hP.valid e]
    refine ⟨?_, this.2⟩
    unfold DH.edgePins
    rw [this.1, this.2]
  · intro v hv
    refine ⟨?_, rfl, ?_⟩
    · rw [bool_false_iff]; intro h; exact hI.t.tree.par_ne h hv
    · intro hl
      rw [e3, Bool.eq_iff_iff, hI.en_iff hf v hl]; simp [hv]
  · intro u
    rw [e4, e3]; exact hI.p.wtS u
  · intro e
    rw [e5, hI.n.enabled]
    constructor
    · rintro ⟨h1, h2⟩; exact ⟨h1, fun k _ => h2 k⟩
    · rintro ⟨h1, h2⟩
      refine ⟨h1, fun k => ?_⟩
      rw [bool_false_iff]; intro hk
      rw [h2 k (hI.n.remV k e hk)] at hk; cases hk
  · intro v hv _
    obtain ⟨f1, f2, f3, _⟩ := hI.p.finD v (hf v hv)
    exact ⟨f3, rfl, by rw [e3]; exact f1, fun _ => rfl, fun _ => rfl⟩
  · intro v hv hlt
    have := hbic v hv
    omega

end Dyn
end Verif
