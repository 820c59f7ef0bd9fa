import Verif.Lemmas.DFlow6
/-! # Deterministic flow refinement: the refinement -/
namespace Verif
namespace DFlow
open DetLP (Mv moveAll moveAll_other moveAll_mem Fit Good)
open Flow (Env)
open CSt Rollback PHG

variable {σ : Type} {C : ConInfo σ} {c : Cfg} {m mx : Nat}

/-- The states at the beginning of the rounds of a refinement that starts in `x0`; the number of previous rounds. -/
inductive RoundStart (C : ConInfo σ) (c : Cfg) (x0 : DSt σ) : Nat → DSt σ → Prop
  | first : RoundStart C c x0 0 x0
  | next {n : Nat} {x y : DSt σ} {r : List Choice} : RoundStart C c x0 n x → roundExec C c { x with delta := 0 } r = some y →
      RoundStart C c x0 (n + 1) { y with total := y.total + y.delta, h := resetRound c y.h y.q }

/-- state at the beginning of a round -/
structure Fresh (C : ConInfo σ) (c : Cfg) (L : C.Lawful m c.fc.k mx) (x : DSt σ) : Prop where
  good : Good L c.fc.H x.s
  inv : RInv c x.h x.q
  next : x.h.next = fun _ => false
  done : x.h.done = fun _ _ => false
  mem : ∀ i j, i < j → (j ∈ x.h.pairs i ↔ j < c.fc.k ∧ eligible c x.h x.q i j = true)

theorem Fresh.of_reset {L : C.Lawful m c.fc.k mx} {s : CSt σ} (hG : Good L c.fc.H s) (h : Sch) (q : QG) (d t : Int) : Fresh C c L ⟨s, q, resetImpl c h q, d, t⟩ := by
  obtain ⟨r1, r2, r3, r4, r5, r6⟩ := resetImpl_spec (c := c) h q
  exact ⟨hG, r1, r3, r4, r6⟩

theorem fresh_start {L : C.Lawful m c.fc.k mx} {s : CSt σ} (hG : Good L c.fc.H s) (q0 : QG) (h0 : Sch) (order : List (Nat × Nat × Nat)) :
    Fresh C c L (start C c s q0 h0 order) := Fresh.of_reset hG _ _ _ _

variable {L : C.Lawful m c.fc.k mx}

theorem Fresh.reset {x : DSt σ} (h : Fresh C c L x) (d : Int) : Fresh C c L { x with delta := d } := ⟨h.good, h.inv, h.next, h.done, h.mem⟩

theorem Fresh.round (E : Env c.fc m mx) (hF : FlowOK c) (hew : ∀ e ∈ c.fc.H.edges, 0 ≤ c.fc.H.ew e) {x y : DSt σ} {r : List Choice} (h : Fresh C c L x)
    (he : roundExec C c { x with delta := 0 } r = some y) :
    Fresh C c L { y with total := y.total + y.delta, h := resetRound c y.h y.q } ∧ RoundRes C c L { x with delta := 0 } r y := by
  have R := round_spec (x := { x with delta := 0 }) E hF hew r h.good h.inv he
  exact ⟨Fresh.of_reset R.good _ _ _ _, R⟩

theorem Fresh.reached (E : Env c.fc m mx) (hF : FlowOK c) (hew : ∀ e ∈ c.fc.H.edges, 0 ≤ c.fc.H.ew e) {x0 x : DSt σ} {n : Nat} (h : Fresh C c L x0)
    (hr : RoundStart C c x0 n x) : Fresh C c L x := by
  induction hr with
  | first => exact h
  | next _ he ih => exact (ih.round E hF hew he).1

theorem Fresh.round_eq (E : Env c.fc m mx) (hF : FlowOK c) (hew : ∀ e ∈ c.fc.H.edges, 0 ≤ c.fc.H.ew e) {x0 x : DSt σ} {n : Nat} (h : Fresh C c L x0)
    (hr : RoundStart C c x0 n x) : x.h.round = x0.h.round + n := by
  induction hr with
  | first => rfl
  | next h1 he ih =>
    have R := ((h.reached E hF hew h1).round E hF hew he).2
    rw [show ∀ (a : Sch) (b : QG), (resetRound c a b).round = a.round + 1 from fun a b => (resetImpl_spec (c := c) _ _).2.2.2.2.1, R.round]
    show _ = _
    rw [ih]; omega

theorem Fresh.schedule (E : Env c.fc m mx) (hF : FlowOK c) (hew : ∀ e ∈ c.fc.H.edges, 0 ≤ c.fc.H.ew e) {x y : DSt σ} {r : List Choice} (h : Fresh C c L x)
    (he : roundExec C c { x with delta := 0 } r = some y) :
    (r.flatMap Choice.order).Perm ((allPairs c.fc.k).filter (fun p => eligible c x.h x.q p.1 p.2)) := by
  have R := (h.round E hF hew he).2
  rw [List.perm_ext_iff_of_nodup R.nodup ((nodup_allPairs _).filter _)]
  intro p
  rw [R.mem, List.mem_filter, mem_allPairs]
  constructor
  · rintro ⟨h1, h2, _⟩
    obtain ⟨h3, h4⟩ := (h.mem _ _ h1).1 h2
    exact ⟨⟨h1, h3⟩, h4⟩
  · rintro ⟨⟨h1, h2⟩, h3⟩
    refine ⟨h1, (h.mem _ _ h1).2 ⟨h2, h3⟩, ?_⟩
    show x.h.done p.1 p.2 = false
    rw [h.done]

theorem no_active {h : Sch} {q : QG} (hI : RInv c h q) (ha : ∀ b, h.active b = false) : (nextMatching c h q).2 = [] := by
  apply List.eq_nil_iff_forall_not_mem.2
  intro p hp
  obtain ⟨_, _, h3, _⟩ := (nextMatching_spec hI).2.task p hp
  have := hI.elig _ _ h3
  unfold eligible at this
  rw [ha, ha] at this
  simp at this

/-- the objective and the reported improvement -/
theorem refine_obj (E : Env c.fc m mx) (hF : FlowOK c) (hew : ∀ e ∈ c.fc.H.edges, 0 ≤ c.fc.H.ew e) (rs : List (List Choice)) :
    ∀ {x y : DSt σ} {d : Option Int}, Fresh C c L x → refine C c x d rs = some y →
    Good L c.fc.H y.s ∧ c.fc.H.objective y.s.part c.fc.o = c.fc.H.objective x.s.part c.fc.o - (y.total - x.total) := by
  induction rs with
  | nil =>
    intro x y d h he
    rw [refine] at he
    split_ifs at he
    injection he with he; subst he
    exact ⟨h.good, by simp⟩
  | cons r rs ih =>
    intro x y d h he
    rw [refine] at he
    split_ifs at he
    cases hr : roundExec C c { x with delta := 0 } r with
    | none => rw [hr] at he; cases he
    | some z =>
      rw [hr] at he
      simp only [] at he
      obtain ⟨f, R⟩ := h.round E hF hew hr
      obtain ⟨g, o⟩ := ih f he
      refine ⟨g, ?_⟩
      have ho := R.obj
      have ht := R.total
      simp only [] at o ho ht
      rw [o, ho, ht]; omega

/-- a property of consecutive matchings holds for the refinement -/
theorem refine_rel (E : Env c.fc m mx) (hF : FlowOK c) (hew : ∀ e ∈ c.fc.H.edges, 0 ≤ c.fc.H.ew e) (Rel : CSt σ → CSt σ → Prop) (hrefl : ∀ s, Rel s s)
    (htrans : ∀ s t u, Rel s t → Rel t u → Rel s u)
    (hstep : ∀ (x y : DSt σ) ms ch, Good L c.fc.H x.s → IsMatching c.fc.k ms → MatchRes C c L x ms ch y → Rel x.s y.s) (rs : List (List Choice)) :
    ∀ {x y : DSt σ} {d : Option Int}, Fresh C c L x → refine C c x d rs = some y → Rel x.s y.s := by
  induction rs with
  | nil =>
    intro x y d h he
    rw [refine] at he
    split_ifs at he
    injection he with he; subst he
    exact hrefl _
  | cons r rs ih =>
    intro x y d h he
    rw [refine] at he
    split_ifs at he
    cases hr : roundExec C c { x with delta := 0 } r with
    | none => rw [hr] at he; cases he
    | some z =>
      rw [hr] at he
      simp only [] at he
      obtain ⟨f, R⟩ := h.round E hF hew hr
      have := ih f he
      refine htrans _ z.s _ ?_ this
      exact round_rel (y := z) (x := { x with delta := 0 }) E hF hew (fun x y => Rel x.s y.s) (fun x x' h1 _ _ => by rw [h1]; exact hrefl _)
        (fun x y z => htrans _ _ _) hstep r h.good h.inv hr

theorem refine_rounds (E : Env c.fc m mx) (hF : FlowOK c) (hM : Improving c) (hew : ∀ e ∈ c.fc.H.edges, 0 ≤ c.fc.H.ew e) (rs : List (List Choice)) :
    ∀ {x y : DSt σ} {d : Option Int}, Fresh C c L x → refine C c x d rs = some y → (rs.length : Int) ≤ y.total - x.total + 1 := by
  induction rs with
  | nil =>
    intro x y d h he
    rw [refine] at he
    split_ifs at he
    injection he with he; subst he
    simp
  | cons r rs ih =>
    intro x y d h he
    rw [refine] at he
    split_ifs at he
    cases hr : roundExec C c { x with delta := 0 } r with
    | none => rw [hr] at he; cases he
    | some z =>
      rw [hr] at he
      simp only [] at he
      obtain ⟨f, R⟩ := h.round E hF hew hr
      have ht := R.total
      obtain ⟨i1, i2⟩ := round_rel (x := { x with delta := 0 }) E hF hew
        (fun x y => x.delta ≤ y.delta ∧ ∀ b, y.h.next b = true → x.h.next b = true ∨ x.delta < y.delta)
        (fun x x' _ h2 h3 => ⟨by rw [h2], fun b hb => Or.inl (by rw [← h3]; exact hb)⟩)
        (fun x y z h1 h2 => ⟨le_trans h1.1 h2.1, fun b hb => by
          rcases h2.2 b hb with h | h
          · rcases h1.2 b h with h | h
            · exact Or.inl h
            · exact Or.inr (lt_of_lt_of_le h h2.1)
          · exact Or.inr (lt_of_le_of_lt h1.1 h)⟩)
        (fun x y ms ch hG hms hR => hR.improving hM hG hms) r h.good h.inv hr
      simp only [] at i1 i2 ht
      rcases Int.lt_or_le 0 z.delta with hd | hd
      · have := ih f he
        simp only [] at this
        rw [List.length_cons]; push_cast
        omega
      · have hnil : rs = [] := by
          have hact : ∀ b, (resetRound c z.h z.q).active b = false := by
            intro b
            rw [resetRound, (resetImpl_spec (c := c) _ _).2.1]
            rw [Bool.eq_false_iff]
            intro hb
            rcases i2 b hb with hb | hb
            · rw [h.next] at hb; cases hb
            · omega
          cases rs with
          | nil => rfl
          | cons r' rs' =>
            exfalso
            rw [refine] at he
            rw [if_pos (Or.inr (no_active f.inv hact))] at he
            cases he
        subst hnil
        rw [refine] at he
        split_ifs at he
        injection he with he; subst he
        simp only [List.length_cons, List.length_nil]
        omega

end DFlow
end Verif
