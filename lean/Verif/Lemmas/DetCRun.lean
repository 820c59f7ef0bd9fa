import Verif.Lemmas.DetC10
/-!
# Lemmas: executions of a pass that run the iterations of the loops one after the other
-/
namespace Verif
namespace Par
open SMap (wr)
variable {σ π : Type}

/-- at most `k` steps of the iteration `u` -/
def runIt (next : Nat → π → σ → Option (π × σ)) (u : Nat) : Nat → PSt σ π → PSt σ π
  | 0, x => x
  | k + 1, x => match next u (x.pc u) x.s with
    | none => x
    | some (p, s') => runIt next u k ⟨s', wr x.pc u p⟩

/-- the iterations in the order `ord` -/
def runs (next : Nat → π → σ → Option (π × σ)) (k : Nat) : List Nat → PSt σ π → PSt σ π
  | [], x => x
  | u :: l, x => runs next k l (runIt next u k x)

theorem runIt_steps {next : Nat → π → σ → Option (π × σ)} {us : List Nat} {u : Nat} (hu : u ∈ us) (k : Nat) (x : PSt σ π) :
    Relation.ReflTransGen (Step next us) x (runIt next u k x) := by
  induction k generalizing x with
  | zero => exact .refl
  | succ k ih =>
    simp only [runIt]
    split
    · exact .refl
    · next p s' h => exact .head (.mk x u hu p s' h) (ih _)

theorem runs_steps {next : Nat → π → σ → Option (π × σ)} {us : List Nat} (k : Nat) (ord : List Nat) (ho : ∀ u ∈ ord, u ∈ us) (x : PSt σ π) :
    Relation.ReflTransGen (Step next us) x (runs next k ord x) := by
  induction ord generalizing x with
  | nil => exact .refl
  | cons u l ih => exact (runIt_steps (ho u List.mem_cons_self) k x).trans (ih (fun v hv => ho v (List.mem_cons_of_mem _ hv)) _)

theorem runs_for {next : Nat → π → σ → Option (π × σ)} {us : List Nat} {start fin : π} {s : σ} (k : Nat) (ord : List Nat) (ho : ∀ u ∈ ord, u ∈ us)
    (hf : ∀ u ∈ us, (runs next k ord ⟨s, fun _ => start⟩).pc u = fin) : For next us start fin s (runs next k ord ⟨s, fun _ => start⟩).s :=
  ⟨_, runs_steps k ord ho _, hf, rfl⟩

end Par

namespace DetC
open SMap (wr)
variable {α : Type}

/-- `comp` as a function -/
def compB (c : Cfg α) (p : Nat → Nat) (a b : Nat) : Bool := decide (p a < p b ∨ (p a = p b ∧ (c.nw a < c.nw b ∨ (c.nw a = c.nw b ∧ a < b))))

def insB (c : Cfg α) (p : Nat → Nat) (a : Nat) : List Nat → List Nat
  | [] => [a]
  | b :: l => if compB c p a b then a :: b :: l else b :: insB c p a l

/-- a round with the iterations of the third loop in the order `ord`; `false` if it does not end -/
def roundRun (c : Cfg α) (us ord : List Nat) (s : DC) : DC × Bool :=
  let x1 := Par.runs (next1 c) 20 us ⟨s, fun _ => .start⟩
  let x2 := Par.runs (next2 c) 20 us ⟨x1.s, fun _ => .start⟩
  let s2 := if c.swaps then x2.s else x1.s
  let x3 := Par.runs (next3 c) 20 ord ⟨{ s2 with cnt := 0, fix := [], heavy := [] }, fun _ => .start⟩
  let hv := x3.s.heavy.foldr (insB c x3.s.prop) []
  let x4 := Par.runs (next4 c hv) 100 (List.range hv.length) ⟨x3.s, fun _ => .start⟩
  let x5 := Par.runs (next5 c x4.s.fix) 20 (List.range x4.s.fix.length) ⟨x4.s, fun _ => .start⟩
  (x5.s, us.all (fun u => decide (x1.pc u = .fin)) && us.all (fun u => decide (x2.pc u = .fin)) && us.all (fun u => decide (x3.pc u = .fin)) &&
    ord.all (fun u => decide (u ∈ us)) && decide (hv.Pairwise (fun a b => compB c x3.s.prop a b = true)) &&
    (List.range hv.length).all (fun i => decide (x4.pc i = .fin)) && (List.range x4.s.fix.length).all (fun i => decide (x5.pc i = .fin)))

theorem insB_perm (c : Cfg α) (p : Nat → Nat) (a : Nat) (l : List Nat) : (insB c p a l).Perm (a :: l) := by
  induction l with
  | nil => exact .refl _
  | cons b l ih =>
    simp only [insB]
    split
    · exact .refl _
    · exact (ih.cons b).trans (.swap a b l)

theorem foldr_insB_perm (c : Cfg α) (p : Nat → Nat) (l : List Nat) : (l.foldr (insB c p) []).Perm l := by
  induction l with
  | nil => exact .refl _
  | cons a l ih => exact (insB_perm c p a _).trans (ih.cons a)

theorem roundRun_sound {c : Cfg α} {us ord : List Nat} {s : DC} (h : (roundRun c us ord s).2 = true) : Round c us s (roundRun c us ord s).1 := by
  unfold roundRun at h ⊢
  simp only [Bool.and_eq_true, List.all_eq_true, decide_eq_true_eq] at h
  obtain ⟨⟨⟨⟨⟨⟨h1, h2⟩, h3⟩, h0⟩, hp⟩, h4⟩, h5⟩ := h
  refine .mk _ _ _ _ _ _ _ (Par.runs_for 20 us (fun _ h => h) h1) ?_ (Par.runs_for 20 ord h0 h3) (foldr_insB_perm c _ _) ?_
    (Par.runs_for 100 _ (fun _ h => h) h4) (.refl _) (Par.runs_for 20 _ (fun _ h => h) h5)
  · split
    · exact Par.runs_for 20 us (fun _ h => h) h2
    · rfl
  · exact hp.imp fun h => by unfold compB at h; simpa [comp] using h

/-- a pass that executes the rounds in the given orders -/
def passRun (c : Cfg α) : List (List Nat × List Nat) → Nat × DC → (Nat × DC) × Bool
  | [], x => (x, true)
  | (us, ord) :: L, (num, s) =>
    if num ≤ c.limit then ((num, s), true)
    else
      let r := roundRun c us ord s
      let q := passRun c L (num - r.1.cnt, r.1)
      (q.1, r.2 && q.2)

theorem passRun_sound {c : Cfg α} (L : List (List Nat × List Nat)) (x : Nat × DC) (h : (passRun c L x).2 = true) : Rounds c (L.map Prod.fst) x (passRun c L x).1 := by
  induction L generalizing x with
  | nil => exact .nil x
  | cons a L ih =>
    obtain ⟨us, ord⟩ := a
    obtain ⟨num, s⟩ := x
    simp only [passRun] at h ⊢
    by_cases hl : num ≤ c.limit
    · simp only [hl, if_true] at h ⊢; exact .stop us _ num s hl
    · simp only [hl, if_false, Bool.and_eq_true] at h ⊢
      exact .round us _ num s _ _ (by omega) (roundRun_sound h.1) (ih _ h.2)

end DetC
end Verif
