import Verif.Lemmas.Clustering7
import Mathlib.Data.Fintype.EquivFin
import Mathlib.Data.Set.Finite.Basic
/-! No deadlock -/
namespace Verif
namespace ClSt

variable {lim : Int} {nw : Nat → Int} {nodes : List Nat} {T : Nat}

/-- a node in progress is owned by its own process or grabbed by another one -/
def HInv (s : ClSt) : Prop :=
  ∀ y, s.st y = .inProgress → (own (s.pc y) = true ∧ s.pc y ≠ .done) ∨ ∃ x, inJ .grab (s.pc x) = true ∧ s.tgt x = y

theorem HInv.pcStep {s s' : ClSt} (H : s.HInv) {u : Nat} {q : CPc} (hst : ∀ y, s'.st y = .inProgress → s.st y = .inProgress)
    (hp : s'.pc = Function.update s.pc u q) (ht : s'.tgt = s.tgt)
    (ho : own (s.pc u) = true → own q = true ∧ (q ≠ .done ∨ s'.st u ≠ .inProgress))
    (hg : inJ .grab (s.pc u) = true → inJ .grab q = true ∨ s'.st (s.tgt u) ≠ .inProgress) : s'.HInv := by
  have hpu : s'.pc u = q := by rw [hp]; exact Function.update_self ..
  have hpo : ∀ x, x ≠ u → s'.pc x = s.pc x := fun x hx => by rw [hp]; exact Function.update_of_ne hx ..
  intro y hy
  rcases H y (hst y hy) with ⟨h1, h2⟩ | ⟨x, h1, h2⟩
  · left
    by_cases h : y = u
    · subst h
      rw [hpu]
      obtain ⟨h3, h4 | h4⟩ := ho h1
      · exact ⟨h3, h4⟩
      · exact (h4 hy).elim
    · rw [hpo y h]; exact ⟨h1, h2⟩
  · by_cases h : x = u
    · subst h
      rcases hg h1 with h3 | h3
      · right; exact ⟨x, by rw [hpu]; exact h3, by rw [ht]; exact h2⟩
      · rw [h2] at h3; exact (h3 hy).elim
    · right; exact ⟨x, by rw [hpo x h]; exact h1, by rw [ht]; exact h2⟩

set_option maxHeartbeats 1000000 in
theorem HInv.run {s s' : ClSt} (H : s.HInv) (I : s.CInv) {u : Nat} {ok : Bool}
    (h : s.run lim nw u ok = some s') : s'.HInv := by
  unfold ClSt.run at h
  cases hpc : s.pc u with
  | idle | done | skip => simp [hpc] at h
  | cas =>
    simp only [hpc] at h
    split at h
    · rename_i hst
      cases h
      intro y hy
      by_cases hyu : y = u
      · subst hyu; left; simp [own]
      · simp only [Function.update_of_ne hyu] at hy
        rcases H y hy with ⟨h1, h2⟩ | ⟨x, h1, h2⟩
        · left; simp only [Function.update_of_ne hyu]; exact ⟨h1, h2⟩
        · right
          refine ⟨x, ?_, h2⟩
          have : x ≠ u := by rintro rfl; rw [hpc] at h1; simp [inJ] at h1
          simp only [Function.update_of_ne this]; exact h1
    · cases h
      refine H.pcStep (u := u) (q := .skip) (fun _ h => h) rfl rfl ?_ ?_ <;> simp [hpc, own, inJ]
  | casV =>
    simp only [hpc] at h
    split at h
    · rename_i hst
      cases h
      intro y hy
      by_cases hyv : y = s.tgt u
      · subst hyv; right; exact ⟨u, by simp [inJ], rfl⟩
      · simp only [Function.update_of_ne hyv] at hy
        rcases H y hy with ⟨h1, h2⟩ | ⟨x, h1, h2⟩
        · left
          by_cases hyu : y = u
          · subst hyu; simp [own]
          · simp only [Function.update_of_ne hyu]; exact ⟨h1, h2⟩
        · right
          refine ⟨x, ?_, h2⟩
          have : x ≠ u := by rintro rfl; rw [hpc] at h1; simp [inJ] at h1
          simp only [Function.update_of_ne this]; exact h1
    · cases h
      refine H.pcStep (u := u) (q := .walk u u) (fun _ h => h) rfl rfl ?_ ?_ <;> simp [hpc, own, inJ]
  | jload k rep =>
    simp only [hpc, Option.some.injEq] at h
    subst h
    split
    · refine H.pcStep (u := u) (fun _ h => h) rfl rfl ?_ ?_ <;> simp [hpc, own, inJ]; exact Or.inl
    · refine H.pcStep (u := u) (fun _ h => h) rfl rfl ?_ ?_ <;> cases k <;> simp [hpc, own, inJ, afterJoin]
  | jwrite k rep =>
    simp only [hpc, Option.some.injEq] at h
    subst h
    refine H.pcStep (u := u) (fun _ h => h) rfl rfl ?_ ?_ <;> simp [hpc, own, inJ]; exact Or.inl
  | jadd k rep =>
    simp only [hpc, Option.some.injEq] at h
    subst h
    refine H.pcStep (u := u) (fun _ h => h) rfl rfl ?_ ?_ <;> cases k <;> simp [hpc, own, inJ, afterJoin]
  | jstore k =>
    have hst : ∀ w y, Function.update s.st w .matched y = .inProgress → s.st y = .inProgress := by
      intro w y hy
      by_cases h : y = w
      · subst h; simp at hy
      · rwa [Function.update_of_ne h] at hy
    cases k with
    | rep => exact (I.jst u hpc).elim
    | grab =>
      simp only [hpc, Option.some.injEq] at h
      subst h
      refine H.pcStep (u := u) (hst _) rfl rfl ?_ ?_ <;> simp [hpc, own, inJ]
    | cyc =>
      simp only [hpc, Option.some.injEq] at h
      subst h
      refine H.pcStep (u := u) (hst _) rfl rfl ?_ ?_ <;> simp [hpc, own, inJ]
  | fin2 =>
    simp only [hpc, Option.some.injEq] at h
    subst h
    refine H.pcStep (u := u) ?_ rfl rfl ?_ ?_
    · intro y hy
      by_cases h : y = u
      · subst h; simp at hy
      · simpa only [Function.update_of_ne h] using hy
    · simp [hpc, own]
    · simp [hpc, inJ]
  | weight | store | loadV | walk | check2 | loop | self | read | fin1 =>
    simp only [hpc] at h
    first
    | (split at h <;> (cases h; refine H.pcStep (u := u) (fun _ h => h) rfl rfl ?_ ?_ <;> simp [hpc, own, inJ]))
    | (cases h; refine H.pcStep (u := u) (fun _ h => h) rfl rfl ?_ ?_ <;> split <;> simp [hpc, own, inJ])
    | (cases h; refine H.pcStep (u := u) (fun _ h => h) rfl rfl ?_ ?_ <;> simp [hpc, own, inJ])

theorem Reach.hinv {s : ClSt} (h : Reach lim nw nodes T s) : s.HInv := by
  induction h with
  | init => intro y hy; simp [ClSt.init] at hy
  | @start s u v hr hu hv _ hpc _ ih =>
    intro y hy
    have hp : ∀ x, x ≠ u → (s.begin u v).pc x = s.pc x := fun x hx => Function.update_of_ne hx ..
    have ht : ∀ x, x ≠ u → (s.begin u v).tgt x = s.tgt x := fun x hx => Function.update_of_ne hx ..
    rcases ih y hy with ⟨h1, h2⟩ | ⟨x, h1, h2⟩
    · have : y ≠ u := by rintro rfl; rw [hpc] at h1; simp [own] at h1
      left; rw [hp y this]; exact ⟨h1, h2⟩
    · have : x ≠ u := by rintro rfl; rw [hpc] at h1; simp [inJ] at h1
      right; exact ⟨x, by rw [hp x this]; exact h1, by rw [ht x this]; exact h2⟩
  | run hr hrun ih => exact ih.run hr.inv.1 hrun

/-- a finite number of steps of running processes (no new process is started) -/
inductive Steps (lim : Int) (nw : Nat → Int) : ClSt → ClSt → Prop
  | refl {s : ClSt} : Steps lim nw s s
  | step {s s1 s2 : ClSt} {u : Nat} {ok : Bool} : s.run lim nw u ok = some s1 → Steps lim nw s1 s2 → Steps lim nw s s2

theorem Steps.trans {s1 s2 s3 : ClSt} (h : Steps lim nw s1 s2) (h' : Steps lim nw s2 s3) : Steps lim nw s1 s3 := by
  induction h with
  | refl => exact h'
  | step hr _ ih => exact .step hr (ih h')

theorem Steps.reach {s s' : ClSt} (h : Steps lim nw s s') (hr : Reach lim nw nodes T s) : Reach lim nw nodes T s' := by
  induction h with
  | refl => exact hr
  | step hrun _ ih => exact ih (.run hr hrun)

/-- a finite number of steps of the process `u` alone -/
inductive Solo (lim : Int) (nw : Nat → Int) (u : Nat) : ClSt → ClSt → Prop
  | refl {s : ClSt} : Solo lim nw u s s
  | step {s s1 s2 : ClSt} : s.run lim nw u true = some s1 → Solo lim nw u s1 s2 → Solo lim nw u s s2

theorem Solo.trans {u : Nat} {s1 s2 s3 : ClSt} (h : Solo lim nw u s1 s2) (h' : Solo lim nw u s2 s3) : Solo lim nw u s1 s3 := by
  induction h with
  | refl => exact h'
  | step hr _ ih => exact .step hr (ih h')

theorem Solo.steps {u : Nat} {s s' : ClSt} (h : Solo lim nw u s s') : Steps lim nw s s' := by
  induction h with
  | refl => exact .refl
  | step hrun _ ih => exact .step hrun ih

theorem Solo.reach {u : Nat} {s s' : ClSt} (h : Solo lim nw u s s') (hr : Reach lim nw nodes T s) : Reach lim nw nodes T s' :=
  h.steps.reach hr

/-- rank of a process that will finish without waiting -/
def rank : CPc → Nat
  | .jload .cyc _ => 20 | .jwrite .cyc _ => 19 | .jadd .cyc _ => 18 | .jstore .cyc => 17
  | .loop => 16 | .self => 15 | .read => 14
  | .jload _ _ => 13 | .jwrite _ _ => 12 | .jadd _ _ => 11 | .jstore _ => 10
  | .fin1 => 9 | .fin2 => 8
  | _ => 0

def free (s : ClSt) (u : Nat) : Prop :=
  match s.pc u with
  | .jload _ _ | .jwrite _ _ | .jadd _ _ | .jstore _ | .self | .read | .fin1 | .fin2 => True
  | .loop => s.st (s.tgt u) ≠ .inProgress
  | _ => False

theorem free_rank {s : ClSt} {u : Nat} (h : s.free u) : 0 < rank (s.pc u) := by
  unfold free at h
  cases hpc : s.pc u with
  | idle | weight | cas | store | loadV | casV | walk | check2 | done | skip => simp only [hpc] at h
  | loop | self | read | fin1 | fin2 => simp [rank]
  | jload k _ | jwrite k _ | jadd k _ | jstore k => cases k <;> simp [rank]

theorem free_drive : ∀ (n : Nat) {s : ClSt} {u : Nat}, Reach lim nw nodes T s → rank (s.pc u) ≤ n → s.free u →
    ∃ s', Solo lim nw u s s' ∧ active (s'.pc u) = false ∧ ∀ x, x ≠ u → s'.pc x = s.pc x := by
  intro n
  induction n with
  | zero =>
    intro s u _ hn hf
    have := free_rank hf
    omega
  | succ n ih =>
    intro s u hreach hn hf
    have I := hreach.inv.1
    have cont : ∀ {s1 : ClSt}, s.run lim nw u true = some s1 → rank (s1.pc u) ≤ n → s1.free u →
        ∃ s', Solo lim nw u s s' ∧ active (s'.pc u) = false ∧ ∀ x, x ≠ u → s'.pc x = s.pc x := by
      intro s1 hrun hn1 hf1
      obtain ⟨s', h1, h2, h3⟩ := ih (.run hreach hrun) hn1 hf1
      exact ⟨s', .step hrun h1, h2, fun x hx => by rw [h3 x hx, (run_pc hrun).1 x hx]⟩
    unfold free at hf
    cases hpc : s.pc u with
    | idle | weight | cas | store | loadV | casV | walk | check2 | done | skip => simp only [hpc] at hf
    | loop =>
      simp only [hpc] at hf
      rw [hpc] at hn
      refine cont (s1 := s.goto u .self) (by unfold ClSt.run; simp [hpc, hf]) ?_ ?_
      · simp [goto, rank] at hn ⊢; omega
      · simp [free, goto]
    | self =>
      rw [hpc] at hn
      by_cases hst : s.st u = .inProgress
      · refine cont (s1 := s.goto u .read) (by unfold ClSt.run; simp [hpc, hst]) ?_ ?_
        · simp [goto, rank] at hn ⊢; omega
        · simp [free, goto]
      · refine cont (s1 := s.goto u .fin1) (by unfold ClSt.run; simp [hpc, hst]) ?_ ?_
        · simp [goto, rank] at hn ⊢; omega
        · simp [free, goto]
    | read =>
      rw [hpc] at hn
      refine cont (s1 := s.goto u (.jload .rep (s.cid (s.tgt u)))) (by unfold ClSt.run; simp [hpc]) ?_ ?_
      · simp [goto, rank] at hn ⊢; omega
      · simp [free, goto]
    | jload k rep =>
      rw [hpc] at hn
      by_cases hc : nw u + s.cw rep ≤ lim
      · refine cont (s1 := s.goto u (.jwrite k rep)) (by unfold ClSt.run; simp [hpc, hc]) ?_ ?_
        · cases k <;> simp [goto, rank] at hn ⊢ <;> omega
        · simp [free, goto]
      · refine cont (s1 := s.goto u (afterJoin k)) (by unfold ClSt.run; simp [hpc, hc]) ?_ ?_
        · cases k <;> simp [goto, rank, afterJoin] at hn ⊢ <;> omega
        · cases k <;> simp [free, goto, afterJoin]
    | jwrite k rep =>
      rw [hpc] at hn
      refine cont (s1 := { s with cid := Function.update s.cid u rep, pc := Function.update s.pc u (.jadd k rep) }) (by unfold ClSt.run; simp only [hpc]) ?_ ?_
      · cases k <;> simp [rank] at hn ⊢ <;> omega
      · simp [free]
    | jadd k rep =>
      rw [hpc] at hn
      refine cont (s1 := { s with cw := Function.update s.cw rep (s.cw rep + nw u), contracted := s.contracted + 1, cnt := Function.update s.cnt u (s.cnt u + 1), pc := Function.update s.pc u (afterJoin k) }) (by unfold ClSt.run; simp only [hpc]) ?_ ?_
      · cases k <;> simp [rank, afterJoin] at hn ⊢ <;> omega
      · cases k <;> simp [free, afterJoin]
    | jstore k =>
      rw [hpc] at hn
      cases k with
      | rep => exact (I.jst u hpc).elim
      | grab =>
        refine cont (s1 := { s with st := Function.update s.st (s.tgt u) .matched, pc := Function.update s.pc u .fin1 }) (by unfold ClSt.run; simp only [hpc]) ?_ ?_
        · simp [rank] at hn ⊢; omega
        · simp [free]
      | cyc =>
        refine cont (s1 := { s with st := Function.update s.st (s.tgt u) .matched, pc := Function.update s.pc u .loop, res := Function.update s.res u true }) (by unfold ClSt.run; simp only [hpc]) ?_ ?_
        · simp [rank] at hn ⊢; omega
        · simp [free]
    | fin1 =>
      rw [hpc] at hn
      refine cont (s1 := { s with partner := Function.update s.partner u u, pc := Function.update s.pc u .fin2 }) (by unfold ClSt.run; simp only [hpc]) ?_ ?_
      · simp [rank] at hn ⊢; omega
      · simp [free]
    | fin2 =>
      refine ⟨{ s with st := Function.update s.st u .matched, pc := Function.update s.pc u .done }, ?_, ?_, ?_⟩
      · exact .step (by unfold ClSt.run; simp only [hpc]) .refl
      · simp [active]
      · intro x hx; simp [Function.update_of_ne hx]

/-- the walk of `u` along the partners, started at `c`, stops -/
inductive Ends (s : ClSt) (u : Nat) : Nat → Prop
  | stop {c : Nat} : s.partner c = u ∨ s.partner c = c → Ends s u c
  | next {c : Nat} : Ends s u (s.partner c) → Ends s u c

theorem ends_drive {s : ClSt} {u c : Nat} (h : s.Ends u c) : ∀ {s1 : ClSt} {m : Nat}, s1.partner = s.partner →
    s1.pc u = .walk c m → ∃ c' m', Solo lim nw u s1 (s1.goto u (.check2 c' m')) ∧
      (s.partner c' = u ∨ s.partner c' = c') := by
  induction h with
  | @stop c hc =>
    intro s1 m hp hpc
    refine ⟨c, m, .step ?_ .refl, hc⟩
    unfold ClSt.run
    simp only [hpc, hp]
    rw [if_neg]
    rintro ⟨h1, h2⟩
    rcases hc with h | h
    · exact h1 h
    · exact h2 h
  | @next c _ ih =>
    intro s1 m hp hpc
    by_cases hc : s.partner c = u ∨ s.partner c = c
    · refine ⟨c, m, .step ?_ .refl, hc⟩
      unfold ClSt.run
      simp only [hpc, hp]
      rw [if_neg]
      rintro ⟨h1, h2⟩
      rcases hc with h | h
      · exact h1 h
      · exact h2 h
    · push_neg at hc
      obtain ⟨c', m', h1, h2⟩ := ih (s1 := s1.goto u (.walk (s.partner c) (min m (s.partner c)))) (m := min m (s.partner c))
        hp (by simp [goto])
      refine ⟨c', m', .step (s1 := s1.goto u (.walk (s.partner c) (min m (s.partner c)))) ?_ ?_, h2⟩
      · unfold ClSt.run
        simp only [hpc, hp]
        rw [if_pos hc]
      · have : (s1.goto u (.walk (s.partner c) (min m (s.partner c)))).goto u (.check2 c' m') = s1.goto u (.check2 c' m') := by
          simp [goto]
        rwa [this] at h1

/-- following targets from a node either leaves the set `A` or runs into a cycle inside `A` -/
theorem leave_or_cycle (f : Nat → Nat) {A : Nat → Prop} (hA : ∀ x, A x → x ∈ nodes) (c : Nat) :
    (∃ k, ¬ A (f^[k] c)) ∨ ∃ z, (∃ n, 0 < n ∧ f^[n] z = z) ∧ (∀ i, A (f^[i] z)) ∧ ∀ i, z ≤ f^[i] z := by
  by_cases h : ∃ k, ¬ A (f^[k] c)
  · exact .inl h
  right
  push_neg at h
  -- pigeonhole
  obtain ⟨i, j, hij, he⟩ : ∃ i j, i < j ∧ f^[i] c = f^[j] c := by
    by_contra hcon
    push_neg at hcon
    have hinj : Function.Injective fun k : Nat => (⟨f^[k] c, hA _ (h k)⟩ : {x // x ∈ nodes}) := by
      intro a b hab
      simp only [Subtype.mk.injEq] at hab
      rcases Nat.lt_trichotomy a b with h1 | h1 | h1
      · exact (hcon a b h1 hab).elim
      · exact h1
      · exact (hcon b a h1 hab.symm).elim
    have : Finite {x // x ∈ nodes} := by
      have := nodes.finite_toSet
      exact this
    exact not_injective_infinite_finite _ hinj
  set y := f^[i] c with hy
  have hper : f^[j - i] y = y := by
    rw [hy, ← Function.iterate_add_apply, Nat.sub_add_cancel hij.le, ← he]
  have hn : 0 < j - i := by omega
  -- least element of the orbit
  have hex : ∃ m, ∃ a, f^[a] y = m := ⟨y, 0, rfl⟩
  classical
  obtain ⟨a, ha⟩ := Nat.find_spec hex
  set z := Nat.find hex
  have hmin : ∀ b, z ≤ f^[b] y := fun b => Nat.find_min' hex ⟨b, rfl⟩
  refine ⟨z, ⟨j - i, hn, ?_⟩, ?_, ?_⟩
  · rw [← ha, ← Function.iterate_add_apply, Nat.add_comm, Function.iterate_add_apply, hper]
  · intro b
    rw [← ha, hy, ← Function.iterate_add_apply, ← Function.iterate_add_apply]
    exact h _
  · intro b
    have := hmin (b + a)
    rwa [Function.iterate_add_apply, ha] at this

end ClSt
end Verif
