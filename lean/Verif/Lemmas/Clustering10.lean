import Verif.Lemmas.Clustering9
/-! Every fair execution ends -/
namespace Verif
namespace ClSt

variable {lim : Int} {nw : Nat → Int} {nodes : List Nat} {T : Nat}

def phi : CPc → Bool → Nat
  | .idle, _ => 30 | .weight, _ => 29 | .cas, _ => 28 | .store, _ => 27 | .loadV, _ => 26 | .casV, _ => 25
  | .walk _ _, _ => 24 | .check2 _ _, _ => 24
  | .loop, r => if r then 16 else 24
  | .jload .cyc _, _ => 20 | .jwrite .cyc _, _ => 19 | .jadd .cyc _, _ => 18 | .jstore .cyc, _ => 17
  | .self, _ => 15 | .read, _ => 14
  | .jload _ _, _ => 13 | .jwrite _ _, _ => 12 | .jadd _ _, _ => 11 | .jstore _, _ => 10
  | .fin1, _ => 9 | .fin2, _ => 8
  | .done, _ => 0 | .skip, _ => 0

theorem run_phi {s s' : ClSt} (I : s.CInv) {u : Nat} {ok : Bool} (h : s.run lim nw u ok = some s') :
    (∀ x, x ≠ u → s'.res x = s.res x) ∧
    (phi (s'.pc u) (s'.res u) < phi (s.pc u) (s.res u) ∨
      (s.waiting u ∧ phi (s'.pc u) (s'.res u) = phi (s.pc u) (s.res u))) := by
  have hs : ∀ x, x ≠ u → Function.update s.res u true x = s.res x := fun x hx => Function.update_of_ne hx ..
  have hR : s.res u = true → s.st (s.tgt u) = .matched := I.resM u
  have hW := I.resW u
  have hj := I.jst u
  unfold ClSt.run at h
  cases hpc : s.pc u with
  | idle | done | skip => simp [hpc] at h
  | cas | casV =>
    simp only [hpc] at h
    split at h <;> (cases h; exact ⟨fun _ _ => rfl, .inl (by simp [goto, phi])⟩)
  | loadV =>
    simp only [hpc] at h
    split at h <;> (cases h; exact ⟨fun _ _ => rfl, .inl (by simp [goto, phi])⟩)
  | weight | self =>
    simp only [hpc] at h; cases h
    refine ⟨fun _ _ => rfl, .inl ?_⟩
    rw [goto_pc_self]; split <;> simp [phi]
  | store | fin1 | fin2 =>
    simp only [hpc] at h; cases h
    exact ⟨fun _ _ => rfl, .inl (by simp [phi])⟩
  | read =>
    simp only [hpc] at h; cases h
    exact ⟨fun _ _ => rfl, .inl (by simp [phi, goto])⟩
  | jload k rep =>
    simp only [hpc] at h; cases h
    refine ⟨fun _ _ => rfl, .inl ?_⟩
    rw [goto_pc_self]; split <;> cases k <;> simp [phi, afterJoin]
  | jwrite k rep =>
    simp only [hpc] at h; cases h
    refine ⟨fun _ _ => rfl, .inl ?_⟩
    cases k <;> simp [phi]
  | jadd k rep =>
    simp only [hpc] at h; cases h
    refine ⟨fun _ _ => rfl, .inl ?_⟩
    cases k <;> simp [phi, afterJoin]
  | jstore k =>
    cases k with
    | rep => exact (hj hpc).elim
    | grab => simp only [hpc] at h; cases h; exact ⟨fun _ _ => rfl, .inl (by simp [phi])⟩
    | cyc => simp only [hpc] at h; cases h; exact ⟨hs, .inl (by simp [phi])⟩
  | walk c m =>
    simp only [hpc] at h
    split at h <;> (cases h; exact ⟨fun _ _ => rfl, .inr ⟨by simp [waiting, hpc], by simp [goto, phi]⟩⟩)
  | check2 c m =>
    have hr : s.res u = false := by
      by_contra hn
      have := (hW (by simpa using hn)).1
      simp [hpc, inW'] at this
    simp only [hpc] at h
    split at h
    · cases h; exact ⟨fun _ _ => rfl, .inl (by simp [goto, phi])⟩
    · cases h; exact ⟨fun _ _ => rfl, .inr ⟨by simp [waiting, hpc], by simp [goto, phi, hr]⟩⟩
  | loop =>
    simp only [hpc] at h; cases h
    refine ⟨fun _ _ => rfl, ?_⟩
    rw [goto_pc_self]
    by_cases hst : s.st (s.tgt u) = .inProgress
    · rw [if_pos hst]
      have hr : s.res u = false := by
        by_contra hn
        rw [hR (by simpa using hn)] at hst; cases hst
      right
      refine ⟨by simp [waiting, hpc, hst], ?_⟩
      show phi _ (s.res u) = _
      rw [hr]; rfl
    · rw [if_neg hst]
      left
      show phi _ (s.res u) < _
      cases s.res u <;> simp [phi]

/-- the next program counter of a waiting process -/
def wnext (s : ClSt) (u : Nat) : CPc :=
  match s.pc u with
  | .walk c m => if s.partner c ≠ u ∧ s.partner c ≠ c then .walk (s.partner c) (min m (s.partner c)) else .check2 c m
  | .check2 c m => if s.partner c = u ∧ u = m then .jload .cyc (s.tgt u) else .loop
  | _ => if s.st (s.tgt u) = .inProgress then .walk u u else .self

theorem run_waiting {s : ClSt} {u : Nat} {ok : Bool} (h : s.waiting u) : s.run lim nw u ok = some (s.goto u (s.wnext u)) := by
  unfold waiting at h
  unfold ClSt.run wnext
  cases hpc : s.pc u <;> simp only [hpc] at h ⊢
  · split <;> rfl
  · split <;> rfl

theorem active_wnext {s : ClSt} {u : Nat} : active (s.wnext u) = true := by
  unfold wnext
  split <;> split <;> rfl

/-- equal up to the program counters of processes other than `u` -/
structure Same (u : Nat) (s s' : ClSt) : Prop where
  st : s'.st = s.st
  partner : s'.partner = s.partner
  tgt : s'.tgt = s.tgt
  pc : s'.pc u = s.pc u

theorem Same.refl {u : Nat} {s : ClSt} : Same u s s := ⟨rfl, rfl, rfl, rfl⟩
theorem Same.trans {u : Nat} {s s' s'' : ClSt} (h : Same u s s') (h' : Same u s' s'') : Same u s s'' :=
  ⟨h'.st.trans h.st, h'.partner.trans h.partner, h'.tgt.trans h.tgt, h'.pc.trans h.pc⟩

theorem Same.waiting {u : Nat} {s s' : ClSt} (h : Same u s s') : s'.waiting u ↔ s.waiting u := by
  unfold ClSt.waiting; rw [h.pc, h.st, h.tgt]
theorem Same.wnext {u : Nat} {s s' : ClSt} (h : Same u s s') : s'.wnext u = s.wnext u := by
  unfold ClSt.wnext; rw [h.pc, h.st, h.tgt, h.partner]
theorem Same.goto {u : Nat} {s s' : ClSt} (h : Same u s s') (q : CPc) : Same u (s.goto u q) (s'.goto u q) :=
  ⟨h.st, h.partner, h.tgt, by rw [goto_pc_self, goto_pc_self]⟩

namespace Exec
variable (e : Exec lim nw nodes T)

theorem reach : ∀ i, Reach lim nw nodes T (e.σ i)
  | 0 => by rw [e.first]; exact .init
  | i + 1 => by
    have h := e.next i
    have ih := reach i
    cases ha : e.act i with
    | stay => rw [ha] at h; rw [show e.σ (i + 1) = e.σ i from h]; exact ih
    | start u v =>
      rw [ha] at h
      obtain ⟨h1, h2, h3, h4, h5, h6⟩ := h
      rw [h6]; exact .start ih h1 h2 h3 h4 h5
    | run u ok => rw [ha] at h; exact .run ih h

def Phi (i : Nat) : Nat := (nodes.map fun x => phi ((e.σ i).pc x) ((e.σ i).res x)).sum

theorem phi_le {i : Nat} {u : Nat} (hp : ∀ x, x ≠ u → (e.σ (i + 1)).pc x = (e.σ i).pc x)
    (hr : ∀ x, x ≠ u → (e.σ (i + 1)).res x = (e.σ i).res x)
    (h : phi ((e.σ (i + 1)).pc u) ((e.σ (i + 1)).res u) ≤ phi ((e.σ i).pc u) ((e.σ i).res u)) :
    e.Phi (i + 1) ≤ e.Phi i ∧
    (u ∈ nodes → phi ((e.σ (i + 1)).pc u) ((e.σ (i + 1)).res u) < phi ((e.σ i).pc u) ((e.σ i).res u) → e.Phi (i + 1) < e.Phi i) := by
  have hle : ∀ x, phi ((e.σ (i + 1)).pc x) ((e.σ (i + 1)).res x) ≤ phi ((e.σ i).pc x) ((e.σ i).res x) := by
    intro x
    by_cases hx : x = u
    · subst hx; exact h
    · rw [hp x hx, hr x hx]
  refine ⟨List.sum_le_sum fun x _ => hle x, fun hu hlt => ?_⟩
  exact List.sum_lt_sum _ _ (fun x _ => hle x) ⟨u, hu, hlt⟩

/-- each moment either decreases the measure, or nothing happens, or a waiting process goes on waiting -/
theorem moment (i : Nat) : e.Phi (i + 1) < e.Phi i ∨ (e.Phi (i + 1) = e.Phi i ∧
    ((e.σ (i + 1) = e.σ i ∧ e.act i = .stay) ∨
      ∃ u ok, e.act i = .run u ok ∧ (e.σ i).waiting u ∧ e.σ (i + 1) = (e.σ i).goto u ((e.σ i).wnext u))) := by
  have h := e.next i
  have hr := e.reach i
  cases ha : e.act i with
  | stay =>
    rw [ha] at h
    have h : e.σ (i + 1) = e.σ i := h
    exact .inr ⟨by unfold Phi; rw [h], .inl ⟨h, rfl⟩⟩
  | start u v =>
    rw [ha] at h
    obtain ⟨h1, h2, h3, h4, h5, h6⟩ := h
    left
    have hpu : (e.σ (i + 1)).pc u = .weight := by rw [h6]; exact Function.update_self ..
    refine (e.phi_le (u := u) ?_ ?_ ?_).2 h1 ?_
    · intro x hx; rw [h6]; exact Function.update_of_ne hx ..
    · intro x hx; rw [h6]; rfl
    · rw [hpu, h4]; simp [phi]
    · rw [hpu, h4]; simp [phi]
  | run u ok =>
    rw [ha] at h
    have h : (e.σ i).run lim nw u ok = some (e.σ (i + 1)) := h
    obtain ⟨h1, h2⟩ := run_phi hr.inv.1 h
    obtain ⟨hp, hact, _⟩ := run_pc h
    have hu : u ∈ nodes := (hr.mem.1 u (by intro h; rw [h] at hact; simp [active] at hact)).1
    rcases h2 with h2 | ⟨h2, h3⟩
    · exact .inl ((e.phi_le hp h1 h2.le).2 hu h2)
    · rcases Nat.lt_or_ge (e.Phi (i + 1)) (e.Phi i) with h4 | h4
      · exact .inl h4
      · refine .inr ⟨le_antisymm (e.phi_le hp h1 h3.le).1 h4, .inr ⟨u, ok, rfl, h2, ?_⟩⟩
        rw [run_waiting h2] at h
        exact (Option.some.inj h).symm

theorem settles : ∃ J, ∀ i, J ≤ i → e.Phi (i + 1) = e.Phi i := by
  classical
  have hex : ∃ m, ∃ a, e.Phi a = m := ⟨_, 0, rfl⟩
  obtain ⟨J, hJ⟩ := Nat.find_spec hex
  have hmin : ∀ i, Nat.find hex ≤ e.Phi i := fun i => Nat.find_min' hex ⟨i, rfl⟩
  have hanti : ∀ i, e.Phi (i + 1) ≤ e.Phi i := fun i => by
    rcases e.moment i with h | ⟨h, _⟩ <;> omega
  have hconst : ∀ d, e.Phi (J + d) = e.Phi J := by
    intro d
    induction d with
    | zero => rfl
    | succ d ih =>
      have h1 := hanti (J + d)
      have h2 := hmin (J + (d + 1))
      rw [← hJ] at h2
      rw [← Nat.add_assoc] at h2 ⊢
      omega
  refine ⟨J, fun i hi => ?_⟩
  have h1 := hconst (i - J)
  have h2 := hconst (i + 1 - J)
  rw [show J + (i - J) = i by omega] at h1
  rw [show J + (i + 1 - J) = i + 1 by omega] at h2
  omega

variable {e}
variable {J : Nat}

theorem quiet (hJ : ∀ i, J ≤ i → e.Phi (i + 1) = e.Phi i) {i : Nat} (hi : J ≤ i) :
    (e.σ (i + 1) = e.σ i ∧ e.act i = .stay) ∨
      ∃ u ok, e.act i = .run u ok ∧ (e.σ i).waiting u ∧ e.σ (i + 1) = (e.σ i).goto u ((e.σ i).wnext u) := by
  rcases e.moment i with h | ⟨_, h⟩
  · have := hJ i hi; omega
  · exact h

/-- a running process is unchanged until its next step -/
theorem until_run (hf : e.Fair) (hJ : ∀ i, J ≤ i → e.Phi (i + 1) = e.Phi i) {i x : Nat} (hi : J ≤ i)
    (ha : active ((e.σ i).pc x) = true) :
    ∃ j, J ≤ j ∧ Same x (e.σ i) (e.σ j) ∧ (e.σ j).waiting x ∧ e.σ (j + 1) = (e.σ j).goto x ((e.σ j).wnext x) := by
  obtain ⟨j, hij, ok, hj⟩ := hf i x ha
  obtain ⟨d, rfl⟩ : ∃ d, j = i + d := ⟨j - i, by omega⟩
  clear ha hij
  induction d generalizing i with
  | zero =>
    rcases quiet hJ hi with ⟨_, h⟩ | ⟨u, ok', h1, h2, h3⟩
    · rw [show i + 0 = i from rfl, h] at hj; cases hj
    · rw [show i + 0 = i from rfl, h1] at hj; cases hj
      exact ⟨i, hi, .refl, h2, h3⟩
  | succ d ih =>
    rcases quiet hJ hi with ⟨h, _⟩ | ⟨u, ok', h1, h2, h3⟩
    · obtain ⟨j, g1, g2, g3⟩ := ih (i := i + 1) (by omega) (by rw [← hj]; congr 1; omega)
      exact ⟨j, g1, by rw [← h]; exact g2, g3⟩
    · by_cases hu : u = x
      · subst hu; exact ⟨i, hi, .refl, h2, h3⟩
      · obtain ⟨j, g1, g2, g3⟩ := ih (i := i + 1) (by omega) (by rw [← hj]; congr 1; omega)
        refine ⟨j, g1, Same.trans ?_ g2, g3⟩
        rw [h3]
        exact ⟨rfl, rfl, rfl, goto_pc_ne x (Ne.symm hu)⟩

theorem no_solo (hf : e.Fair) (hJ : ∀ i, J ≤ i → e.Phi (i + 1) = e.Phi i) {u : Nat} {s s' : ClSt}
    (h : Solo lim nw u s s') (he : active (s'.pc u) = false) :
    ∀ i, J ≤ i → Same u s (e.σ i) → active (s.pc u) = true → False := by
  induction h with
  | refl => intro _ _ _ ha; rw [he] at ha; cases ha
  | @step s s1 s2 hrun _ ih =>
    intro i hi hs ha
    obtain ⟨j, g1, g2, g3, g4⟩ := until_run hf hJ hi (x := u) (by rw [hs.pc]; exact ha)
    have hsj := hs.trans g2
    have hw := hsj.waiting.1 g3
    rw [run_waiting hw] at hrun
    cases hrun
    refine ih he (j + 1) (by omega) ?_ (by rw [goto_pc_self]; exact active_wnext)
    rw [g4, hsj.wnext]
    exact hsj.goto _

theorem ends (hf : e.Fair) : ∃ J, ∀ i, J ≤ i → (∀ x, active ((e.σ i).pc x) = false) ∧ e.σ i = e.σ J := by
  obtain ⟨J, hJ⟩ := e.settles
  have hno : ∀ i, J ≤ i → ∀ x, active ((e.σ i).pc x) = false := by
    intro i hi x
    by_contra hx
    have hx : active ((e.σ i).pc x) = true := by simpa using hx
    have hw : ∀ y, active ((e.σ i).pc y) = true → (e.σ i).waiting y := by
      intro y hy
      obtain ⟨j, _, g2, g3, _⟩ := until_run hf hJ hi hy
      exact g2.waiting.1 g3
    obtain ⟨u, h1, s', h2, h3, _⟩ := stuck (e.reach i) hw hx
    exact no_solo hf hJ h2 h3 i hi .refl h1
  refine ⟨J, fun i hi => ⟨hno i hi, ?_⟩⟩
  obtain ⟨d, rfl⟩ : ∃ d, i = J + d := ⟨i - J, by omega⟩
  clear hi
  induction d with
  | zero => rfl
  | succ d ih =>
    rcases quiet hJ (i := J + d) (by omega) with ⟨h, _⟩ | ⟨u, ok, _, h2, _⟩
    · rw [← Nat.add_assoc, h, ih]
    · have := hno (J + d) (by omega) u
      have h4 := h2.al
      have h5 := active_of_own (own_of_afterLoad h4) (by intro h; rw [h] at h4; simp [afterLoad] at h4)
      rw [this] at h5; cases h5

end Exec
end ClSt
end Verif
