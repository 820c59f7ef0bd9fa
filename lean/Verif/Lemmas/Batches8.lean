import Verif.Lemmas.Batches7
/-! Every execution of the parallel loop is finite, and no thread can get stuck. -/
namespace Verif
namespace Uncontract
open Schedule
open scoped BigOperators

variable {t : CTree} {ch : Nat → List Nat} {roots : List Nat} {k mx T : Nat}

/-- the expected value of a compare-and-swap is an old value of the high water mark -/
def curOf : Pc → Nat
  | .cas _ _ _ _ cur => cur
  | .cas2 _ cur => cur
  | _ => 0

def CurLe (T : Nat) (s : St) : Prop := ∀ i < T, curOf (s.thr i).pc ≤ s.sh.hwm

/-- remaining work of a thread for the group it handles -/
def phi (n T : Nat) : Pc → Nat
  | .idle => 0
  | .cas2 _ cur => 1 + (n - cur)
  | .raise2 _ => n + 2
  | .scan j _ => n + 3 + (T - j)
  | .swap => n + T + 4
  | .assign _ _ _ _ => n + T + 5
  | .cas _ _ _ _ cur => n + T + 6 + (n - cur)
  | .raise _ _ _ _ => 2 * n + T + 7
  | .addSize _ _ _ _ _ => 2 * n + T + 8
  | .find _ _ idx _ => 2 * n + T + 9 + (n - idx)
  | .loadHw _ _ => 3 * n + T + 10
  | .check _ _ => 3 * n + T + 11

/-- nodes taken by a thread -/
def takenLen (th : Thr) : Nat := placedLen th + (infl th.pc).length

def taken (T : Nat) (s : St) : Nat := ∑ i ∈ Finset.range T, takenLen (s.thr i)

/-- bound on the number of remaining steps -/
def measure (n T : Nat) (s : St) : Nat :=
  (3 * n + T + 12) * (n - taken T s) + (n - s.sh.hwm) + ∑ i ∈ Finset.range T, phi n T (s.thr i).pc

theorem length_flatMap_sum (T : Nat) (f : Nat → List Nat) :
    ((List.range T).flatMap f).length = ∑ i ∈ Finset.range T, (f i).length := by
  induction T with
  | zero => simp
  | succ T ih => rw [List.range_succ, List.flatMap_append, List.length_append, ih, Finset.sum_range_succ]; simp

theorem Inv.taken_le (hV : VersionOK t roots k) {s : St} {H : Hist} {m : Nat} (I : Inv t ch roots k mx T s H m) :
    taken T s ≤ t.n := by
  have h1 : taken T s = (hnodes H ++ (List.range T).flatMap (fun i => infl (s.thr i).pc)).length := by
    unfold taken takenLen
    rw [Finset.sum_add_distrib, I.placed, List.length_append, length_flatMap_sum]
  have hcnt : ∀ v, (hnodes H ++ (List.range T).flatMap (fun i => infl (s.thr i).pc)).count v ≤ if Edge t k v then 1 else 0 := by
    intro v
    refine Nat.le_trans ?_ (I.total_le hV v)
    unfold total
    rw [List.count_append, sum_count_flatMap]
    apply Nat.add_le_add_left
    apply Finset.sum_le_sum
    intro i _
    omega
  have hn : (hnodes H ++ (List.range T).flatMap (fun i => infl (s.thr i).pc)).Nodup := by
    rw [List.nodup_iff_count_le_one]
    intro v
    have := hcnt v
    split at this <;> omega
  have hsub : (hnodes H ++ (List.range T).flatMap (fun i => infl (s.thr i).pc)) ⊆ List.range t.n := by
    intro v hv
    by_contra h
    have h1 := hcnt v
    rw [if_neg (fun he => h (List.mem_range.2 he.1))] at h1
    have := List.count_pos_iff.2 hv
    omega
  rw [h1]
  have := (hn.subperm hsub).length_le
  simpa using this

/-- effect of a step on the thread that makes it -/
theorem TStep.local (hc : ChildsOK t ch)
    {s : St} {H : Hist} {m : Nat} (hV : VersionOK t roots k) (I : Inv t ch roots k mx T s H m) (hcur : CurLe T s)
    {i : Nat} (hi : i < T) {sh' : Sh} {th' : Thr} (h : TStep t ch k mx T i s.sh (s.thr i) sh' th') :
    s.sh.hwm ≤ sh'.hwm ∧ curOf th'.pc ≤ sh'.hwm ∧
    ((takenLen (s.thr i) + 1 ≤ takenLen th' ∧ phi t.n T th'.pc + 1 ≤ 3 * t.n + T + 12 + phi t.n T (s.thr i).pc ∧
        t.n - sh'.hwm ≤ t.n - s.sh.hwm) ∨
     (takenLen th' = takenLen (s.thr i) ∧
        phi t.n T th'.pc + (t.n - sh'.hwm) + 1 ≤ phi t.n T (s.thr i).pc + (t.n - s.sh.hwm))) := by
  have hI := I.thr i hi
  have hp := hI.pc
  have hci := hcur i hi
  have hml : m ≤ t.n := by
    rcases Nat.eq_zero_or_pos t.n with h0 | h0
    · have h1 := I.m_le
      have h2 : hnodes H = [] := by
        rw [List.eq_nil_iff_forall_not_mem]
        intro v hv
        have := (I.hnodes_edge hV hv).1
        omega
      rw [h2] at h1
      simp at h1
      omega
    · exact Nat.le_of_lt (I.m_lt hV h0)
  unfold PcInv at hp
  have hfl : ∀ u g idx hw, (s.thr i).pc = .find u g idx hw → idx < t.n := fun u g idx hw h => I.find_lt hV hi h
  generalize s.thr i = th at h hp hci hfl ⊢
  have hhm := I.hw
  generalize s.sh = sh at h hp hci hhm ⊢
  cases h with
  | take p1 p2 v r hpc hpq =>
    refine ⟨Nat.le_refl _, Nat.zero_le _, Or.inl ⟨?_, ?_, Nat.le_refl _⟩⟩
    · unfold takenLen placedLen
      rw [hpc]
      simp only [pend, infl, List.length_cons, List.length_nil]
      omega
    · rw [hpc]; simp only [phi]; omega
  | checkLe u g hpc h =>
    refine ⟨Nat.le_refl _, Nat.zero_le _, Or.inr ⟨?_, ?_⟩⟩
    · unfold takenLen placedLen; rw [hpc]; rfl
    · rw [hpc]; simp only [phi]; omega
  | checkGt u g hpc h =>
    refine ⟨Nat.le_refl _, Nat.zero_le _, Or.inr ⟨?_, ?_⟩⟩
    · unfold takenLen placedLen; rw [hpc]; rfl
    · rw [hpc]; simp only [phi]; omega
  | loadHw u g hpc =>
    refine ⟨Nat.le_refl _, Nat.zero_le _, Or.inr ⟨?_, ?_⟩⟩
    · unfold takenLen placedLen; rw [hpc]; rfl
    · rw [hpc]; simp only [phi]; omega
  | fetchFull u g idx hw hpc h =>
    refine ⟨Nat.le_refl _, Nat.zero_le _, Or.inr ⟨?_, ?_⟩⟩
    · unfold takenLen placedLen; rw [hpc]; rfl
    · have := hfl _ _ _ _ hpc
      rw [hpc]; simp only [phi]; omega
  | fetchOk u g idx hw hpc h =>
    refine ⟨Nat.le_refl _, Nat.zero_le _, Or.inr ⟨?_, ?_⟩⟩
    · unfold takenLen placedLen; rw [hpc]; simp only [pend, infl, List.length_nil]; omega
    · rw [hpc]; simp only [phi]; omega
  | addSize u g idx pos hw hpc =>
    refine ⟨Nat.le_refl _, by cases hw <;> exact Nat.zero_le _, Or.inr ⟨?_, ?_⟩⟩
    · unfold takenLen placedLen; rw [hpc]; cases hw <;> rfl
    · rw [hpc]; cases hw <;> simp only [phi, if_true, if_false, Bool.false_eq_true] <;> omega
  | raise u g idx pos hpc =>
    refine ⟨Nat.le_refl _, Nat.le_refl _, Or.inr ⟨?_, ?_⟩⟩
    · unfold takenLen placedLen; rw [hpc]; rfl
    · rw [hpc]; simp only [phi]; omega
  | casDone u g idx pos cur hpc h =>
    refine ⟨Nat.le_refl _, Nat.zero_le _, Or.inr ⟨?_, ?_⟩⟩
    · unfold takenLen placedLen; rw [hpc]; rfl
    · rw [hpc]; simp only [phi]; omega
  | casOk u g idx pos cur hpc h hc' =>
    rw [hpc] at hp
    have := hp.2.2.1
    refine ⟨by show sh.hwm ≤ idx; omega, by show curOf th'.pc ≤ idx; rw [hpc]; simp only [curOf]; omega, Or.inr ⟨rfl, ?_⟩⟩
    show phi t.n T th'.pc + (t.n - idx) + 1 ≤ phi t.n T th'.pc + (t.n - sh.hwm)
    omega
  | casFail u g idx pos cur hpc h hc' =>
    rw [hpc] at hci
    simp only [curOf] at hci
    refine ⟨Nat.le_refl _, Nat.le_refl _, Or.inr ⟨?_, ?_⟩⟩
    · unfold takenLen placedLen; rw [hpc]; rfl
    · rw [hpc]; simp only [phi]; omega
  | assign u g idx pos hpc =>
    refine ⟨Nat.le_refl _, Nat.zero_le _, Or.inr ⟨?_, ?_⟩⟩
    · unfold takenLen placedLen
      rw [hpc]
      simp only [pend, infl, List.length_append, entries, List.length_map, List.length_range, List.length_nil, Nat.add_zero]
    · rw [hpc]; simp only [phi]; omega
  | more hpc h =>
    refine ⟨Nat.le_refl _, Nat.zero_le _, Or.inr ⟨?_, ?_⟩⟩
    · unfold takenLen placedLen; rw [hpc]; rfl
    · rw [hpc]; simp only [phi]; omega
  | level hpc h =>
    refine ⟨Nat.le_refl _, Nat.zero_le _, Or.inr ⟨?_, ?_⟩⟩
    · unfold takenLen placedLen; rw [hpc]; rfl
    · rw [hpc]; simp only [phi]; omega
  | scan j mn hpc h =>
    refine ⟨Nat.le_refl _, Nat.zero_le _, Or.inr ⟨?_, ?_⟩⟩
    · unfold takenLen placedLen; rw [hpc]; rfl
    · rw [hpc]; simp only [phi]; omega
  | scanEnd j mn hpc h =>
    refine ⟨Nat.le_refl _, Nat.zero_le _, Or.inr ⟨?_, ?_⟩⟩
    · unfold takenLen placedLen; rw [hpc]; rfl
    · rw [hpc]; simp only [phi]; omega
  | raise2 mn hpc =>
    refine ⟨Nat.le_refl _, Nat.le_refl _, Or.inr ⟨?_, ?_⟩⟩
    · unfold takenLen placedLen; rw [hpc]; rfl
    · rw [hpc]; simp only [phi]; omega
  | cas2Done mn cur hpc h =>
    refine ⟨Nat.le_refl _, Nat.zero_le _, Or.inr ⟨?_, ?_⟩⟩
    · unfold takenLen placedLen; rw [hpc]; rfl
    · rw [hpc]; simp only [phi]; omega
  | cas2Ok mn cur hpc h hc' =>
    rw [hpc] at hp
    have := hp.1
    refine ⟨by show sh.hwm ≤ mn; omega, by show curOf th'.pc ≤ mn; rw [hpc]; simp only [curOf]; omega, Or.inr ⟨rfl, ?_⟩⟩
    show phi t.n T th'.pc + (t.n - mn) + 1 ≤ phi t.n T th'.pc + (t.n - sh.hwm)
    omega
  | cas2Fail mn cur hpc h hc' =>
    rw [hpc] at hci
    simp only [curOf] at hci
    refine ⟨Nat.le_refl _, Nat.le_refl _, Or.inr ⟨?_, ?_⟩⟩
    · unfold takenLen placedLen; rw [hpc]; rfl
    · rw [hpc]; simp only [phi]; omega

/-- executions with their number of steps -/
inductive StepsN (t : CTree) (ch : Nat → List Nat) (k mx T : Nat) : Nat → St → St → Prop where
  | refl (s : St) : StepsN t ch k mx T 0 s s
  | tail {j : Nat} {s s' s'' : St} (h : StepsN t ch k mx T j s s') (h' : Step t ch k mx T s' s'') : StepsN t ch k mx T (j + 1) s s''

theorem step_measure (hc : ChildsOK t ch) (hmx : 0 < mx)
    (hst : ∀ v, v < t.n → t.par v ≠ v → t.start v ≠ kInvalid ∧ t.start v ≤ t.stop v) (hV : VersionOK t roots k)
    {s s' : St} (h : Step t ch k mx T s s') (hI : ∃ H m, Inv t ch roots k mx T s H m) (hcur : CurLe T s) :
    (∃ H m, Inv t ch roots k mx T s' H m) ∧ CurLe T s' ∧ measure t.n T s' + 1 ≤ measure t.n T s := by
  obtain ⟨H, m, I⟩ := hI
  cases h with
  | mk i hi sh' th' hts =>
    have hI' := I.tstep hc hmx hst hi hts
    obtain ⟨h1, h2, h3⟩ := TStep.local hc hV I hcur hi hts
    refine ⟨hI', ?_, ?_⟩
    · intro j hj
      show curOf (if j = i then th' else s.thr j).pc ≤ sh'.hwm
      by_cases hji : j = i
      · rw [if_pos hji]; exact h2
      · rw [if_neg hji]; exact Nat.le_trans (hcur j hj) h1
    · obtain ⟨H', m', I'⟩ := hI'
      have ht := I'.taken_le hV
      have e1 := sum_upd T i hi s.thr th' takenLen
      have e2 := sum_upd T i hi s.thr th' (fun th => phi t.n T th.pc)
      unfold measure taken at *
      show (3 * t.n + T + 12) * (t.n - ∑ j ∈ Finset.range T, takenLen (if j = i then th' else s.thr j)) + (t.n - sh'.hwm) +
        ∑ j ∈ Finset.range T, phi t.n T (if j = i then th' else s.thr j).pc + 1 ≤ _
      change ∑ j ∈ Finset.range T, takenLen (if j = i then th' else s.thr j) ≤ t.n at ht
      generalize ∑ j ∈ Finset.range T, takenLen (if j = i then th' else s.thr j) = tk' at *
      generalize ∑ j ∈ Finset.range T, takenLen (s.thr j) = tk at *
      rcases h3 with ⟨g1, g2, g3⟩ | ⟨g1, g2⟩
      · have hle : t.n - tk' + 1 ≤ t.n - tk := by omega
        have := Nat.mul_le_mul_left (3 * t.n + T + 12) hle
        rw [Nat.mul_add, Nat.mul_one] at this
        omega
      · have : tk' = tk := by omega
        rw [this]
        omega

/-- the number of steps of every execution is bounded -/
theorem steps_bounded (hc : ChildsOK t ch) (hmx : 0 < mx)
    (hst : ∀ v, v < t.n → t.par v ≠ v → t.start v ≠ kInvalid ∧ t.start v ≤ t.stop v) (hV : VersionOK t roots k)
    {j : Nat} {s s' : St} (h : StepsN t ch k mx T j s s') (hI : ∃ H m, Inv t ch roots k mx T s H m) (hcur : CurLe T s) :
    (∃ H m, Inv t ch roots k mx T s' H m) ∧ CurLe T s' ∧ measure t.n T s' + j ≤ measure t.n T s := by
  induction h with
  | refl => exact ⟨hI, hcur, Nat.le_refl _⟩
  | tail _ h' ih =>
    obtain ⟨g1, g2, g3⟩ := ih hI hcur
    obtain ⟨f1, f2, f3⟩ := step_measure hc hmx hst hV h' g1 g2
    exact ⟨f1, f2, by omega⟩

/-- a thread that has not left its loop can make a step -/
theorem progress {s : St} {H : Hist} {m : Nat} (I : Inv t ch roots k mx T s H m) (hnd : ¬ Done T s) :
    ∃ s', Step t ch k mx T s s' := by
  unfold Done at hnd
  push Not at hnd
  obtain ⟨i, hi, hnd⟩ := hnd
  suffices h : ∃ sh' th', TStep t ch k mx T i s.sh (s.thr i) sh' th' by
    obtain ⟨sh', th', h⟩ := h
    exact ⟨_, Step.mk s i hi sh' th' h⟩
  cases hpc : (s.thr i).pc with
  | idle =>
    have hne := hnd hpc
    cases hpq : (s.thr i).pq with
    | nil => exact absurd hpq hne
    | cons l p2 =>
      obtain ⟨_, _, _, ⟨v, r, rfl, _⟩, _⟩ := (I.thr i hi).pq l (by rw [hpq]; simp)
      exact ⟨_, _, TStep.take _ _ [] p2 v r hpc (by rw [hpq]; rfl)⟩
  | check u g =>
    by_cases h : s.sh.loc i ≤ s.sh.hwm
    · exact ⟨_, _, TStep.checkLe _ _ u g hpc h⟩
    · exact ⟨_, _, TStep.checkGt _ _ u g hpc (by omega)⟩
  | loadHw u g => exact ⟨_, _, TStep.loadHw _ _ u g hpc⟩
  | find u g idx hw =>
    by_cases h : mx ≤ s.sh.cnt idx
    · exact ⟨_, _, TStep.fetchFull _ _ u g idx hw hpc h⟩
    · exact ⟨_, _, TStep.fetchOk _ _ u g idx hw hpc (by omega)⟩
  | addSize u g idx pos hw => exact ⟨_, _, TStep.addSize _ _ u g idx pos hw hpc⟩
  | raise u g idx pos => exact ⟨_, _, TStep.raise _ _ u g idx pos hpc⟩
  | cas u g idx pos cur =>
    by_cases h : idx ≤ cur
    · exact ⟨_, _, TStep.casDone _ _ u g idx pos cur hpc h⟩
    · by_cases h' : s.sh.hwm = cur
      · exact ⟨_, _, TStep.casOk _ _ u g idx pos cur hpc (by omega) h'⟩
      · exact ⟨_, _, TStep.casFail _ _ u g idx pos cur hpc (by omega) h'⟩
  | assign u g idx pos => exact ⟨_, _, TStep.assign _ _ u g idx pos hpc⟩
  | swap =>
    by_cases h : (s.thr i).pq = []
    · exact ⟨_, _, TStep.level _ _ hpc h⟩
    · exact ⟨_, _, TStep.more _ _ hpc h⟩
  | scan j mn =>
    by_cases h : j < T
    · exact ⟨_, _, TStep.scan _ _ j mn hpc h⟩
    · exact ⟨_, _, TStep.scanEnd _ _ j mn hpc (by omega)⟩
  | raise2 mn => exact ⟨_, _, TStep.raise2 _ _ mn hpc⟩
  | cas2 mn cur =>
    by_cases h : mn ≤ cur
    · exact ⟨_, _, TStep.cas2Done _ _ mn cur hpc h⟩
    · by_cases h' : s.sh.hwm = cur
      · exact ⟨_, _, TStep.cas2Ok _ _ mn cur hpc (by omega) h'⟩
      · exact ⟨_, _, TStep.cas2Fail _ _ mn cur hpc (by omega) h'⟩

/-- from every reachable state the loop can be completed -/
theorem completes (hc : ChildsOK t ch) (hmx : 0 < mx)
    (hst : ∀ v, v < t.n → t.par v ≠ v → t.start v ≠ kInvalid ∧ t.start v ≤ t.stop v) (hV : VersionOK t roots k) :
    ∀ (b : Nat) (s : St), measure t.n T s ≤ b → (∃ H m, Inv t ch roots k mx T s H m) → CurLe T s →
    ∃ s', Steps t ch k mx T s s' ∧ Done T s' := by
  intro b
  induction b with
  | zero =>
    intro s hb hI hcur
    by_cases hd : Done T s
    · exact ⟨s, Steps.refl s, hd⟩
    · obtain ⟨H, m, I⟩ := hI
      obtain ⟨s', hs'⟩ := progress I hd
      have := (step_measure hc hmx hst hV hs' ⟨H, m, I⟩ hcur).2.2
      omega
  | succ b ih =>
    intro s hb hI hcur
    by_cases hd : Done T s
    · exact ⟨s, Steps.refl s, hd⟩
    · obtain ⟨H, m, I⟩ := hI
      obtain ⟨s', hs'⟩ := progress I hd
      obtain ⟨g1, g2, g3⟩ := step_measure hc hmx hst hV hs' ⟨H, m, I⟩ hcur
      obtain ⟨s'', h1, h2⟩ := ih s' (by omega) g1 g2
      refine ⟨s'', ?_, h2⟩
      have pre : ∀ {a b c : St}, Step t ch k mx T a b → Steps t ch k mx T b c → Steps t ch k mx T a c := by
        intro a b c hab hbc
        induction hbc with
        | refl => exact Steps.tail (Steps.refl _) hab
        | tail _ h ih => exact Steps.tail ih h
      exact pre hs' h1

end Uncontract
end Verif
