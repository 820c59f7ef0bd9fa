import Verif.Lemmas.Clustering6
/-! Exact weights when no cyclic dependency had to be resolved -/
namespace Verif
namespace ClSt

variable {lim : Int} {nw : Nat → Int} {nodes : List Nat} {T : Nat}

/-- has not executed the body of `joinCluster` -/
def before : CPc → Bool
  | .jadd _ _ | .jstore _ | .fin1 | .fin2 | .done => false
  | _ => true

structure EInv (nw : Nat → Int) (nodes : List Nat) (s : ClSt) : Prop where
  bef : ∀ x, before (s.pc x) = true → s.cid x = x
  ne : ∀ x k r, s.pc x = .jadd k r → r ≠ x
  cw : ∀ r, s.cw r = nw r + s.memW nodes nw r
  con : s.contracted = nodes.countP fun x => decide (s.cid x ≠ x) && !isAdd (s.pc x)

theorem res_mono {s s' : ClSt} {u : Nat} {ok : Bool}
    (h : s.run lim nw u ok = some s') (hl : ∀ z, s'.res z = false) : ∀ z, s.res z = false := by
  unfold ClSt.run at h
  cases hpc : s.pc u with
  | jstore k =>
    cases k <;> (simp only [hpc, Option.some.injEq] at h; subst h)
    · exact hl
    · exact hl
    · have := hl u; simp at this
  | loadV =>
    cases hst : s.st (s.tgt u) <;> (simp only [hpc, hst, Option.some.injEq] at h; subst h; exact hl)
  | _ =>
    simp only [hpc] at h
    first
    | (cases h; done)
    | (split at h <;> (cases h; exact hl))
    | (cases h; exact hl)

theorem Reach.not_late {s : ClSt} (h : Reach lim nw nodes T s) (hr : ∀ z, s.res z = false) : s.late = false := by
  induction h with
  | init => rfl
  | start _ _ _ _ _ _ ih => exact ih hr
  | @run s s' u ok hreach hrun ih =>
    have ih := ih (res_mono hrun hr)
    have I := hreach.inv.1
    have hr0 := res_mono hrun hr
    unfold ClSt.run at hrun
    cases hpc : s.pc u with
    | jstore k => cases k <;> (simp only [hpc, Option.some.injEq] at hrun; subst hrun; exact ih)
    | loadV =>
      cases hst : s.st (s.tgt u) <;> (simp only [hpc, hst, Option.some.injEq] at hrun; subst hrun)
      · exact ih
      · exact ih
      · have : s.st u ≠ .matched := by
          intro hm
          obtain ⟨z, hz, _⟩ := I.byRes u (by rw [hpc]; rfl) (by simp [hpc]) hm
          rw [hr0 z] at hz; cases hz
        simp [ih, this]
    | _ =>
      simp only [hpc] at hrun
      first
      | (cases hrun; done)
      | (split at hrun <;> (cases hrun; exact ih))
      | (cases hrun; exact ih)

theorem EInv.simple {s s' : ClSt} (E : s.EInv nw nodes) (hnd : nodes.Nodup) {u : Nat} (hu : u ∈ nodes)
    {q : CPc} (hp : s'.pc = Function.update s.pc u q) (hc : s'.cid = s.cid) (hw : s'.cw = s.cw)
    (hcon : s'.contracted = s.contracted)
    (hadd : ∀ k r, q ≠ .jadd k r) (hia : isAdd (s.pc u) = false) (hb : before q = true → before (s.pc u) = true) :
    s'.EInv nw nodes := by
  have hpu : s'.pc u = q := by rw [hp]; exact Function.update_self ..
  have hpo : ∀ x, x ≠ u → s'.pc x = s.pc x := fun x hx => by rw [hp]; exact Function.update_of_ne hx ..
  have hiq : isAdd q = false := by cases q <;> first | rfl | exact absurd rfl (hadd _ _)
  constructor
  · intro x hx
    rw [hc]
    by_cases h : x = u
    · subst h; rw [hpu] at hx; exact E.bef x (hb hx)
    · rw [hpo x h] at hx; exact E.bef x hx
  · intro x k r h
    by_cases hx : x = u
    · subst hx; rw [hpu] at h; exact absurd h (hadd k r)
    · rw [hpo x hx] at h; exact E.ne x k r h
  · intro r
    rw [hw, E.cw r, memW_upd hnd hu (fun x _ => by rw [hc]) hpo r, hc, hpu, hiq, hia]
    omega
  · rw [hcon, E.con]
    apply List.countP_congr
    intro x _
    by_cases h : x = u
    · subst h; rw [hc, hpu, hiq, hia]
    · rw [hc, hpo x h]

theorem EInv.init : (ClSt.init nw).EInv nw nodes := by
  constructor
  · intro x _; rfl
  · intro x k r h; simp [ClSt.init] at h
  · intro r
    have : (ClSt.init nw).memW nodes nw r = 0 := by
      unfold memW
      have : (fun x => if x ≠ r ∧ (ClSt.init nw).cid x = r ∧ isAdd ((ClSt.init nw).pc x) = false then nw x else 0) = fun _ => (0 : Int) := by
        funext x; rw [if_neg]; rintro ⟨h1, h2, _⟩; exact h1 h2
      rw [this]; simp
    rw [this]; simp [ClSt.init]
  · simp [ClSt.init]

theorem before_afterJoin (k : JoinKind) : before (afterJoin k) = false := by cases k <;> rfl

set_option maxHeartbeats 1000000 in
theorem EInv.run {s s' : ClSt} (E : s.EInv nw nodes) (I : s.CInv) (R : s.RInv) (hnd : nodes.Nodup)
    (hmem : ∀ x, s.pc x ≠ .idle → x ∈ nodes) (haddc : ∀ x k r, s.pc x = .jadd k r → s.cid x = r) {u : Nat} {ok : Bool}
    (h : s.run lim nw u ok = some s') (hres : ∀ z, s'.res z = false) : s'.EInv nw nodes := by
  unfold ClSt.run at h
  have hmem := hmem u
  cases hpc : s.pc u with
  | idle | done | skip => simp [hpc] at h
  | jload k rep =>
    have hu := hmem (by simp [hpc])
    simp only [hpc, Option.some.injEq] at h
    subst h
    split
    · refine E.simple hnd hu rfl rfl rfl rfl ?_ ?_ ?_ <;> simp [hpc, isAdd, before]
    · refine E.simple hnd hu rfl rfl rfl rfl ?_ ?_ ?_
      · intro k' r; exact (afterJoin_ne k k' r).2.2
      · simp [hpc, isAdd]
      · simp [hpc, before]
  | jwrite k rep =>
    have hu := hmem (by simp [hpc])
    simp only [hpc, Option.some.injEq] at h
    subst h
    have hcu : s.cid u = u := E.bef u (by rw [hpc]; rfl)
    have hne : rep ≠ u := by
      by_cases hk : k = .rep
      · subst hk
        have h1 := (R.repM u rep (by simp [hpc])).2.1
        have h2 := R.busyI u (by rw [hpc]; rfl)
        intro h; rw [h, h2] at h1; cases h1
      · have := I.repH u k rep hk (by simp [hpc])
        rw [this]; exact I.tgt_ne u (by rw [hpc]; rfl)
    have hpo : ∀ x, x ≠ u → Function.update s.pc u (CPc.jadd k rep) x = s.pc x := fun x hx => Function.update_of_ne hx ..
    have hco : ∀ x, x ≠ u → Function.update s.cid u rep x = s.cid x := fun x hx => Function.update_of_ne hx ..
    constructor
    · intro x hx
      by_cases h : x = u
      · subst h; simp only [Function.update_self, before] at hx; cases hx
      · simp only [hpo x h] at hx
        simp only [hco x h]; exact E.bef x hx
    · intro x k' r h
      by_cases hx : x = u
      · subst hx; simp only [Function.update_self] at h; cases h; exact hne
      · simp only [hpo x hx] at h; exact E.ne x k' r h
    · intro r
      rw [memW_upd (s := s) hnd hu hco hpo r]
      show s.cw r = _
      rw [E.cw r]
      have : ¬ (u ≠ r ∧ s.cid u = r ∧ isAdd (s.pc u) = false) := by rintro ⟨h1, h2, _⟩; rw [hcu] at h2; exact h1 h2
      have e : isAdd (.jadd k rep) = true := rfl
      rw [if_neg this]
      simp only [Function.update_self, e]
      simp
    · show s.contracted = _
      rw [E.con]
      apply List.countP_congr
      intro x _
      by_cases h : x = u
      · subst h; simp [hcu, isAdd]
      · simp only [hco x h, hpo x h]
  | jadd k rep =>
    have hu := hmem (by simp [hpc])
    simp only [hpc, Option.some.injEq] at h
    subst h
    have hcu : s.cid u = rep := haddc u k rep hpc
    have hne : rep ≠ u := E.ne u k rep hpc
    have hpo : ∀ x, x ≠ u → Function.update s.pc u (afterJoin k) x = s.pc x := fun x hx => Function.update_of_ne hx ..
    constructor
    · intro x hx
      by_cases h : x = u
      · subst h; simp only [Function.update_self, before_afterJoin] at hx; cases hx
      · simp only [hpo x h] at hx
        exact E.bef x hx
    · intro x k' r h
      by_cases hx : x = u
      · subst hx; simp only [Function.update_self] at h; exact absurd h (afterJoin_ne k k' r).2.2
      · simp only [hpo x hx] at h; exact E.ne x k' r h
    · intro r
      rw [memW_upd (s := s) (s' := { s with cw := Function.update s.cw rep (s.cw rep + nw u), contracted := (s.contracted + 1), cnt := Function.update s.cnt u (s.cnt u + 1), pc := Function.update s.pc u (afterJoin k) })
        hnd hu (fun _ _ => rfl) hpo r]
      show Function.update s.cw rep (s.cw rep + nw u) r = _
      have h1 : ¬ (u ≠ r ∧ s.cid u = r ∧ isAdd (s.pc u) = false) := by rw [hpc]; simp [isAdd]
      rw [if_neg h1]
      simp only [Function.update_self, isAdd_afterJoin, hcu]
      by_cases hr : r = rep
      · subst hr
        rw [Function.update_self, if_pos ⟨fun h => hne h.symm, rfl, trivial⟩, E.cw r]; omega
      · rw [Function.update_of_ne hr, if_neg (fun h => hr h.2.1.symm), E.cw r]; omega
    · show s.contracted + 1 = _
      rw [E.con]
      have := countP_upd hnd hu (f := fun x => decide (s.cid x ≠ x) && !isAdd (s.pc x))
        (g := fun x => decide (s.cid x ≠ x) && !isAdd (Function.update s.pc u (afterJoin k) x))
        (fun v hv => by rw [hpo v hv])
      have e1 : (decide (s.cid u ≠ u) && !isAdd (s.pc u)) = false := by rw [hpc]; simp [isAdd]
      have e2 : (decide (s.cid u ≠ u) && !isAdd (Function.update s.pc u (afterJoin k) u)) = true := by
        rw [Function.update_self, isAdd_afterJoin, hcu]; simp [hne]
      rw [e1, e2] at this
      simpa using this.symm
  | jstore k =>
    have hu := hmem (by simp [hpc])
    cases k with
    | rep => exact (I.jst u hpc).elim
    | grab =>
      simp only [hpc, Option.some.injEq] at h
      subst h
      refine E.simple hnd hu rfl rfl rfl rfl ?_ ?_ ?_ <;> simp [hpc, isAdd, before]
    | cyc =>
      simp only [hpc, Option.some.injEq] at h
      subst h
      have := hres u; simp at this
  | weight | cas | store | loadV | casV | walk | check2 | loop | self | read | fin1 | fin2 =>
    have hu := hmem (by simp [hpc])
    simp only [hpc] at h
    first
    | (split at h <;> (cases h; refine E.simple hnd hu rfl rfl rfl rfl ?_ ?_ ?_ <;> simp [hpc, isAdd, before]))
    | (cases h; split <;> refine E.simple hnd hu rfl rfl rfl rfl ?_ ?_ ?_ <;> simp [hpc, isAdd, before])
    | (cases h; refine E.simple hnd hu rfl rfl rfl rfl ?_ ?_ ?_ <;> simp [hpc, isAdd, before])

theorem Reach.mem {s : ClSt} (h : Reach lim nw nodes T s) :
    (∀ x, s.pc x ≠ .idle → x ∈ nodes ∧ s.tgt x ∈ nodes) ∧ (∀ x k r, s.pc x = .jadd k r → s.cid x = r) := by
  induction h with
  | init => exact ⟨fun x hx => (hx rfl).elim, fun x k r h => by simp [ClSt.init] at h⟩
  | @start s u v _ hu hv _ hpc _ ih =>
    have hp : ∀ x, x ≠ u → (s.begin u v).pc x = s.pc x := fun x hx => Function.update_of_ne hx ..
    have ht : ∀ x, x ≠ u → (s.begin u v).tgt x = s.tgt x := fun x hx => Function.update_of_ne hx ..
    refine ⟨fun x hx => ?_, fun x k r h => ?_⟩
    · by_cases h : x = u
      · subst h; exact ⟨hu, by show Function.update s.tgt x v x ∈ nodes; rw [Function.update_self]; exact hv⟩
      · rw [hp x h] at hx; rw [ht x h]; exact ih.1 x hx
    · by_cases hx : x = u
      · subst hx
        have : (s.begin x v).pc x = .weight := Function.update_self ..
        rw [this] at h; cases h
      · rw [hp x hx] at h; exact ih.2 x k r h
  | @run s s' u ok hreach hrun ih =>
    have key : ∃ q, s'.pc = Function.update s.pc u q ∧ s'.tgt = s.tgt ∧
        ((s'.cid = s.cid ∧ ∀ k r, q ≠ .jadd k r) ∨ ∃ k r, q = .jadd k r ∧ s'.cid = Function.update s.cid u r) := by
      unfold ClSt.run at hrun
      cases hpc : s.pc u with
      | jstore k =>
        cases k <;> (simp only [hpc, Option.some.injEq] at hrun; subst hrun; exact ⟨_, rfl, rfl, .inl ⟨rfl, by simp⟩⟩)
      | loadV =>
        cases hst : s.st (s.tgt u) <;> (simp only [hpc, hst, Option.some.injEq] at hrun; subst hrun; exact ⟨_, rfl, rfl, .inl ⟨rfl, by simp⟩⟩)
      | jwrite k r =>
        simp only [hpc, Option.some.injEq] at hrun; subst hrun
        exact ⟨_, rfl, rfl, .inr ⟨k, r, rfl, rfl⟩⟩
      | jadd k r =>
        simp only [hpc, Option.some.injEq] at hrun; subst hrun
        exact ⟨_, rfl, rfl, .inl ⟨rfl, fun k' r' => (afterJoin_ne k k' r').2.2⟩⟩
      | jload k r =>
        simp only [hpc, Option.some.injEq] at hrun; subst hrun
        refine ⟨_, rfl, rfl, .inl ⟨rfl, fun k' r' => ?_⟩⟩
        split
        · simp
        · exact (afterJoin_ne k k' r').2.2
      | _ =>
        simp only [hpc] at hrun
        first
        | (cases hrun; done)
        | (split at hrun <;> (cases hrun; exact ⟨_, rfl, rfl, .inl ⟨rfl, by simp⟩⟩))
        | (cases hrun; exact ⟨_, rfl, rfl, .inl ⟨rfl, by intro k r; first | (split <;> simp) | simp⟩⟩)
    have hni : s.pc u ≠ .idle := by
      intro h; unfold ClSt.run at hrun; simp [h] at hrun
    obtain ⟨q, h1, h2, h3⟩ := key
    refine ⟨fun x hx => ?_, fun x k r h => ?_⟩
    · rw [h2]
      by_cases hxu : x = u
      · rw [hxu]; exact ih.1 u hni
      · rw [h1, Function.update_of_ne hxu] at hx; exact ih.1 x hx
    · by_cases hxu : x = u
      · subst hxu
        rw [h1, Function.update_self] at h
        rcases h3 with ⟨_, h3⟩ | ⟨k', r', h3, h4⟩
        · exact absurd h (h3 k r)
        · rw [h4, Function.update_self]; rw [h3] at h; cases h; rfl
      · rw [h1, Function.update_of_ne hxu] at h
        rcases h3 with ⟨h3, _⟩ | ⟨k', r', _, h4⟩
        · rw [h3]; exact ih.2 x k r h
        · rw [h4, Function.update_of_ne hxu]; exact ih.2 x k r h

/-- every step changes only the program counter of its process -/
theorem run_pc {s s' : ClSt} {u : Nat} {ok : Bool} (hrun : s.run lim nw u ok = some s') :
    (∀ x, x ≠ u → s'.pc x = s.pc x) ∧ active (s.pc u) = true ∧ s'.tgt = s.tgt := by
  unfold ClSt.run at hrun
  cases hpc : s.pc u with
  | jstore k =>
    cases k <;> (simp only [hpc, Option.some.injEq] at hrun; subst hrun; exact ⟨fun x hx => Function.update_of_ne hx .., rfl, rfl⟩)
  | loadV =>
    cases hst : s.st (s.tgt u) <;> (simp only [hpc, hst, Option.some.injEq] at hrun; subst hrun; exact ⟨fun x hx => Function.update_of_ne hx .., rfl, rfl⟩)
  | _ =>
    simp only [hpc] at hrun
    first
    | (cases hrun; done)
    | (split at hrun <;> (cases hrun; exact ⟨fun x hx => Function.update_of_ne hx .., rfl, rfl⟩))
    | (cases hrun; exact ⟨fun x hx => Function.update_of_ne hx .., rfl, rfl⟩)

theorem Reach.actLe {s : ClSt} (h : Reach lim nw nodes T s) (hnd : nodes.Nodup) : s.numActive nodes ≤ T := by
  induction h with
  | init =>
    have : (ClSt.init nw).numActive nodes = 0 := by
      unfold numActive; rw [List.countP_eq_zero]; intro x _; simp [ClSt.init, active]
    omega
  | @start s u v _ hu hv _ hpc ha ih =>
    have hp : ∀ x, x ≠ u → (s.begin u v).pc x = s.pc x := fun x hx => Function.update_of_ne hx ..
    have hpu : (s.begin u v).pc u = .weight := Function.update_self ..
    have := numActive_upd hnd hu hp
    rw [hpu, hpc] at this
    simp [active] at this
    omega
  | @run s s' u ok hreach hrun ih =>
    obtain ⟨hp, hact, _⟩ := run_pc hrun
    have hu := (hreach.mem.1 u (by intro h; rw [h] at hact; simp [active] at hact)).1
    have := numActive_upd hnd hu hp
    rw [hact] at this
    have : (active (s'.pc u)).toNat ≤ 1 := Bool.toNat_le _
    simp only [Bool.toNat_true] at *
    omega

theorem active_of_own {p : CPc} (h : own p = true) (hd : p ≠ .done) : active p = true := by
  cases p <;> simp_all [own, active]

/-- With a single thread no cyclic dependency can occur. -/
theorem Reach.single {s : ClSt} (h : Reach lim nw nodes 1 s) (hnd : nodes.Nodup) : ∀ z, s.res z = false := by
  induction h with
  | init => intro z; rfl
  | start _ _ _ _ _ _ ih => exact ih
  | @run s s' u ok hreach hrun ih =>
    have I := hreach.inv.1
    have hcon : ∀ z, inJ .cyc (s.pc z) = true → False := by
      intro z hz
      have hc := I.cycC z hz
      have h1 : active (s.pc z) = true := active_of_own (hc.allOwn 0) (by intro h; rw [h] at hz; simp [inJ] at hz)
      have h2 : active (s.pc (s.tgt z)) = true := active_of_own (hc.allOwn 1) (by
        intro h; have := I.target_waits hz; rw [h] at this; simp [inW] at this)
      have hne : s.tgt z ≠ z := I.tgt_ne z (hc.allOwn 0)
      have hm := hreach.mem.1 z (by intro h; rw [h] at h1; simp [active] at h1)
      have hle := hreach.actLe hnd
      have hsub : List.countP (fun x => decide (x = z) || decide (x = s.tgt z)) nodes ≤ s.numActive nodes := by
        apply List.countP_mono_left
        intro x _ hx
        simp only [Bool.or_eq_true, decide_eq_true_eq] at hx
        rcases hx with rfl | rfl
        · exact h1
        · exact h2
      have e1 := countP_upd hnd hm.1 (f := fun _ => false) (g := fun x => decide (x = z)) (fun v hv => by simp [hv])
      have e2 := countP_upd hnd hm.2 (f := fun x => decide (x = z)) (g := fun x => decide (x = z) || decide (x = s.tgt z))
        (fun v hv => by simp [hv])
      simp [hne] at e1 e2
      omega
    unfold ClSt.run at hrun
    cases hpc : s.pc u with
    | jstore k =>
      cases k
      · simp only [hpc, Option.some.injEq] at hrun; subst hrun; exact ih
      · simp only [hpc, Option.some.injEq] at hrun; subst hrun; exact ih
      · exact (hcon u (by rw [hpc]; rfl)).elim
    | loadV =>
      cases hst : s.st (s.tgt u) <;> (simp only [hpc, hst, Option.some.injEq] at hrun; subst hrun; exact ih)
    | _ =>
      simp only [hpc] at hrun
      first
      | (cases hrun; done)
      | (split at hrun <;> (cases hrun; exact ih))
      | (cases hrun; exact ih)

theorem Reach.einv {s : ClSt} (h : Reach lim nw nodes T s) (hnd : nodes.Nodup) (hr : ∀ z, s.res z = false) : s.EInv nw nodes := by
  induction h with
  | init => exact .init
  | @start s u v _ hu _ _ hpc _ ih =>
    refine (ih hr).simple hnd hu (q := .weight) rfl rfl rfl rfl ?_ ?_ ?_ <;> simp [hpc, isAdd, before]
  | run hreach hrun ih =>
    have hr0 := res_mono hrun hr
    exact (ih hr0).run hreach.inv.1 (hreach.inv.2 (hreach.not_late hr0)) hnd (fun x hx => (hreach.mem.1 x hx).1) hreach.mem.2 hrun hr

end ClSt
end Verif
