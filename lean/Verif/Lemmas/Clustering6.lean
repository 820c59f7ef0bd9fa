import Verif.Lemmas.Clustering5
import Verif.Lemmas.Concurrent
import Mathlib.Tactic.Linarith
/-! Weights of clusters -/
namespace Verif
namespace ClSt

/-- decided to join cluster `r` but not yet added to its weight -/
def pend (r : Nat) : CPc → Bool
  | .jwrite _ r' | .jadd _ r' => decide (r' = r)
  | _ => false

def isAdd : CPc → Bool
  | .jadd _ _ => true
  | _ => false

def pendW (nodes : List Nat) (nw : Nat → Int) (s : ClSt) (r : Nat) : Int :=
  (nodes.map fun x => if pend r (s.pc x) = true then nw x else 0).sum

def memW (nodes : List Nat) (nw : Nat → Int) (s : ClSt) (r : Nat) : Int :=
  (nodes.map fun x => if x ≠ r ∧ s.cid x = r ∧ isAdd (s.pc x) = false then nw x else 0).sum

structure WInv (lim : Int) (nw : Nat → Int) (nodes : List Nat) (T : Nat) (wmax : Int) (s : ClSt) : Prop where
  mem : ∀ x, s.pc x ≠ .idle → x ∈ nodes ∧ s.tgt x ∈ nodes
  cidm : ∀ x ∈ nodes, s.cid x ∈ nodes
  act : s.numActive nodes ≤ T
  addc : ∀ x k r, s.pc x = .jadd k r → s.cid x = r
  reps : ∀ x k r, s.pc x = .jload k r ∨ s.pc x = .jwrite k r ∨ s.pc x = .jadd k r → r ∈ nodes
  low : ∀ r, nw r + s.memW nodes nw r ≤ s.cw r
  up : ∀ r, s.cw r + s.pendW nodes nw r ≤ max (nw r) (lim + ((T : Int) - 1) * wmax)

theorem active_of_pend {r : Nat} {p : CPc} (h : pend r p = true) : active p = true := by
  cases p <;> simp_all [pend, active]

theorem countP_upd {nodes : List Nat} (hn : nodes.Nodup) {u : Nat} (hu : u ∈ nodes) {f g : Nat → Bool}
    (h : ∀ v, v ≠ u → g v = f v) :
    nodes.countP g + (f u).toNat = nodes.countP f + (g u).toNat := by
  induction nodes with
  | nil => simp at hu
  | cons a l ih =>
    rw [List.nodup_cons] at hn
    rw [List.countP_cons, List.countP_cons]
    by_cases ha : a = u
    · subst ha
      have : l.countP g = l.countP f := List.countP_congr (fun v hv => by
        rw [h v (fun hh => hn.1 (hh ▸ hv))])
      rw [this]
      cases f a <;> cases g a <;> simp
    · have hm : u ∈ l := by
        rcases List.mem_cons.1 hu with h1 | h1
        · exact absurd h1.symm ha
        · exact h1
      have := ih hn.2 hm
      rw [h a ha]
      omega

/-- pending weight of the other active processes -/
theorem pendW_le {nodes : List Nat} (hnd : nodes.Nodup) {nw : Nat → Int} {wmax : Int} (hw : ∀ x ∈ nodes, nw x ≤ wmax)
    (h0 : 0 ≤ wmax) {T : Nat} {s : ClSt} (ha : s.numActive nodes ≤ T) {u : Nat} (hu : u ∈ nodes)
    (hau : active (s.pc u) = true) {r : Nat} (hpu : pend r (s.pc u) = false) :
    s.pendW nodes nw r ≤ ((T : Int) - 1) * wmax := by
  have key : ∀ l : List Nat, (∀ x ∈ l, x ∈ nodes) →
      (l.map fun x => if pend r (s.pc x) = true then nw x else 0).sum ≤
        (l.countP fun x => pend r (s.pc x) : Nat) * wmax := by
    intro l
    induction l with
    | nil => intro _; simp
    | cons a l ih =>
      intro hl
      rw [List.map_cons, List.sum_cons, List.countP_cons]
      have h1 := ih (fun x hx => hl x (by simp [hx]))
      have h2 := hw a (hl a (by simp))
      by_cases hp : pend r (s.pc a) = true
      · rw [if_pos hp, if_pos hp]; push_cast; nlinarith
      · rw [if_neg hp, if_neg hp]; push_cast; linarith
  have hlt : (nodes.countP fun x => pend r (s.pc x)) + 1 ≤ s.numActive nodes := by
    have := countP_upd hnd hu (f := fun x => pend r (s.pc x)) (g := fun x => if x = u then true else pend r (s.pc x))
      (fun v hv => by simp [hv])
    simp only [hpu, if_true, Bool.toNat_false, Bool.toNat_true] at this
    have h2 : (nodes.countP fun x => if x = u then true else pend r (s.pc x)) ≤ s.numActive nodes := by
      apply List.countP_mono_left
      intro x _ hx
      by_cases hxu : x = u
      · rw [hxu]; exact hau
      · simp only [hxu, if_false] at hx; exact active_of_pend hx
    omega
  refine le_trans (key nodes (fun _ h => h)) ?_
  have : ((nodes.countP fun x => pend r (s.pc x) : Nat) : Int) ≤ (T : Int) - 1 := by omega
  nlinarith

theorem memW_upd {nodes : List Nat} (hnd : nodes.Nodup) {nw : Nat → Int} {s s' : ClSt} {u : Nat} (hu : u ∈ nodes)
    (hc : ∀ x, x ≠ u → s'.cid x = s.cid x) (hp : ∀ x, x ≠ u → s'.pc x = s.pc x) (r : Nat) :
    s'.memW nodes nw r = s.memW nodes nw r +
      ((if u ≠ r ∧ s'.cid u = r ∧ isAdd (s'.pc u) = false then nw u else 0) -
       (if u ≠ r ∧ s.cid u = r ∧ isAdd (s.pc u) = false then nw u else 0)) :=
  sum_map_upd hnd hu (fun v hv => by rw [hc v hv, hp v hv])

theorem pendW_upd {nodes : List Nat} (hnd : nodes.Nodup) {nw : Nat → Int} {s s' : ClSt} {u : Nat} (hu : u ∈ nodes)
    (hp : ∀ x, x ≠ u → s'.pc x = s.pc x) (r : Nat) :
    s'.pendW nodes nw r = s.pendW nodes nw r +
      ((if pend r (s'.pc u) = true then nw u else 0) - (if pend r (s.pc u) = true then nw u else 0)) :=
  sum_map_upd hnd hu (fun v hv => by rw [hp v hv])

theorem numActive_upd {nodes : List Nat} (hnd : nodes.Nodup) {s s' : ClSt} {u : Nat} (hu : u ∈ nodes)
    (hp : ∀ x, x ≠ u → s'.pc x = s.pc x) :
    s'.numActive nodes + (active (s.pc u)).toNat = s.numActive nodes + (active (s'.pc u)).toNat :=
  countP_upd hnd hu (f := fun x => active (s.pc x)) (g := fun x => active (s'.pc x)) (fun v hv => by rw [hp v hv])

variable {lim : Int} {nw : Nat → Int} {nodes : List Nat} {T : Nat} {wmax : Int}

/-- a step of the process of `u`, seen from the weights -/
theorem WInv.step {s s' : ClSt} (W : s.WInv lim nw nodes T wmax) (hnd : nodes.Nodup) (hnw : ∀ x ∈ nodes, 0 ≤ nw x) {u : Nat} (hu : u ∈ nodes)
    (hact : active (s.pc u) = true) (ht : s'.tgt = s.tgt)
    (hp : ∀ x, x ≠ u → s'.pc x = s.pc x) (hc : ∀ x, x ≠ u → s'.cid x = s.cid x) (hcm : s'.cid u ∈ nodes)
    (hadd : ∀ k r, s'.pc u = .jadd k r → s'.cid u = r)
    (hreps : ∀ k r, s'.pc u = .jload k r ∨ s'.pc u = .jwrite k r ∨ s'.pc u = .jadd k r → r ∈ nodes)
    (hlow : ∀ r, s.cw r + (if u ≠ r ∧ s'.cid u = r ∧ isAdd (s'.pc u) = false then nw u else 0) ≤ s'.cw r +
       (if u ≠ r ∧ s.cid u = r ∧ isAdd (s.pc u) = false then nw u else 0))
    (hup : ∀ r, s'.cw r + (if pend r (s'.pc u) = true then nw u else 0) ≤
        s.cw r + (if pend r (s.pc u) = true then nw u else 0) ∨
      s'.cw r + s'.pendW nodes nw r ≤ lim + ((T : Int) - 1) * wmax) : s'.WInv lim nw nodes T wmax := by
  have hsplit : ∀ x, x = u ∨ s'.pc x = s.pc x := fun x => by
    by_cases h : x = u
    · exact .inl h
    · exact .inr (hp x h)
  constructor
  · intro x hx
    rw [ht]
    rcases hsplit x with h | h
    · rw [h]; refine ⟨hu, (W.mem u ?_).2⟩
      intro hi; rw [hi] at hact; simp [active] at hact
    · rw [h] at hx; exact W.mem x hx
  · intro x hx
    by_cases h : x = u
    · rw [h]; exact hcm
    · rw [hc x h]; exact W.cidm x hx
  · have := numActive_upd hnd hu hp
    have h2 := W.act
    rw [hact] at this
    have : (active (s'.pc u)).toNat ≤ 1 := Bool.toNat_le _
    simp only [Bool.toNat_true] at *
    omega
  · intro x k r h
    by_cases hx : x = u
    · rw [hx] at h ⊢; exact hadd k r h
    · rw [hp x hx] at h; rw [hc x hx]; exact W.addc x k r h
  · intro x k r h
    by_cases hx : x = u
    · rw [hx] at h; exact hreps k r h
    · rw [hp x hx] at h; exact W.reps x k r h
  · intro r
    rw [memW_upd hnd hu hc hp r]
    have h1 := hlow r
    have h2 := W.low r
    omega
  · intro r
    have h2 := W.up r
    rcases hup r with h | h
    · rw [pendW_upd hnd hu hp r]; omega
    · exact le_trans h (le_max_right _ _)

theorem WInv.init (hT : 1 ≤ T) (h0 : 0 ≤ wmax) : (ClSt.init nw).WInv lim nw nodes T wmax := by
  constructor
  · intro x hx; exact (hx rfl).elim
  · intro x hx; exact hx
  · have : (ClSt.init nw).numActive nodes = 0 := by
      unfold numActive; rw [List.countP_eq_zero]; intro x _; simp [ClSt.init, active]
    omega
  · intro x k r h; simp [ClSt.init] at h
  · intro x k r h; simp [ClSt.init] at h
  · intro r
    have : (ClSt.init nw).memW nodes nw r = 0 := by
      unfold memW
      have : (fun x => if x ≠ r ∧ (ClSt.init nw).cid x = r ∧ isAdd ((ClSt.init nw).pc x) = false then nw x else 0) = fun _ => (0 : Int) := by
        funext x; rw [if_neg]; rintro ⟨h1, h2, _⟩; exact h1 h2
      rw [this]; simp
    rw [this]; simp [ClSt.init]
  · intro r
    have : (ClSt.init nw).pendW nodes nw r = 0 := by
      unfold pendW; simp [ClSt.init, pend]
    rw [this]
    simp [ClSt.init]

theorem WInv.beginStep {s : ClSt} (W : s.WInv lim nw nodes T wmax) (hnd : nodes.Nodup) {u v : Nat} (hu : u ∈ nodes) (hv : v ∈ nodes)
    (hpc : s.pc u = .idle) (ha : s.numActive nodes < T) : (s.begin u v).WInv lim nw nodes T wmax := by
  have hp : ∀ x, x ≠ u → (s.begin u v).pc x = s.pc x := fun x hx => Function.update_of_ne hx ..
  have hpu : (s.begin u v).pc u = .weight := Function.update_self ..
  have hc : (s.begin u v).cid = s.cid := rfl
  constructor
  · intro x hx
    by_cases h : x = u
    · subst h; exact ⟨hu, by show Function.update s.tgt x v x ∈ nodes; rw [Function.update_self]; exact hv⟩
    · rw [hp x h] at hx
      refine ⟨(W.mem x hx).1, ?_⟩
      show Function.update s.tgt u v x ∈ nodes
      rw [Function.update_of_ne h]; exact (W.mem x hx).2
  · exact W.cidm
  · have := numActive_upd hnd hu hp
    rw [hpu, hpc] at this
    simp [active] at this
    omega
  · intro x k r h
    by_cases hx : x = u
    · rw [hx, hpu] at h; cases h
    · rw [hp x hx] at h; exact W.addc x k r h
  · intro x k r h
    by_cases hx : x = u
    · rw [hx, hpu] at h; simp at h
    · rw [hp x hx] at h; exact W.reps x k r h
  · intro r
    rw [memW_upd hnd hu (fun x _ => by rw [hc]) hp r, hpu, hpc, hc]
    have := W.low r
    have hcw : (s.begin u v).cw = s.cw := rfl
    rw [hcw]
    simpa [isAdd] using this
  · intro r
    rw [pendW_upd hnd hu hp r, hpu, hpc]
    have hcw : (s.begin u v).cw = s.cw := rfl
    rw [hcw]
    simpa [pend] using W.up r

theorem isAdd_afterJoin (k : JoinKind) : isAdd (afterJoin k) = false := by cases k <;> rfl
theorem pend_afterJoin (k : JoinKind) (r : Nat) : pend r (afterJoin k) = false := by cases k <;> rfl
theorem afterJoin_ne (k k' : JoinKind) (r : Nat) :
    afterJoin k ≠ .jload k' r ∧ afterJoin k ≠ .jwrite k' r ∧ afterJoin k ≠ .jadd k' r := by cases k <;> simp [afterJoin]

/-- steps that touch neither weights nor cluster ids -/
theorem WInv.simple {s s' : ClSt} (W : s.WInv lim nw nodes T wmax) (hnd : nodes.Nodup) (hnw : ∀ x ∈ nodes, 0 ≤ nw x) {u : Nat}
    {q : CPc} (hact : active (s.pc u) = true) (ht : s'.tgt = s.tgt)
    (hp : s'.pc = Function.update s.pc u q) (hc : s'.cid = s.cid) (hw : s'.cw = s.cw)
    (hadd : ∀ k r, q ≠ .jadd k r)
    (hreps : ∀ k r, q = .jload k r ∨ q = .jwrite k r ∨ q = .jadd k r → r ∈ nodes)
    (hia : isAdd (s.pc u) = false)
    (hpe : ∀ r, pend r q = true → pend r (s.pc u) = true ∨
      s.cw r + nw u ≤ lim ∧ s.pendW nodes nw r ≤ ((T : Int) - 1) * wmax ∧ pend r (s.pc u) = false) : s'.WInv lim nw nodes T wmax := by
  have hu : u ∈ nodes := (W.mem u (by intro hi; rw [hi] at hact; simp [active] at hact)).1
  have hpu : s'.pc u = q := by rw [hp]; exact Function.update_self ..
  have hpo : ∀ x, x ≠ u → s'.pc x = s.pc x := fun x hx => by rw [hp]; exact Function.update_of_ne hx ..
  have hiq : isAdd q = false := by cases q <;> first | rfl | exact absurd rfl (hadd _ _)
  have hnu := hnw u hu
  refine W.step hnd hnw hu hact ht hpo (fun x _ => by rw [hc]) (by rw [hc]; exact W.cidm u hu) ?_ ?_ ?_ ?_
  · intro k r h; rw [hpu] at h; exact absurd h (hadd k r)
  · intro k r h; rw [hpu] at h; exact hreps k r h
  · intro r; rw [hc, hw, hpu, hia, hiq]
  · intro r
    rw [hw]
    by_cases hq : pend r q = true
    · rcases hpe r hq with h | ⟨h1, h2, h3⟩
      · left; rw [hpu, if_pos hq, if_pos h]
      · right
        rw [pendW_upd hnd hu hpo r, hpu, if_pos hq, h3]
        simp; linarith
    · left; rw [hpu, if_neg hq]; split <;> omega

set_option maxHeartbeats 1000000 in
theorem WInv.run {s s' : ClSt} (W : s.WInv lim nw nodes T wmax) (I : s.CInv) (hnd : nodes.Nodup) (hnw : ∀ x ∈ nodes, 0 ≤ nw x)
    (hmax : ∀ x ∈ nodes, nw x ≤ wmax) (h0 : 0 ≤ wmax) {u : Nat} {ok : Bool}
    (h : s.run lim nw u ok = some s') : s'.WInv lim nw nodes T wmax := by
  unfold ClSt.run at h
  have hreps := W.reps u
  have hmem := W.mem u
  cases hpc : s.pc u with
  | idle | done | skip => simp [hpc] at h
  | weight =>
    simp only [hpc, Option.some.injEq] at h
    subst h
    split <;> refine W.simple hnd hnw (u := u) (by rw [hpc]; rfl) rfl rfl rfl rfl ?_ ?_ ?_ ?_ <;> simp [hpc, isAdd, pend]
  | cas =>
    simp only [hpc] at h
    split at h <;> cases h <;> refine W.simple hnd hnw (u := u) (by rw [hpc]; rfl) rfl rfl rfl rfl ?_ ?_ ?_ ?_ <;> simp [hpc, isAdd, pend]
  | store =>
    simp only [hpc, Option.some.injEq] at h
    subst h
    refine W.simple hnd hnw (u := u) (by rw [hpc]; rfl) rfl rfl rfl rfl ?_ ?_ ?_ ?_ <;> simp [hpc, isAdd, pend]
  | loadV =>
    simp only [hpc] at h
    split at h <;> cases h <;> refine W.simple hnd hnw (u := u) (by rw [hpc]; rfl) rfl rfl rfl rfl ?_ ?_ ?_ ?_ <;> simp [hpc, isAdd, pend]
  | casV =>
    simp only [hpc] at h
    have := (hmem (by simp [hpc])).2
    split at h <;> cases h <;> refine W.simple hnd hnw (u := u) (by rw [hpc]; rfl) rfl rfl rfl rfl ?_ ?_ ?_ ?_ <;> simp [hpc, isAdd, pend, this]
  | walk c m =>
    simp only [hpc] at h
    split at h <;> cases h <;> refine W.simple hnd hnw (u := u) (by rw [hpc]; rfl) rfl rfl rfl rfl ?_ ?_ ?_ ?_ <;> simp [hpc, isAdd, pend]
  | check2 c m =>
    simp only [hpc] at h
    have := (hmem (by simp [hpc])).2
    split at h <;> cases h <;> refine W.simple hnd hnw (u := u) (by rw [hpc]; rfl) rfl rfl rfl rfl ?_ ?_ ?_ ?_ <;> simp [hpc, isAdd, pend, this]
  | loop =>
    simp only [hpc, Option.some.injEq] at h
    subst h
    split <;> refine W.simple hnd hnw (u := u) (by rw [hpc]; rfl) rfl rfl rfl rfl ?_ ?_ ?_ ?_ <;> simp [hpc, isAdd, pend]
  | self =>
    simp only [hpc, Option.some.injEq] at h
    subst h
    split <;> refine W.simple hnd hnw (u := u) (by rw [hpc]; rfl) rfl rfl rfl rfl ?_ ?_ ?_ ?_ <;> simp [hpc, isAdd, pend]
  | read =>
    simp only [hpc, Option.some.injEq] at h
    have := W.cidm _ (hmem (by simp [hpc])).2
    subst h
    refine W.simple hnd hnw (u := u) (by rw [hpc]; rfl) rfl rfl rfl rfl ?_ ?_ ?_ ?_ <;> simp [hpc, isAdd, pend, this]
  | jload k rep =>
    simp only [hpc, Option.some.injEq] at h
    have hr := hreps k rep (by simp [hpc])
    have hu := (hmem (by simp [hpc])).1
    subst h
    split
    · rename_i hle
      refine W.simple hnd hnw (u := u) (by rw [hpc]; rfl) rfl rfl rfl rfl ?_ ?_ ?_ ?_
      · simp
      · rintro k' r (h | h | h) <;> cases h; exact hr
      · rw [hpc]; rfl
      · intro r hp
        have : rep = r := by simpa [pend] using hp
        subst this
        right
        refine ⟨by omega, pendW_le hnd hmax h0 W.act hu (by rw [hpc]; rfl) (by rw [hpc]; rfl), by rw [hpc]; rfl⟩
    · refine W.simple hnd hnw (u := u) (by rw [hpc]; rfl) rfl rfl rfl rfl ?_ ?_ ?_ ?_
      · intro k' r; exact (afterJoin_ne k k' r).2.2
      · intro k' r h
        have := afterJoin_ne k k' r
        rcases h with h | h | h
        · exact (this.1 h).elim
        · exact (this.2.1 h).elim
        · exact (this.2.2 h).elim
      · rw [hpc]; rfl
      · intro r h; rw [pend_afterJoin] at h; cases h
  | jwrite k rep =>
    simp only [hpc, Option.some.injEq] at h
    have hr := hreps k rep (by simp [hpc])
    have hu := (hmem (by simp [hpc])).1
    have hnu := hnw u hu
    subst h
    refine W.step hnd hnw hu (by rw [hpc]; rfl) rfl (fun x hx => Function.update_of_ne hx ..) (fun x hx => Function.update_of_ne hx ..) ?_ ?_ ?_ ?_ ?_
    · show Function.update s.cid u rep u ∈ nodes
      rw [Function.update_self]; exact hr
    · intro k' r h
      have h : Function.update s.pc u (.jadd k rep) u = .jadd k' r := h
      rw [Function.update_self] at h
      show Function.update s.cid u rep u = r
      rw [Function.update_self]
      cases h; rfl
    · intro k' r h
      simp only [Function.update_self] at h
      rcases h with h | h | h <;> cases h
      exact hr
    · intro r
      have e : isAdd (.jadd k rep) = true := rfl
      simp only [Function.update_self, e]
      simp
      split <;> omega
    · intro r
      left
      simp only [Function.update_self, pend, hpc]
      omega
  | jadd k rep =>
    simp only [hpc, Option.some.injEq] at h
    have hr := hreps k rep (by simp [hpc])
    have hu := (hmem (by simp [hpc])).1
    have hnu := hnw u hu
    have hcu := W.addc u k rep hpc
    subst h
    refine W.step hnd hnw hu (by rw [hpc]; rfl) rfl (fun x hx => Function.update_of_ne hx ..) (fun x _ => rfl) ?_ ?_ ?_ ?_ ?_
    · exact W.cidm u hu
    · intro k' r h
      simp only [Function.update_self] at h
      exact absurd h (afterJoin_ne k k' r).2.2
    · intro k' r h
      simp only [Function.update_self] at h
      have := afterJoin_ne k k' r
      rcases h with h | h | h
      · exact (this.1 h).elim
      · exact (this.2.1 h).elim
      · exact (this.2.2 h).elim
    · intro r
      simp only [Function.update_self, isAdd_afterJoin, hpc, isAdd, Function.update_apply, hcu]
      by_cases hrr : r = rep
      · subst hrr; simp; split <;> omega
      · have : ¬ rep = r := fun h => hrr h.symm
        simp [hrr, this]
    · intro r
      left
      simp only [Function.update_self, pend_afterJoin]
      rw [hpc]
      simp only [pend, Function.update_apply]
      by_cases hrr : r = rep
      · subst hrr; simp
      · have : ¬ rep = r := fun h => hrr h.symm
        simp [hrr, this]
  | jstore k =>
    cases k with
    | rep => exact (I.jst u hpc).elim
    | grab =>
      simp only [hpc, Option.some.injEq] at h
      subst h
      refine W.simple hnd hnw (u := u) (by rw [hpc]; rfl) rfl rfl rfl rfl ?_ ?_ ?_ ?_ <;> simp [hpc, isAdd, pend]
    | cyc =>
      simp only [hpc, Option.some.injEq] at h
      subst h
      refine W.simple hnd hnw (u := u) (by rw [hpc]; rfl) rfl rfl rfl rfl ?_ ?_ ?_ ?_ <;> simp [hpc, isAdd, pend]
  | fin1 =>
    simp only [hpc, Option.some.injEq] at h
    subst h
    refine W.simple hnd hnw (u := u) (by rw [hpc]; rfl) rfl rfl rfl rfl ?_ ?_ ?_ ?_ <;> simp [hpc, isAdd, pend]
  | fin2 =>
    simp only [hpc, Option.some.injEq] at h
    subst h
    refine W.simple hnd hnw (u := u) (by rw [hpc]; rfl) rfl rfl rfl rfl ?_ ?_ ?_ ?_ <;> simp [hpc, isAdd, pend]

theorem Reach.winv {s : ClSt} (h : Reach lim nw nodes T s) (hnd : nodes.Nodup) (hnw : ∀ x ∈ nodes, 0 ≤ nw x)
    (hmax : ∀ x ∈ nodes, nw x ≤ wmax) (h0 : 0 ≤ wmax) (hT : 1 ≤ T) : s.WInv lim nw nodes T wmax := by
  induction h with
  | init => exact .init hT h0
  | start _ hu hv _ hpc ha ih => exact ih.beginStep hnd hu hv hpc ha
  | run hr hrun ih => exact ih.run hr.inv.1 hnd hnw hmax h0 hrun

end ClSt
end Verif
