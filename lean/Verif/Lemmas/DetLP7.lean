import Verif.Lemmas.DetLP6
/-! # Rounds of the deterministic label propagation: effect, determinism, existence -/
namespace Verif
namespace DetLP
open CSt Rollback PHG

variable {Γ σ : Type} {C : ConInfo σ} {m mx : Nat} {c : Cfg Γ}

theorem subRounds_spec {L : C.Lawful m c.k mx} (E : Env c m mx) {rd n : Nat} {G : List (List Nat)} {x x' : St σ} {g : Int} {rev : Bool}
    (h : SubRounds C c rd G x x' g rev n) (hn : ∀ us ∈ G, us.Nodup) (hG : Good L c.H x.s) : Eff (c := c) L rd (Free c) x x' g := by
  induction h with
  | nil x => exact Eff.refl hG
  | cons us G x x1 x2 g g' rev rev' n n' h ht ih =>
    have h1 := subRound_spec E (hn us (by simp)) hG h
    exact h1.trans (ih (fun u hu => hn u (by simp [hu])) h1.good)

theorem subRounds_det {L : C.Lawful m c.k mx} (E : Env c m mx) {rd n n' : Nat} {G : List (List Nat)} {x x' y y' : St σ} {g g' : Int} {rev rev' : Bool}
    (h : SubRounds C c rd G x x' g rev n) (hn : ∀ us ∈ G, us.Nodup) (hG : Good L c.H x.s) (hG' : Good L c.H y.s) (he : Eqv x y)
    (h' : SubRounds C c rd G y y' g' rev' n') : Eqv x' y' ∧ g = g' ∧ rev = rev' ∧ n = n' := by
  induction h generalizing y y' g' rev' n' with
  | nil x => cases h'; exact ⟨he, rfl, rfl, rfl⟩
  | cons us G x x1 x2 g g1 rev rev1 n n1 h ht ih =>
    cases h' with
    | cons _ _ _ y1 y2 g2 g3 rev2 rev3 n2 n3 h2 ht2 =>
      obtain ⟨r1, r2, r3, r4⟩ := subRound_det E (hn us (by simp)) hG hG' he h h2
      obtain ⟨s1, s2, s3, s4⟩ := ih (fun u hu => hn u (by simp [hu])) (subRound_spec E (hn us (by simp)) hG h).good
        (subRound_spec E (hn us (by simp)) hG' h2).good r1 ht2
      exact ⟨s1, by rw [r2, s2], by rw [r3, s3], by rw [r4, s4]⟩

theorem subRounds_exists {L : C.Lawful m c.k mx} (E : Env c m mx) {rd : Nat} : ∀ (G : List (List Nat)) {x : St σ}, (∀ us ∈ G, us.Nodup) → Good L c.H x.s →
    ∃ x' g rev n, SubRounds C c rd G x x' g rev n := by
  intro G
  induction G with
  | nil => intro x _ _; exact ⟨x, 0, false, 0, .nil x⟩
  | cons us G ih =>
    intro x hn hG
    obtain ⟨x1, g, rev, n, h⟩ := subRound_exists (rd := rd) E (hn us (by simp)) hG
    obtain ⟨x2, g', rev', n', h'⟩ := ih (fun u hu => hn u (by simp [hu])) (subRound_spec E (hn us (by simp)) hG h).good
    exact ⟨x2, _, _, _, .cons us G x x1 x2 g g' rev rev' n n' h h'⟩

theorem groups_nodup {P : List Nat × (Nat → Nat)} (h : P.1.Nodup) (num : Nat) : ∀ us ∈ groups P num, us.Nodup := by
  intro us hus
  unfold groups at hus
  obtain ⟨i, _, rfl⟩ := List.mem_map.1 hus
  exact h.sublist ((List.take_sublist _ _).trans (List.drop_sublist _ _))

/-- what a round guarantees -/
structure Res (L : C.Lawful m c.k mx) (x x' : St σ) (g : Int) : Prop where
  good : Good L c.H x'.s
  gain : g = c.H.objective x.s.part c.o - c.H.objective x'.s.part c.o
  nonneg : 0 ≤ g
  moved : ∀ v, ¬ Free c v → x'.s.part v = x.s.part v
  bal : (∀ b < c.k, c.maxw b < 2 ^ 31) → Balanced c x.s.part → Balanced c x'.s.part

theorem Res.trans {L : C.Lawful m c.k mx} {x y z : St σ} {g g' : Int} (h : Res (c := c) L x y g) (h' : Res (c := c) L y z g') : Res (c := c) L x z (g + g') :=
  ⟨h'.good, by rw [h.gain, h'.gain]; omega, by have := h.nonneg; have := h'.nonneg; omega, fun v hv => (h'.moved v hv).trans (h.moved v hv),
    fun h0 hb => h'.bal h0 (h.bal h0 hb)⟩

theorem bump_s (l : LSt σ Γ) : (bump c l).x.s = l.x.s := by
  unfold bump; split_ifs <;> rfl

theorem bump_rng (l : LSt σ Γ) : (bump c l).rng = l.rng := by
  unfold bump; split_ifs <;> rfl

theorem bump_act (l : LSt σ Γ) : (bump c l).x.a.act = l.x.a.act := by
  unfold bump; split_ifs <;> rfl

theorem Eff.res {L : C.Lawful m c.k mx} {rd : Nat} {x x1 x' : St σ} {g : Int} (h : Eff (c := c) L rd (Free c) x1 x' g) (hs : x1.s = x.s) : Res (c := c) L x x' g := by
  obtain ⟨h1, h2, h3, h4, h5, _⟩ := h
  rw [hs] at h2 h4 h5
  exact ⟨h1, h2, h3, h4, h5⟩

/-- the active nodes are different (they are not used in the first iteration) -/
def ActOk (first : Bool) (l : LSt σ Γ) : Prop := first = true ∨ l.x.a.act.Nodup

theorem act_nodup {first : Bool} {l : LSt σ Γ} (h : ActOk first l) (hc : ¬ (c.useActive = false ∨ first = true ∨ l.x.a.act = [])) {act : List Nat} (hp : act.Perm l.x.a.act) :
    act.Nodup := by
  rcases h with h | h
  · exact absurd (Or.inr (Or.inl h)) hc
  · exact hp.nodup_iff.2 h

theorem anod_nil (rd : Nat) (f g : Nat → Nat) : ANod rd ⟨f, g, []⟩ := ⟨List.nodup_nil, fun v hv => by simp at hv⟩

theorem round_spec {L : C.Lawful m c.k mx} (E : Env c m mx) {first : Bool} {num n : Nat} {l l' : LSt σ Γ} {g : Int} {rev : Bool}
    (h : Round C c first num l l' g rev n) (ha : ActOk first l) (hG : Good L c.H l.x.s) :
    Res (c := c) L l.x l'.x g ∧ l'.x.a.act.Nodup := by
  cases h with
  | all x' g rev n h hs =>
    have := subRounds_spec (L := L) E hs (groups_nodup (E.permAll l.rng) num) (by rw [bump_s]; exact hG)
    exact ⟨this.res (bump_s l), (this.nod (anod_nil _ _ _)).1⟩
  | active act x' g rev n h hp ho hs =>
    have := subRounds_spec (L := L) E hs (groups_nodup (E.permAct l.rng act (act_nodup ha h hp)) num) (by rw [bump_s]; exact hG)
    exact ⟨this.res (bump_s l), (this.nod (anod_nil _ _ _)).1⟩

/-- same partition, same data of the active nodes, same round number and random state -/
structure LEqv (l l' : LSt σ Γ) : Prop where
  x : Eqv l.x l'.x
  round : l.round = l'.round
  rng : l.rng = l'.rng

theorem LEqv.bump {l l' : LSt σ Γ} (h : LEqv l l') : LEqv (bump c l) (bump c l') := by
  unfold DetLP.bump
  rw [h.round]
  split_ifs
  · exact ⟨⟨h.x.part, h.x.wt, ⟨rfl, rfl, h.x.a.act⟩⟩, rfl, h.rng⟩
  · exact ⟨h.x, rfl, h.rng⟩
  · exact h

theorem Eqv.clear {x y : St σ} (h : Eqv x y) : Eqv { x with a := { x.a with act := [] } } { y with a := { y.a with act := [] } } :=
  ⟨h.part, h.wt, ⟨h.a.lmN, h.a.lmE, List.Perm.refl _⟩⟩

theorem round_det {L : C.Lawful m c.k mx} (E : Env c m mx) {first : Bool} {num n n' : Nat} {l l1 k k1 : LSt σ Γ} {g g' : Int} {rev rev' : Bool}
    (h : Round C c first num l l1 g rev n) (ha : ActOk first l) (hG : Good L c.H l.x.s) (hG' : Good L c.H k.x.s) (he : LEqv l k)
    (h' : Round C c first num k k1 g' rev' n') : LEqv l1 k1 ∧ g = g' ∧ rev = rev' ∧ n = n' := by
  have hnil : l.x.a.act = [] ↔ k.x.a.act = [] := by
    constructor
    · intro hh; have := he.x.a.act; rw [hh] at this; exact this.nil_eq.symm
    · intro hh; have := he.x.a.act; rw [hh] at this; exact this.eq_nil
  have hb : LEqv (bump c l) (bump c k) := he.bump
  cases h with
  | all x' g rev n h hs =>
    cases h' with
    | all y' g' rev' n' h' hs' =>
      rw [← he.rng, ← hb.round] at hs'
      obtain ⟨r1, r2⟩ := subRounds_det (L := L) E hs (groups_nodup (E.permAll l.rng) num) (by rw [bump_s]; exact hG) (by rw [bump_s]; exact hG') hb.x.clear hs'
      exact ⟨⟨r1, hb.round, by rw [he.rng]⟩, r2⟩
    | active act y' g' rev' n' h' hp ho hs' => rw [hnil] at h; exact absurd h h'
  | active act x' g rev n h hp ho hs =>
    cases h' with
    | all y' g' rev' n' h' hs' => rw [hnil] at h; exact absurd h' h
    | active act' y' g' rev' n' h' hp' ho' hs' =>
      have hact : act = act' := List.Perm.eq_of_pairwise (le := (· ≤ ·)) (fun _ _ _ _ h1 h2 => Nat.le_antisymm h1 h2) ho ho' (hp.trans (he.x.a.act.trans hp'.symm))
      subst hact
      rw [← he.rng, ← hb.round] at hs'
      obtain ⟨r1, r2⟩ := subRounds_det (L := L) E hs (groups_nodup (E.permAct l.rng act (act_nodup ha h hp)) num) (by rw [bump_s]; exact hG)
        (by rw [bump_s]; exact hG') hb.x.clear hs'
      exact ⟨⟨r1, hb.round, by rw [he.rng]⟩, r2⟩

theorem round_exists {L : C.Lawful m c.k mx} (E : Env c m mx) {first : Bool} {num : Nat} {l : LSt σ Γ} (ha : ActOk first l) (hG : Good L c.H l.x.s) :
    ∃ l' g rev n, Round C c first num l l' g rev n := by
  by_cases h : c.useActive = false ∨ first = true ∨ l.x.a.act = []
  · obtain ⟨x', g, rev, n, hs⟩ := subRounds_exists (L := L) (rd := (bump c l).round) E (groups (c.perm l.rng none).1 num)
      (x := { (bump c l).x with a := { (bump c l).x.a with act := [] } }) (groups_nodup (E.permAll l.rng) num) (by rw [bump_s]; exact hG)
    exact ⟨_, g, rev, n, .all x' g rev n h hs⟩
  · have hp := List.mergeSort_perm l.x.a.act (fun a b => decide (a ≤ b))
    have ho := List.pairwise_mergeSort (le := fun a b : Nat => decide (a ≤ b)) (fun a b d h1 h2 => by simp only [decide_eq_true_eq] at *; omega)
      (fun a b => by simp only [Bool.or_eq_true, decide_eq_true_eq]; omega) l.x.a.act
    obtain ⟨x', g, rev, n, hs⟩ := subRounds_exists (L := L) (rd := (bump c l).round) E (groups (c.perm l.rng (some (l.x.a.act.mergeSort (fun a b => decide (a ≤ b))))).1 num)
      (x := { (bump c l).x with a := { (bump c l).x.a with act := [] } }) (groups_nodup (E.permAct l.rng _ (act_nodup ha h hp)) num) (by rw [bump_s]; exact hG)
    exact ⟨_, g, rev, n, .active _ x' g rev n h hp (ho.imp (fun h => by simpa using h)) hs⟩

theorem iters_spec {L : C.Lawful m c.k mx} (E : Env c m mx) {fuel num : Nat} {first : Bool} {l l' : LSt σ Γ} {g : Int}
    (h : Iters C c fuel first num l l' g) (ha : ActOk first l) (hG : Good L c.H l.x.s) : Res (c := c) L l.x l'.x g := by
  induction h with
  | stop first num l => exact ⟨hG, by omega, le_rfl, fun _ _ => rfl, fun _ h => h⟩
  | last fuel num first l l1 g rev h => exact (round_spec E h ha hG).1
  | next fuel num n first l l1 l2 g g' rev h hn ht ih =>
    obtain ⟨r1, r2⟩ := round_spec E h ha hG
    exact r1.trans (ih (Or.inr r2) r1.good)

theorem iters_det {L : C.Lawful m c.k mx} (E : Env c m mx) {fuel num : Nat} {first : Bool} {l l1 k k1 : LSt σ Γ} {g g' : Int}
    (h : Iters C c fuel first num l l1 g) (ha : ActOk first l) (ha' : ActOk first k) (hG : Good L c.H l.x.s) (hG' : Good L c.H k.x.s) (he : LEqv l k)
    (h' : Iters C c fuel first num k k1 g') : LEqv l1 k1 ∧ g = g' := by
  induction h generalizing k k1 g' with
  | stop first num l => cases h'; exact ⟨he, rfl⟩
  | last fuel num first l l1 g rev h =>
    cases h' with
    | last _ _ _ _ _ _ rev' h' =>
      obtain ⟨r1, r2, _⟩ := round_det E h ha hG hG' he h'
      exact ⟨r1, r2⟩
    | next _ _ n _ _ k2 _ g1 g2 rev' h' hn' ht' =>
      obtain ⟨_, _, _, r⟩ := round_det E h ha hG hG' he h'
      exact absurd r.symm hn'
  | next fuel num n first l l1 l2 g g' rev h hn ht ih =>
    cases h' with
    | last _ _ _ _ _ _ rev' h' =>
      obtain ⟨_, _, _, r⟩ := round_det E h ha hG hG' he h'
      exact absurd r hn
    | next _ _ n' _ _ k2 _ g1 g2 rev' h' hn' ht' =>
      obtain ⟨r1, r2, r3, r4⟩ := round_det E h ha hG hG' he h'
      obtain ⟨s1, s2⟩ := round_spec E h ha hG
      obtain ⟨t1, t2⟩ := round_spec E h' ha' hG'
      subst r3
      obtain ⟨q1, q2⟩ := ih (Or.inr s2) (Or.inr t2) s1.good t1.good r1 ht'
      exact ⟨q1, by rw [r2, q2]⟩

theorem iters_exists {L : C.Lawful m c.k mx} (E : Env c m mx) : ∀ (fuel : Nat) {num : Nat} {first : Bool} {l : LSt σ Γ}, ActOk first l → Good L c.H l.x.s →
    ∃ l' g, Iters C c fuel first num l l' g := by
  intro fuel
  induction fuel with
  | zero => intro num first l _ _; exact ⟨l, 0, .stop first num l⟩
  | succ fuel ih =>
    intro num first l ha hG
    obtain ⟨l1, g, rev, n, h⟩ := round_exists (num := num) E ha hG
    by_cases hn : n = 0
    · subst hn; exact ⟨l1, g, .last fuel num first l l1 g rev h⟩
    · obtain ⟨r1, r2⟩ := round_spec E h ha hG
      obtain ⟨l2, g', ht⟩ := ih (num := if rev then min 256 (num * 2) else num) (first := false) (Or.inr r2) r1.good
      exact ⟨l2, _, .next fuel num n first l l1 l2 g g' rev h hn ht⟩

end DetLP
end Verif
