import Verif.Lemmas.Jet2
/-!
# Lemmas on the deterministic Jet refiner: one iteration
-/
namespace Verif
namespace Jet
open DetLP (Mv Good Fit moveAll)
open GainComp CSt PHG
open DReb (Env Input Reached CleanAll)

variable {c : Cfg} {σ : Type} {C : ConInfo σ} {m mx : Nat}

/-! ### Specification -/

/-- Proposals `t v` for the nodes: a free node may propose to move to a best block, if that does not worsen the objective too much; it does propose a move if it can
improve the objective. -/
structure Proposals (c : Cfg) (d : Nat) (locks : Nat → Bool) (Φ : Assign) (t : Nat → Option Nat) : Prop where
  sound : ∀ v b, t v = some b → Free c locks Φ v ∧ b < c.k ∧ Φ v ≠ some b ∧
    (∀ b' < c.k, Φ v ≠ some b' → change c.H c.o Φ v b ≤ change c.H c.o Φ v b') ∧ (change c.H c.o Φ v b ≤ 0 ∨ ∃ iso, c.neg d (change c.H c.o Φ v b) iso = true)
  improving : ∀ v b, Free c locks Φ v → b < c.k → Φ v ≠ some b → change c.H c.o Φ v b < 0 → t v ≠ none

/-- The proposal of `u` comes before that of `v`: it changes the objective to a smaller value, ties are in favour of the smaller id. -/
def Earlier (c : Cfg) (Φ : Assign) (t : Nat → Option Nat) (u v : Nat) : Prop :=
  ∃ b b', t u = some b ∧ t v = some b' ∧
    (change c.H c.o Φ u b < change c.H c.o Φ v b' ∨ (change c.H c.o Φ u b = change c.H c.o Φ v b' ∧ u < v))

open Classical in
/-- the partition with the proposals executed that come before that of `v` -/
noncomputable def afterEarlier (c : Cfg) (Φ : Assign) (t : Nat → Option Nat) (v : Nat) : Assign := fun u => if Earlier c Φ t u v then t u else Φ u

/-- Exactly those proposals are executed that do not worsen the objective when they are executed after all proposals that come before them. -/
structure Filtered (c : Cfg) (Φ : Assign) (t : Nat → Option Nat) (Φ' : Assign) : Prop where
  none : ∀ v, t v = none → Φ' v = Φ v
  some : ∀ v b, t v = some b → Φ' v =
    if c.H.objective ((afterEarlier c Φ t v).put v b) c.o ≤ c.H.objective (afterEarlier c Φ t v) c.o then some b else Φ v

/-! ### Congruence -/

theorem objective_congr {H : HG} (hw : H.WF) {o : Metrics.Obj} {Φ Ψ : Assign} (h : ∀ v ∈ H.nodes, Φ v = Ψ v) : H.objective Φ o = H.objective Ψ o := by
  rw [Rollback.objective_terms, Rollback.objective_terms]
  congr 1
  apply List.map_congr_left
  intro e he
  exact HG.term_congr (fun v hv => h v (hw.pins_mem e he v hv)) o

theorem weight_congr {H : HG} {Φ Ψ : Assign} (h : ∀ v ∈ H.nodes, Φ v = Ψ v) (b : Nat) : H.blockWeight Φ b = H.blockWeight Ψ b := by
  unfold HG.blockWeight
  congr 2
  apply List.filter_congr
  intro v hv
  rw [h v hv]

theorem balanced_congr {Φ Ψ : Assign} (h : ∀ v ∈ c.H.nodes, Φ v = Ψ v) : Balanced c Φ ↔ Balanced c Ψ := by
  unfold Balanced
  rw [show c.H.blockWeight Φ = c.H.blockWeight Ψ from funext (weight_congr h)]

theorem imbOf_congr {Φ Ψ : Assign} (h : ∀ v ∈ c.H.nodes, Φ v = Ψ v) : imbOf c Φ = imbOf c Ψ := by
  unfold imbOf
  rw [show c.H.blockWeight Φ = c.H.blockWeight Ψ from funext (weight_congr h)]

/-! ### One iteration -/

def gtOf (C : ConInfo σ) (c : Cfg) (d : Nat) (st : St σ) (ρ : Nat → Rand) (scr : Nat → Scratch) : GT :=
  fun u => if u ∈ c.H.nodes then propose C c d st.x.s st.locks (ρ u) (scr u) u else (0, 0)

/-- the proposals -/
def tOf (c : Cfg) (s : CSt σ) (gt : GT) : Nat → Option Nat := fun v => if v ∈ c.H.nodes ∧ (gt v).2 ≠ blk s v then some (gt v).2 else none

theorem tOf_some {s : CSt σ} {gt : GT} {v b : Nat} : tOf c s gt v = some b ↔ v ∈ c.H.nodes ∧ (gt v).2 ≠ blk s v ∧ (gt v).2 = b := by
  unfold tOf
  split_ifs with h
  · simp [h.1, h.2]
  · simp only [reduceCtorEq, false_iff]
    exact fun hh => h ⟨hh.1, hh.2.1⟩

section
variable {L : C.Lawful m c.k mx} (E : Env c.toCfg m mx) {d : Nat} {s : CSt σ} (hG : Good L c.H s) {locks : Nat → Bool} {gt : GT}
  (hgt : ∀ u ∈ c.H.nodes, ProposeSpec c d locks s.part u (blk s u) (gt u))

include E hG hgt in
theorem proposals_of : Proposals c d locks s.part (tOf c s gt) := by
  constructor
  · intro v b h
    obtain ⟨h1, h2, rfl⟩ := tOf_some.1 h
    obtain ⟨m1, m2, m3, m4⟩ := (hgt v h1).move h2
    have hp := (blk_some hG h1).1
    rw [m2] at m3 m4
    refine ⟨m1, (hgt v h1).lt, by rw [hp]; exact fun hh => h2 (Option.some.inj hh).symm, fun b' hb' hne => m3 b' hb' (fun hh => hne (by rw [hp, hh])), m4⟩
  · intro v b hf hb hne hlt hn
    have hp := (blk_some hG hf.1).1
    have h2 := (hgt v hf.1).improving hf ⟨b, hb, fun hh => hne (by rw [hp, hh]), hlt⟩
    rw [tOf_some.2 ⟨hf.1, h2, rfl⟩] at hn
    cases hn

include hG hgt in
theorem pre_eq {v : Nat} (hv : v ∈ c.H.nodes) (hne : (gt v).2 ≠ blk s v) {u : Nat} (hu : u ∈ c.H.nodes) :
    pre (blk s) gt v u = afterEarlier c s.part (tOf c s gt) v u := by
  have hp := (blk_some hG hu).1
  have htv : tOf c s gt v = some (gt v).2 := tOf_some.2 ⟨hv, hne, rfl⟩
  have gv := ((hgt v hv).move hne).2.1
  unfold pre afterEarlier
  by_cases hun : (gt u).2 ≠ blk s u
  · have htu : tOf c s gt u = some (gt u).2 := tOf_some.2 ⟨hu, hun, rfl⟩
    have gu := ((hgt u hu).move hun).2.1
    have : Earlier c s.part (tOf c s gt) u v ↔ first gt u v := by
      unfold Earlier first
      rw [htu, htv, gu, gv]
      simp
    by_cases hf : first gt u v
    · rw [if_pos hf, if_pos (this.2 hf), htu]
    · rw [if_neg hf, if_neg (fun hh => hf (this.1 hh)), hp]
  · push Not at hun
    have htu : tOf c s gt u = none := by
      unfold tOf
      rw [if_neg (fun hh => hh.2 hun)]
    have hE : ¬ Earlier c s.part (tOf c s gt) u v := fun hh => by
      obtain ⟨b, _, h1, _⟩ := hh
      rw [htu] at h1
      cases h1
    have hl : (if first gt u v then (gt u).2 else blk s u) = blk s u := by
      rw [hun]
      split_ifs <;> rfl
    rw [hl, if_neg hE, hp]

theorem gt_lt (hk : ∀ u ∈ c.H.nodes, ProposeSpec c d locks s.part u (blk s u) (gt u)) (hG : Good L c.H s) :
    ∀ v ∈ c.H.nodes, blk s v < c.k ∧ (gt v).2 < c.k := fun v hv => ⟨(blk_some hG hv).2, (hk v hv).lt⟩

include E hG in
theorem pinCount_blk : ∀ e ∈ c.H.edges, ∀ b < c.k, C.pinCount s.con e b = c.H.pinsIn (fun u => some (blk s u)) e b := by
  intro e he b hb
  have hS := DReb.good_sim E.wf hG
  have h1 := (edgeOk E.fits hS he).pc b hb
  have h2 : c.H.pinsIn s.part e b = c.H.pinsIn (fun u => some (blk s u)) e b :=
    HG.pinsIn_congr (fun v hv => (blk_some hG (E.wf.pins_mem e he v hv)).1) b
  exact h1.trans h2

theorem active_mem {s : CSt σ} {gt : GT} {v : Nat} : v ∈ active c s gt ↔ v ∈ c.H.nodes ∧ (gt v).2 ≠ blk s v := by
  unfold active; rw [List.mem_filter]; simp

theorem chosen_eq (s : CSt σ) (gt : GT) (aft : Nat → Int) :
    chosen c s gt aft = c.H.nodes.filter (fun u => decide (aft u ≤ 0) && decide ((gt u).2 ≠ blk s u)) := by
  unfold chosen active; rw [List.filter_filter]

include E hG hgt in
theorem filtered_of (ho : c.o = .soed → ∀ e ∈ c.H.edges, (c.H.pins e).length ≠ 2) {aft : Nat → Int}
    (ha : Afterburn C c.H c.o s.con (blk s) gt (active c s gt) aft) : Filtered c s.part (tOf c s gt) (moveAll s.part (movesOf s gt (chosen c s gt aft))) := by
  have hmv : ∀ v, moveAll s.part (movesOf s gt (chosen c s gt aft)) v = if v ∈ c.H.nodes ∧ (decide (aft v ≤ 0) && decide ((gt v).2 ≠ blk s v)) = true then some (gt v).2 else s.part v := by
    intro v
    unfold movesOf
    rw [chosen_eq]
    exact moves_part E.wf v
  constructor
  · intro v h
    rw [hmv, if_neg]
    rintro ⟨h1, h2⟩
    rw [Bool.and_eq_true, decide_eq_true_iff, decide_eq_true_iff] at h2
    rw [tOf_some.2 ⟨h1, h2.2, rfl⟩] at h
    cases h
  · intro v b h
    obtain ⟨h1, h2, rfl⟩ := tOf_some.1 h
    have key := afterburn_spec (k := c.k) E.wf (pinCount_blk E hG) (gt_lt hgt hG) ho (fun v hv => (active_mem.1 hv).1) ha (active_mem.2 ⟨h1, h2⟩) (Ne.symm h2)
    have hpre : ∀ u ∈ c.H.nodes, pre (blk s) gt v u = afterEarlier c s.part (tOf c s gt) v u := fun u hu => pre_eq hG hgt h1 h2 hu
    rw [objective_congr E.wf hpre, objective_congr E.wf (Φ := (pre (blk s) gt v).put v (gt v).2) (Ψ := (afterEarlier c s.part (tOf c s gt) v).put v (gt v).2)
      (fun u hu => by unfold Assign.put; rw [hpre u hu])] at key
    rw [hmv]
    by_cases hle : aft v ≤ 0
    · rw [if_pos ⟨h1, by simp [hle, h2]⟩, if_pos (by omega)]
    · rw [if_neg (fun hh => by have := hh.2; rw [Bool.and_eq_true, decide_eq_true_iff] at this; exact hle this.1), if_neg (by omega)]

end

/-- what one iteration does -/
structure Core (L : C.Lawful m c.k mx) (d : Nat) (st : St σ) (s1 : CSt σ) (x2 : DReb.St σ) (locks' : Nat → Bool) : Prop where
  good1 : Good L c.H s1
  filtered : (c.o = .soed → ∀ e ∈ c.H.edges, (c.H.pins e).length ≠ 2) → ∃ t, Proposals c d st.locks st.x.s.part t ∧ Filtered c st.x.s.part t s1.part
  locked : ∀ v ∈ c.H.nodes, locks' v = true ↔ s1.part v ≠ st.x.s.part v
  free : ∀ v, s1.part v ≠ st.x.s.part v → Free c st.locks st.x.s.part v
  good2 : Good L c.H x2.s
  fixed : ∀ v, c.fixed v = true → x2.s.part v = st.x.s.part v
  still : Balanced c s1.part → x2 = ⟨s1, st.x.heavy⟩
  reb : ¬ Balanced c s1.part → ∃ g r, DReb.Rebalance C c.toCfg ⟨s1, st.x.heavy⟩ x2 g r

theorem round_core {L : C.Lawful m c.k mx} (E : Env c.toCfg m mx) {d : Nat} {st st' : St σ} (hG : Good L c.H st.x.s) (h : Round C c d st st') :
    ∃ s1 x2 locks', Core L d st s1 x2 locks' ∧
      st' = finish c st x2 locks' (if st.isBest = true then blk st.x.s else st.best) (st.cur + (c.H.objective x2.s.part c.o - c.H.objective st.x.s.part c.o)) := by
  obtain ⟨ρ, scr, gt, aft, s1, g1, x2, g2, hρ, hs, hgt, ha, hA, hreb, rfl⟩ := h
  have hsp : ∀ u ∈ c.H.nodes, ProposeSpec c d st.locks st.x.s.part u (blk st.x.s u) (gt u) := by
    intro u hu
    rw [hgt u, if_pos hu]
    exact propose_spec E hG (hρ u) (hs u) hu
  have hfit : Fit c.H c.k st.x.s.part (movesOf st.x.s gt (chosen c st.x.s gt aft)) := by
    unfold movesOf
    rw [chosen_eq]
    refine moves_fit E.wf hG (fun u hu hp => ⟨(hsp u hu).lt, ?_⟩)
    rw [Bool.and_eq_true, decide_eq_true_iff, decide_eq_true_iff] at hp
    exact hp.2
  obtain ⟨hG1, hp1, hg1⟩ := apply_spec E hG hfit hA
  have hmv : ∀ v, s1.part v = if v ∈ c.H.nodes ∧ (decide (aft v ≤ 0) && decide ((gt v).2 ≠ blk st.x.s v)) = true then some (gt v).2 else st.x.s.part v := by
    intro v
    rw [hp1]
    unfold movesOf
    rw [chosen_eq]
    exact moves_part E.wf v
  have hch : ∀ v, s1.part v ≠ st.x.s.part v ↔ v ∈ chosen c st.x.s gt aft := by
    intro v
    rw [hmv, chosen_eq, List.mem_filter]
    by_cases hv : v ∈ c.H.nodes ∧ (decide (aft v ≤ 0) && decide ((gt v).2 ≠ blk st.x.s v)) = true
    · rw [if_pos hv]
      refine ⟨fun _ => hv, fun _ he => ?_⟩
      rw [(blk_some hG hv.1).1] at he
      have h2 := hv.2
      rw [Bool.and_eq_true, decide_eq_true_iff, decide_eq_true_iff] at h2
      exact h2.2 (Option.some.inj he)
    · rw [if_neg hv]
      exact ⟨fun hh => absurd rfl hh, fun hh => absurd hh hv⟩
  have hfree : ∀ v, s1.part v ≠ st.x.s.part v → Free c st.locks st.x.s.part v := by
    intro v hv
    have := (hch v).1 hv
    rw [chosen_eq, List.mem_filter, Bool.and_eq_true, decide_eq_true_iff, decide_eq_true_iff] at this
    exact ((hsp v this.1).move this.2.2).1
  have hfix1 : ∀ v, c.fixed v = true → s1.part v = st.x.s.part v := by
    intro v hv
    by_contra hne
    have := (hfree v hne).2.2.2.2
    rw [hv] at this; cases this
  have h2 : Good L c.H x2.s ∧ (∀ v, c.fixed v = true → x2.s.part v = st.x.s.part v) ∧ g2 = c.H.objective x2.s.part c.o - c.H.objective s1.part c.o := by
    by_cases hb : balanced c s1.wt = true
    · rw [if_pos hb] at hreb
      obtain ⟨rfl, rfl⟩ := hreb
      exact ⟨hG1, hfix1, by simp⟩
    · rw [if_neg hb] at hreb
      obtain ⟨r, hr⟩ := hreb
      obtain ⟨i1, i2, i3, _⟩ := DReb.loop_generic (c := c.toCfg) E _ (x := ⟨s1, st.x.heavy⟩) hG1 hr
      exact ⟨i1, fun v hv => (i3 v hv).trans (hfix1 v hv), i2⟩
  refine ⟨s1, x2, fun v => decide (v ∈ chosen c st.x.s gt aft), ⟨hG1, ?_, ?_, hfree, h2.1, h2.2.1, ?_, ?_⟩, ?_⟩
  · intro ho
    exact ⟨_, proposals_of E hG hsp, by rw [hp1]; exact filtered_of E hG hsp ho ha⟩
  · intro v _
    rw [decide_eq_true_iff, hch]
  · intro hb
    rw [if_pos ((balanced_iff E.wf hG1).2 hb)] at hreb
    exact hreb.1
  · intro hb
    rw [if_neg (fun hh => hb ((balanced_iff E.wf hG1).1 hh))] at hreb
    obtain ⟨r, hr⟩ := hreb
    exact ⟨g2, r, hr⟩
  · rw [h2.2.2, hg1]
    congr 1
    ring

theorem round_exists {L : C.Lawful m c.k mx} (E : Env c.toCfg m mx) (d : Nat) {st : St σ} (hG : Good L c.H st.x.s) : ∃ st', Round C c d st st' := by
  set ρ : Nat → Rand := fun _ => ⟨fun _ => false, fun _ => 0⟩ with hρ
  set scr : Nat → Scratch := fun _ => ⟨⟨0, fun _ => 0, fun _ => (0, 0)⟩, 0⟩ with hscr
  have hρ' : ∀ u n, 0 < n → (ρ u).pick n < n := fun u n hn => hn
  have hs' : ∀ u, (scr u).tmp.size = 0 ∧ (scr u).iso = 0 := fun u => ⟨rfl, rfl⟩
  set gt := gtOf C c d st ρ scr with hgt
  have hsp : ∀ u ∈ c.H.nodes, ProposeSpec c d st.locks st.x.s.part u (blk st.x.s u) (gt u) := by
    intro u hu
    rw [hgt]
    unfold gtOf
    rw [if_pos hu]
    exact propose_spec E hG (hρ' u) (hs' u) hu
  obtain ⟨aft, ha⟩ := afterburn_exists (C := C) (o := c.o) E.wf st.x.s.con (blk st.x.s) gt (act := active c st.x.s gt) (fun v hv => (active_mem.1 hv).1)
  have hfit : Fit c.H c.k st.x.s.part (movesOf st.x.s gt (chosen c st.x.s gt aft)) := by
    unfold movesOf
    rw [chosen_eq]
    refine moves_fit E.wf hG (fun u hu hp => ⟨(hsp u hu).lt, ?_⟩)
    rw [Bool.and_eq_true, decide_eq_true_iff, decide_eq_true_iff] at hp
    exact hp.2
  obtain ⟨s1, g1, hA⟩ := apply_exists E hG hfit
  obtain ⟨hG1, _, _⟩ := apply_spec E hG hfit hA
  by_cases hb : balanced c s1.wt = true
  · exact ⟨_, ρ, scr, gt, aft, s1, g1, _, _, hρ', hs', fun u => rfl, ha, hA, by rw [if_pos hb]; exact ⟨rfl, rfl⟩, rfl⟩
  · obtain ⟨x2, g2, r, hr⟩ := DReb.loop_exists (c := c.toCfg) (C := C) E c.maxRounds (x := ⟨s1, st.x.heavy⟩) hG1
    exact ⟨_, ρ, scr, gt, aft, s1, g1, x2, g2, hρ', hs', fun u => rfl, ha, hA, by rw [if_neg hb]; exact ⟨r, hr⟩, rfl⟩

/-- two states that agree in everything the execution depends on -/
structure Same' (c : Cfg) (a b : St σ) : Prop where
  part : a.x.s.part = b.x.s.part
  heavy : ∀ i < c.k, a.x.heavy i = b.x.heavy i
  locks : ∀ v ∈ c.H.nodes, a.locks v = b.locks v
  best : a.isBest = false → ∀ v ∈ c.H.nodes, a.best v = b.best v
  cur : a.cur = b.cur
  bestM : a.bestM = b.bestM
  isBest : a.isBest = b.isBest
  was : a.was = b.was
  fruitless : a.fruitless = b.fruitless

theorem round_det (E : Env c.toCfg m mx) {d : Nat} {a b a' b' : St (Packed × ConnSets)} (hG : Good (denseLawful m c.k mx) c.H a.x.s)
    (hG' : Good (denseLawful m c.k mx) c.H b.x.s) (hS : Same' c a b) (h : Round denseCon c d a a') (h' : Round denseCon c d b b') : Same' c a' b' := by
  obtain ⟨ρ, scr, gt, aft, s1, g1, x2, g2, hρ, hs, hgt, ha, hA, hreb, rfl⟩ := h
  obtain ⟨ρ', scr', gt', aft', s1', g1', x2', g2', hρ', hs', hgt', ha', hA', hreb', rfl⟩ := h'
  have hblk : blk a.x.s = blk b.x.s := by funext u; unfold blk; rw [hS.part]
  have hgg : gt = gt' := by
    funext u
    rw [hgt u, hgt' u]
    by_cases hu : u ∈ c.H.nodes
    · rw [if_pos hu, if_pos hu]
      exact propose_det E hG hG' hS.part (hρ u) (hρ' u) (hs u) (hs' u) hu (hS.locks u hu)
    · rw [if_neg hu, if_neg hu]
  subst hgg
  have hsp : ∀ u ∈ c.H.nodes, ProposeSpec c d a.locks a.x.s.part u (blk a.x.s u) (gt u) := by
    intro u hu
    rw [hgt u, if_pos hu]
    exact propose_spec E hG (hρ u) (hs u) hu
  have hact : active c b.x.s gt = active c a.x.s gt := by unfold active; rw [hblk]
  rw [hact, ← hblk] at ha'
  have haft : aft = aft' := afterburn_det (k := c.k) E.wf
    (fun e he b' hb' => by rw [pinCount_blk E hG e he b' hb', pinCount_blk E hG' e he b' hb', hblk]) (gt_lt hsp hG) (fun v hv => (active_mem.1 hv).1) ha ha'
  subst haft
  have hcho : chosen c b.x.s gt aft = chosen c a.x.s gt aft := by unfold chosen; rw [hact]
  have hmo : movesOf b.x.s gt (chosen c b.x.s gt aft) = movesOf a.x.s gt (chosen c a.x.s gt aft) := by rw [hcho]; unfold movesOf; rw [hblk]
  rw [hmo] at hA'
  have hfit : Fit c.H c.k a.x.s.part (movesOf a.x.s gt (chosen c a.x.s gt aft)) := by
    unfold movesOf
    rw [chosen_eq]
    refine moves_fit E.wf hG (fun u hu hp => ⟨(hsp u hu).lt, ?_⟩)
    rw [Bool.and_eq_true, decide_eq_true_iff, decide_eq_true_iff] at hp
    exact hp.2
  obtain ⟨hG1, hp1, hg1⟩ := apply_spec E hG hfit hA
  obtain ⟨hG1', hp1', hg1'⟩ := apply_spec E hG' (hS.part ▸ hfit) hA'
  have hs1 : s1.part = s1'.part := by rw [hp1, hp1', hS.part]
  have hbal : balanced c s1.wt = true ↔ balanced c s1'.wt = true := by rw [balanced_iff E.wf hG1, balanced_iff E.wf hG1', hs1]
  have hx2 : Good (denseLawful m c.k mx) c.H x2.s ∧ Good (denseLawful m c.k mx) c.H x2'.s ∧ x2.s.part = x2'.s.part ∧ (∀ i < c.k, x2.heavy i = x2'.heavy i) ∧ g2 = g2' := by
    by_cases hb : balanced c s1.wt = true
    · rw [if_pos hb] at hreb
      rw [if_pos (hbal.1 hb)] at hreb'
      obtain ⟨rfl, rfl⟩ := hreb
      obtain ⟨rfl, rfl⟩ := hreb'
      exact ⟨hG1, hG1', hs1, hS.heavy, rfl⟩
    · rw [if_neg hb] at hreb
      rw [if_neg (fun hh => hb (hbal.2 hh))] at hreb'
      obtain ⟨r, hr⟩ := hreb
      obtain ⟨r', hr'⟩ := hreb'
      obtain ⟨i1, _⟩ := DReb.loop_generic (c := c.toCfg) E _ (x := ⟨s1, a.x.heavy⟩) hG1 hr
      obtain ⟨i1', _⟩ := DReb.loop_generic (c := c.toCfg) E _ (x := ⟨s1', b.x.heavy⟩) hG1' hr'
      obtain ⟨e1, e2, e3, _⟩ := DReb.loop_det (c := c.toCfg) E _ (x := ⟨s1, a.x.heavy⟩) (y := ⟨s1', b.x.heavy⟩) hG1 hG1' hs1 hS.heavy hr hr'
      exact ⟨i1, i1', e1, e2, e3⟩
  obtain ⟨k1, k2, k3, k4, k5⟩ := hx2
  have hcur : a.cur + g1 + g2 = b.cur + g1' + g2' := by rw [hS.cur, hg1, hg1', hs1, hS.part, k5]
  have hw : c.imb (weights c x2.s) = c.imb (weights c x2'.s) := by rw [weights_eq E.wf k1, weights_eq E.wf k2, k3]
  have hb2 : balanced c x2.s.wt = balanced c x2'.s.wt := by rw [Bool.eq_iff_iff, balanced_iff E.wf k1, balanced_iff E.wf k2, k3]
  have hbest : ∀ v ∈ c.H.nodes, (if a.isBest = true then blk a.x.s else a.best) v = (if b.isBest = true then blk b.x.s else b.best) v := by
    intro v hv
    rw [← hS.isBest]
    by_cases hi : a.isBest = true
    · rw [if_pos hi, if_pos hi, hblk]
    · rw [if_neg hi, if_neg hi]
      exact hS.best (by simpa using hi) v hv
  generalize (if a.isBest = true then blk a.x.s else a.best) = f at hbest ⊢
  generalize (if b.isBest = true then blk b.x.s else b.best) = f' at hbest ⊢
  unfold finish
  dsimp only
  rw [hcur, hw, hb2, hS.bestM, hS.was, hcho, hS.fruitless]
  split_ifs
  · exact ⟨k3, k4, fun _ _ => rfl, fun _ => hbest, rfl, rfl, rfl, rfl, rfl⟩
  · exact ⟨k3, k4, fun _ _ => rfl, fun _ => hbest, rfl, rfl, rfl, rfl, rfl⟩
  · exact ⟨k3, k4, fun _ _ => rfl, fun _ => hbest, rfl, rfl, rfl, rfl, rfl⟩

end Jet
end Verif
