import Mathlib.Logic.Relation
import Verif.Model.FixedVertices
import Verif.Lemmas.PGraph2
/-! Invariants of fixed vertices under contractions and uncontractions. -/
namespace Verif
namespace FVS

theorem addBw_undo (s : FVS) (b : Nat) (w : Int) :
    (fun x => if x = b then s.addBw b w x - w else s.addBw b w x) = s.bw := by
  funext x; unfold addBw; split <;> simp

/-- outcome of `contract` as a relation -/
inductive CStep (s : FVS) (nw : Nat → Int) (u v : Nat) : Bool → FVS → Prop
  | free (h1 : (s.data u).block = none) (h2 : (s.data v).block = none) : CStep s nw u v true s
  | ufix {b : Nat} (h1 : (s.data u).block = none) (h2 : (s.data v).block = some b)
      (h3 : s.bw b + nw u ≤ s.maxw b) :
      CStep s nw u v true { s with total := s.total + nw u, bw := s.addBw b (nw u)
                                   data := s.setData u { block := some b, cnt := 1, weight := nw u } }
  | vfix {b : Nat} (h1 : (s.data u).block = some b) (h2 : (s.data v).block = none)
      (h3 : s.bw b + nw v ≤ s.maxw b) :
      CStep s nw u v true { s with total := s.total + nw v, bw := s.addBw b (nw v)
                                   data := s.setData v { (s.data v) with block := some b, weight := nw v } }
  | both {b : Nat} (h1 : (s.data u).block = some b) (h2 : (s.data v).block = some b) :
      CStep s nw u v true { s with data := s.setData u { (s.data u) with cnt := (s.data u).cnt + 1 } }
  | ufail {b : Nat} (h1 : (s.data u).block = none) (h2 : (s.data v).block = some b)
      (h3 : s.maxw b < s.bw b + nw u) : CStep s nw u v false s
  | vfail {b : Nat} (h1 : (s.data u).block = some b) (h2 : (s.data v).block = none)
      (h3 : s.maxw b < s.bw b + nw v) : CStep s nw u v false s
  | differ {b c : Nat} (h1 : (s.data u).block = some b) (h2 : (s.data v).block = some c) (h : b ≠ c) :
      CStep s nw u v false s

theorem contractImpl_CStep (s : FVS) (nw : Nat → Int) (u v : Nat) :
    CStep s nw u v (s.contractImpl nw u v false).1 (s.contractImpl nw u v false).2 := by
  unfold contractImpl
  have ha : ∀ b w, s.addBw b w b = s.bw b + w := by intro b w; simp [addBw]
  split
  · rename_i h1 h2; exact .free h1 h2
  · rename_i b h1 h2
    simp only [ha]
    split
    · rename_i h; exact .ufix h1 h2 h
    · rename_i h
      have : (fun x => if x = b then s.addBw b (nw u) x - nw u else s.addBw b (nw u) x) = s.bw := addBw_undo s b (nw u)
      simp only [this]
      exact .ufail h1 h2 (by omega)
  · rename_i b h1 h2
    simp only [ha]
    split
    · rename_i h; exact .vfix h1 h2 h
    · rename_i h
      have : (fun x => if x = b then s.addBw b (nw v) x - nw v else s.addBw b (nw v) x) = s.bw := addBw_undo s b (nw v)
      simp only [this]
      exact .vfail h1 h2 (by omega)
  · rename_i b c h1 h2
    split
    · rename_i h; subst h; exact .both h1 h2
    · rename_i h; exact .differ h1 h2 h

end FVS

namespace NLevel
open FVS

/-- number of children of `x` in the contraction forest that count as fixed -/
def fixedChildren (s : NLevel) (x : Nat) : Nat := s.tree.countP (fun e => decide (e.1 = x) && decide (0 < (s.fv.data e.2).cnt))

def wsumL (nodes : List Nat) (f : Nat → Int) : Int := (nodes.map f).sum

structure Inv (nodes : List Nat) (fixed : Nat → Option Nat) (w0 : Nat → Int) (s : NLevel) : Prop where
  en : ∀ x, s.enabled x = true ↔ x ∈ nodes ∧ x ∉ s.tree.map Prod.snd
  order : s.tree.Pairwise (fun e f => e.1 ≠ f.2 ∧ e.2 ≠ f.2)
  mem : ∀ e ∈ s.tree, e.1 ∈ nodes ∧ e.2 ∈ nodes ∧ e.1 ≠ e.2
  cnt : ∀ x, (s.fv.data x).cnt = (if (fixed x).isSome then 1 else 0) + s.fixedChildren x
  blk : ∀ x, 0 < (s.fv.data x).cnt → (s.fv.data x).block.isSome
  alive : ∀ x, x ∉ s.tree.map Prod.snd → (s.fv.data x).block.isSome → 0 < (s.fv.data x).cnt
  orig : ∀ x b, fixed x = some b → (s.fv.data x).block = some b ∧ (s.fv.data x).weight = w0 x
  edge : ∀ e ∈ s.tree, 0 < (s.fv.data e.2).cnt → (s.fv.data e.1).block = (s.fv.data e.2).block
  outside : ∀ x, x ∉ nodes → (s.fv.data x).block = none
  bw : ∀ b, s.fv.bw b = wsumL nodes (fun x => if (s.fv.data x).block = some b then (s.fv.data x).weight else 0)
  total : s.fv.total = wsumL nodes (fun x => if (s.fv.data x).block.isSome then (s.fv.data x).weight else 0)
  stored : ∀ x, (s.fv.data x).block.isSome → 0 ≤ (s.fv.data x).weight
  nwEq : ∀ x, s.nw x = w0 x + (s.tree.map (fun e => if e.1 = x then s.nw e.2 else 0)).sum
  nwPos : ∀ x, 0 ≤ s.nw x

theorem Inv.hasFixed {nodes : List Nat} {fixed : Nat → Option Nat} {w0 : Nat → Int} {s : NLevel}
    (h : Inv nodes fixed w0 s)
    (hpos : 0 < wsumL nodes (fun x => if (fixed x).isSome then w0 x else 0)) : s.fv.hasFixed = true := by
  unfold FVS.hasFixed
  rw [decide_eq_true_iff, h.total]
  refine lt_of_lt_of_le hpos ?_
  unfold wsumL
  apply GSt.sum_map_le
  intro x _
  cases hf : fixed x with
  | none =>
    simp only [Option.isSome_none, Bool.false_eq_true, if_false]
    split
    · rename_i hb; exact h.stored x hb
    · exact le_refl _
  | some b =>
    obtain ⟨h1, h2⟩ := h.orig x b hf
    simp [h1, h2]

theorem wsumL_upd {nodes : List Nat} (hnd : nodes.Nodup) {u : Nat} (hu : u ∈ nodes) {f g : Nat → Int}
    (h : ∀ x, x ≠ u → g x = f x) : wsumL nodes g = wsumL nodes f + (g u - f u) := sum_map_upd hnd hu h

/-- number of fixed children if the forest and counters change -/
def fc (t : List (Nat × Nat)) (c : Nat → Nat) (x : Nat) : Nat :=
  t.countP (fun e => decide (e.1 = x) && decide (0 < c e.2))

theorem fc_congr {t : List (Nat × Nat)} {c c' : Nat → Nat} (h : ∀ e ∈ t, (0 < c e.2 ↔ 0 < c' e.2)) (x : Nat) :
    fc t c x = fc t c' x := by
  unfold fc
  apply List.countP_congr
  intro e he
  simp only [Bool.and_eq_true, decide_eq_true_eq]
  rw [h e he]

theorem fc_pos {t : List (Nat × Nat)} {c : Nat → Nat} {x : Nat} : 0 < fc t c x ↔ ∃ v, (x, v) ∈ t ∧ 0 < c v := by
  unfold fc
  rw [List.countP_pos_iff]
  constructor
  · rintro ⟨⟨a, v⟩, he, h⟩
    simp only [Bool.and_eq_true, decide_eq_true_eq] at h
    obtain ⟨rfl, h⟩ := h
    exact ⟨v, he, h⟩
  · rintro ⟨v, he, h⟩
    exact ⟨(x, v), he, by simp [h]⟩

theorem fc_erase {t : List (Nat × Nat)} {c : Nat → Nat} {u v : Nat} (h : (u, v) ∈ t) (x : Nat) :
    fc t c x = fc (t.erase (u, v)) c x + (if u = x ∧ 0 < c v then 1 else 0) := by
  unfold fc
  rw [(List.perm_cons_erase h).countP_eq, List.countP_cons]
  simp

theorem fixedChildren_eq (s : NLevel) (x : Nat) : s.fixedChildren x = fc s.tree (fun y => (s.fv.data y).cnt) x := rfl

/-- effect of a successful contraction -/
structure CSpec (s s' : FVS) (nw : Nat → Int) (u v : Nat) : Prop where
  cnt : ∀ x, (s'.data x).cnt = (s.data x).cnt + (if u = x ∧ 0 < (s.data v).cnt then 1 else 0)
  blk : ∀ x, (s'.data x).block = if x = u ∨ x = v then (s.data u).block.or (s.data v).block else (s.data x).block
  agree : ∀ b c, (s.data u).block = some b → (s.data v).block = some c → b = c
  wt : ∀ x, (s'.data x).weight =
    if (x = u ∨ x = v) ∧ (s.data x).block = none ∧ (s'.data x).block.isSome then nw x else (s.data x).weight
  bw : ∀ b, s'.bw b = s.bw b + (if (s.data u).block = none ∧ (s.data v).block = some b then nw u else 0) +
    (if (s.data v).block = none ∧ (s.data u).block = some b then nw v else 0)
  total : s'.total = s.total + (if (s.data u).block = none ∧ (s.data v).block.isSome then nw u else 0) +
    (if (s.data v).block = none ∧ (s.data u).block.isSome then nw v else 0)
  maxw : s'.maxw = s.maxw
  lim : ∀ b, s'.bw b = s.bw b ∨ s'.bw b ≤ s.maxw b

theorem CStep.spec {s s' : FVS} {nw : Nat → Int} {u v : Nat} (h : CStep s nw u v true s') (huv : u ≠ v)
    (hu : 0 < (s.data u).cnt ↔ (s.data u).block.isSome) (hv : 0 < (s.data v).cnt ↔ (s.data v).block.isSome) :
    CSpec s s' nw u v := by
  cases h with
  | free h1 h2 =>
    rw [h2] at hv; simp at hv
    refine ⟨fun x => by simp [hv], fun x => ?_, fun b c h => by simp [h1] at h, fun x => ?_, fun b => by simp [h1, h2], by simp [h1, h2], rfl, fun _ => Or.inl rfl⟩
    · by_cases hx : x = u
      · subst hx; simp [h1, h2]
      · by_cases hx' : x = v
        · subst hx'; simp [h1, h2]
        · simp [hx, hx']
    · rw [if_neg]; rintro ⟨_, h3, h4⟩; rw [h3] at h4; simp at h4
  | @ufix b h1 h2 h3 =>
    rw [h2] at hv; simp at hv
    rw [h1] at hu; simp at hu
    refine ⟨fun x => ?_, fun x => ?_, fun b c h => by simp [h1] at h, fun x => ?_, fun c => ?_, by simp [h1, h2], rfl, fun c => ?_⟩
    · by_cases hx : x = u
      · subst hx; simp [setData, hu, hv]
      · simp [setData, hx, Ne.symm hx]
    · by_cases hx : x = u
      · subst hx; simp [setData, h1, h2]
      · by_cases hx' : x = v
        · subst hx'; simp [setData, hx, h1, h2]
        · simp [setData, hx, hx']
    · by_cases hx : x = u
      · subst hx; simp [setData, h1]
      · by_cases hx' : x = v
        · subst hx'; simp [setData, hx, h2]
        · simp [setData, hx, hx']
    · simp only [addBw, h1, h2, Option.some.injEq, true_and]
      by_cases hc : c = b
      · simp [hc]
      · simp [hc, Ne.symm hc]
    · simp only [addBw]
      by_cases hc : c = b
      · subst hc; right; simp; exact h3
      · left; simp [hc]
  | @vfix b h1 h2 h3 =>
    rw [h2] at hv; simp at hv
    refine ⟨fun x => ?_, fun x => ?_, fun b c h h' => by simp [h2] at h', fun x => ?_, fun c => ?_, by simp [h1, h2], rfl, fun c => ?_⟩
    · by_cases hx : x = v
      · subst hx; simp [setData, hv]
      · simp [setData, hx, hv]
    · by_cases hx : x = v
      · subst hx; simp [setData, h1]
      · by_cases hx' : x = u
        · subst hx'; simp [setData, hx, h1]
        · simp [setData, hx, hx']
    · by_cases hx : x = v
      · subst hx; simp [setData, h2]
      · by_cases hx' : x = u
        · subst hx'; simp [setData, hx, h1]
        · simp [setData, hx, hx']
    · simp only [addBw, h1, h2, Option.some.injEq, true_and]
      by_cases hc : c = b
      · simp [hc]
      · simp [hc, Ne.symm hc]
    · simp only [addBw]
      by_cases hc : c = b
      · subst hc; right; simp; exact h3
      · left; simp [hc]
  | @both b h1 h2 =>
    rw [h2] at hv; simp at hv
    refine ⟨fun x => ?_, fun x => ?_, ?_, fun x => ?_, fun c => by simp [h1, h2], by simp [h1, h2], rfl, fun _ => Or.inl rfl⟩
    · by_cases hx : x = u
      · subst hx; simp [setData, hv]
      · simp [setData, hx, Ne.symm hx]
    · by_cases hx : x = u
      · subst hx; simp [setData, h1]
      · by_cases hx' : x = v
        · subst hx'; simp [setData, hx, h1, h2]
        · simp [setData, hx, hx']
    · intro c d hc hd
      rw [h1] at hc; rw [h2] at hd
      cases hc; cases hd; rfl
    · rw [if_neg]
      · by_cases hx : x = u
        · subst hx; simp [setData]
        · simp [setData, hx]
      · rintro ⟨h, h3, h4⟩
        rcases h with rfl | rfl
        · rw [h1] at h3; cases h3
        · rw [h2] at h3; cases h3

variable {nodes : List Nat} {fixed : Nat → Option Nat} {w0 : Nat → Int}

theorem Inv.iff_alive {s : NLevel} (h : Inv nodes fixed w0 s) {x : Nat} (hx : x ∉ s.tree.map Prod.snd) :
    0 < (s.fv.data x).cnt ↔ (s.fv.data x).block.isSome := ⟨h.blk x, h.alive x hx⟩

theorem wsumL_congr {f g : Nat → Int} (h : ∀ x ∈ nodes, f x = g x) : wsumL nodes f = wsumL nodes g := by
  unfold wsumL; rw [List.map_congr_left h]

/-- accounting of stored weights for two nodes that become fixed -/
theorem wsumL_two (hnd : nodes.Nodup) {u v : Nat} (hu : u ∈ nodes) (hv : v ∈ nodes) (huv : u ≠ v) {f g : Nat → Int}
    (h : ∀ x, x ≠ u → x ≠ v → g x = f x) : wsumL nodes g = wsumL nodes f + (g u - f u) + (g v - f v) := by
  have h1 : wsumL nodes (fun x => if x = u then g u else f x) = wsumL nodes f + (g u - f u) := by
    rw [wsumL_upd hnd hu (f := f) (g := fun x => if x = u then g u else f x) (fun x hx => by simp [hx])]; simp
  rw [wsumL_upd hnd hv (f := fun x => if x = u then g u else f x) (g := g), h1]
  · simp [huv.symm]
  · intro x hx
    by_cases hxu : x = u
    · simp [hxu]
    · simp [hxu, h x hxu hx]

theorem Inv.contract {s : NLevel} (h : Inv nodes fixed w0 s) (hnd : nodes.Nodup) {u v : Nat} (huv : u ≠ v)
    (hu : s.enabled u = true) (hv : s.enabled v = true) {f : FVS} (hc : CSpec s.fv f s.nw u v) :
    Inv nodes fixed w0
      { nw := fun x => if x = u then s.nw u + s.nw v else s.nw x
        enabled := fun x => if x = v then false else s.enabled x
        tree := (u, v) :: s.tree
        fv := f } := by
  obtain ⟨hun, hut⟩ := (h.en u).1 hu
  obtain ⟨hvn, hvt⟩ := (h.en v).1 hv
  have hne : ∀ e ∈ s.tree, u ≠ e.2 ∧ v ≠ e.2 := by
    intro e he
    exact ⟨fun h => hut (List.mem_map.2 ⟨e, he, h.symm⟩), fun h => hvt (List.mem_map.2 ⟨e, he, h.symm⟩)⟩
  have iu := h.iff_alive hut
  have iv := h.iff_alive hvt
  have hcv : (f.data v).cnt = (s.fv.data v).cnt := by rw [hc.cnt]; simp [huv]
  have hfc : ∀ x, fc s.tree (fun y => (f.data y).cnt) x = fc s.tree (fun y => (s.fv.data y).cnt) x := by
    intro x
    apply fc_congr
    intro e he
    rw [hc.cnt]; simp [(hne e he).1]
  refine ⟨?_, ?_, ?_, ?_, ?_, ?_, ?_, ?_, ?_, ?_, ?_, ?_, ?_, ?_⟩
  · intro x
    simp only [List.map_cons, List.mem_cons, not_or]
    by_cases hx : x = v
    · simp [hx]
    · simp [hx, h.en x]
  · exact List.pairwise_cons.2 ⟨fun e he => hne e he, h.order⟩
  · intro e he
    rcases List.mem_cons.1 he with rfl | he
    · exact ⟨hun, hvn, huv⟩
    · exact h.mem e he
  · intro x
    rw [fixedChildren_eq]
    show _ = _ + fc ((u, v) :: s.tree) (fun y => (f.data y).cnt) x
    have : fc ((u, v) :: s.tree) (fun y => (f.data y).cnt) x =
        fc s.tree (fun y => (f.data y).cnt) x + (if u = x ∧ 0 < (s.fv.data v).cnt then 1 else 0) := by
      unfold fc; rw [List.countP_cons]; simp [hcv]
    rw [this, hfc, hc.cnt, h.cnt x, fixedChildren_eq]
    omega
  · intro x hx
    rw [hc.cnt] at hx
    rw [hc.blk]
    by_cases hxu : x = u ∨ x = v
    · rw [if_pos hxu]
      have : (s.fv.data u).block.isSome = true ∨ (s.fv.data v).block.isSome = true := by
        by_contra hcon
        rw [not_or] at hcon
        have h1 := fun h => hcon.1 (iu.1 h)
        have h2 := fun h => hcon.2 (iv.1 h)
        rw [if_neg (fun h => h2 h.2)] at hx
        rcases hxu with rfl | rfl
        · exact h1 (by omega)
        · exact h2 (by omega)
      cases hbu : (s.fv.data u).block <;> cases hbv : (s.fv.data v).block <;> simp_all
    · rw [if_neg hxu]
      rw [not_or] at hxu
      rw [if_neg (fun h => hxu.1 h.1.symm)] at hx
      exact h.blk x (by omega)
  · intro x hx hb
    simp only [List.map_cons, List.mem_cons, not_or] at hx
    rw [hc.blk] at hb
    rw [hc.cnt]
    by_cases hxu : x = u
    · subst hxu
      simp only [true_or, if_true] at hb
      cases hbu : (s.fv.data x).block with
      | some b => have := iu.2 (by rw [hbu]; rfl); omega
      | none =>
        rw [hbu] at hb
        have := iv.2 (by simpa using hb)
        simp [this]
    · rw [if_neg (by simp [hxu, hx.1])] at hb
      have := h.alive x hx.2 hb
      omega
  · intro x b hx
    obtain ⟨h1, h2⟩ := h.orig x b hx
    constructor
    · rw [hc.blk]
      by_cases hxu : x = u
      · subst hxu; simp [h1]
      · by_cases hxv : x = v
        · subst hxv
          simp only [or_true, if_true]
          cases hbu : (s.fv.data u).block with
          | none => simp [h1]
          | some c => simp [hc.agree c b hbu h1]
        · rw [if_neg (by simp [hxu, hxv])]; exact h1
    · rw [hc.wt, if_neg]
      · exact h2
      · rintro ⟨_, h3, _⟩; rw [h1] at h3; cases h3
  · intro e he hcnt
    rcases List.mem_cons.1 he with rfl | he
    · show (f.data u).block = (f.data v).block
      rw [hc.blk u, hc.blk v]; simp
    · have hne1 := hne e he
      rw [hc.cnt, if_neg (fun h => hne1.1 h.1)] at hcnt
      have hb := h.edge e he (by omega)
      have hbs : (s.fv.data e.2).block.isSome := h.blk _ (by omega)
      rw [hc.blk e.2, if_neg (by simp [hne1.1.symm, hne1.2.symm]), hc.blk e.1]
      by_cases h1 : e.1 = u
      · rw [if_pos (Or.inl h1), ← h1]
        rw [← hb] at hbs ⊢
        cases hb1 : (s.fv.data e.1).block with
        | none => rw [hb1] at hbs; simp at hbs
        | some b => simp
      · by_cases h2 : e.1 = v
        · rw [if_pos (Or.inr h2)]
          rw [← hb] at hbs ⊢
          rw [h2] at hbs ⊢
          cases hb1 : (s.fv.data v).block with
          | none => rw [hb1] at hbs; simp at hbs
          | some b =>
            cases hbu : (s.fv.data u).block with
            | none => simp
            | some c => simp [hc.agree c b hbu hb1]
        · rw [if_neg (by simp [h1, h2])]; exact hb
  · intro x hx
    rw [hc.blk, if_neg]
    · exact h.outside x hx
    · rintro (rfl | rfl)
      · exact hx hun
      · exact hx hvn
  · intro b
    have key := wsumL_two hnd hun hvn huv
      (f := fun x => if (s.fv.data x).block = some b then (s.fv.data x).weight else 0)
      (g := fun x => if (f.data x).block = some b then (f.data x).weight else 0)
      (by
        intro x h1 h2
        simp only [hc.blk x, hc.wt x, h1, h2, or_self, false_and, if_false])
    show f.bw b = _
    rw [key, hc.bw, h.bw b]
    have e1 : (f.data u).block = (s.fv.data u).block.or (s.fv.data v).block := by rw [hc.blk]; simp
    have e2 : (f.data v).block = (s.fv.data u).block.or (s.fv.data v).block := by rw [hc.blk]; simp
    simp only [hc.wt, e1, e2, true_or, or_true, true_and]
    cases hbu : (s.fv.data u).block with
    | none =>
      cases hbv : (s.fv.data v).block with
      | none => simp
      | some c => simp [hbu, hbv]
    | some c =>
      cases hbv : (s.fv.data v).block with
      | none => simp [hbu, hbv]
      | some d =>
        have := hc.agree c d hbu hbv
        simp [hbu, hbv, this]
  · have key := wsumL_two hnd hun hvn huv
      (f := fun x => if (s.fv.data x).block.isSome = true then (s.fv.data x).weight else 0)
      (g := fun x => if (f.data x).block.isSome = true then (f.data x).weight else 0)
      (by
        intro x h1 h2
        simp only [hc.blk x, hc.wt x, h1, h2, or_self, false_and, if_false])
    show f.total = _
    rw [key, hc.total, h.total]
    have e1 : (f.data u).block = (s.fv.data u).block.or (s.fv.data v).block := by rw [hc.blk]; simp
    have e2 : (f.data v).block = (s.fv.data u).block.or (s.fv.data v).block := by rw [hc.blk]; simp
    simp only [hc.wt, e1, e2, true_or, or_true, true_and]
    cases hbu : (s.fv.data u).block with
    | none =>
      cases hbv : (s.fv.data v).block with
      | none => simp
      | some c => simp [hbu, hbv]
    | some c =>
      cases hbv : (s.fv.data v).block with
      | none => simp [hbu, hbv]
      | some d => simp [hbu, hbv]
  · intro x hb
    show 0 ≤ (f.data x).weight
    rw [hc.wt]
    split
    · exact h.nwPos x
    · rename_i hcon
      apply h.stored
      by_contra hno
      apply hcon
      have hno : (s.fv.data x).block = none := by simpa using hno
      refine ⟨?_, hno, hb⟩
      by_contra hx
      rw [hc.blk, if_neg hx, hno] at hb
      simp at hb
  · intro x
    have : (((u, v) :: s.tree).map (fun e => if e.1 = x then (if e.2 = u then s.nw u + s.nw v else s.nw e.2) else 0)) =
        (if u = x then s.nw v else 0) :: s.tree.map (fun e => if e.1 = x then s.nw e.2 else 0) := by
      rw [List.map_cons]
      simp only [huv.symm, if_false]
      congr 1
      apply List.map_congr_left
      intro e he
      simp [(hne e he).1.symm]
    show (if x = u then s.nw u + s.nw v else s.nw x) = _ + _
    rw [this, List.sum_cons]
    have hx := h.nwEq x
    by_cases hxu : x = u
    · subst hxu; simp; omega
    · simp [hxu, Ne.symm hxu, hx]
  · intro x
    have h1 := h.nwPos u
    have h2 := h.nwPos v
    have h3 := h.nwPos x
    show 0 ≤ if x = u then s.nw u + s.nw v else s.nw x
    split <;> omega

end NLevel
end Verif
