import Verif.Lemmas.DFlow8
/-! # Deterministic flow refinement: which pairs are processed -/
namespace Verif
namespace DFlow
open DetLP (Mv moveAll moveAll_other moveAll_mem Fit Good)
open Flow (Env)
open CSt Rollback PHG

variable {σ : Type} {C : ConInfo σ} {c : Cfg} {m mx : Nat} {L : C.Lawful m c.fc.k mx}

theorem MatchRes.nimp {x y : DSt σ} {ms : List (Nat × Nat)} {ch : Choice} (h : MatchRes C c L x ms ch y) (i j : Nat) :
    x.q.nimp i j ≤ y.q.nimp i j ∧ (x.q.nimp i j < y.q.nimp i j ↔ (i, j) ∈ ch.order ∧ gainOf c x.s.part x.q (i, j) > 0) := by
  obtain ⟨a1, a2, a3, a4⟩ := report_fold ch.order (gainOf c x.s.part x.q) (sortCut x.q ch.order)
  have : y.q.nimp i j = x.q.nimp i j + (ch.order.filter (fun p => decide (p = (i, j) ∧ gainOf c x.s.part x.q p > 0))).length := by
    rw [h.q, (addAll_imp _ _ _).1, a3]; rfl
  rw [this]
  refine ⟨by omega, ?_⟩
  constructor
  · intro hl
    obtain ⟨p, hp⟩ := List.exists_mem_of_length_pos (l := ch.order.filter (fun p => decide (p = (i, j) ∧ gainOf c x.s.part x.q p > 0))) (by omega)
    obtain ⟨h1, h2⟩ := List.mem_filter.1 hp
    obtain ⟨rfl, h3⟩ := of_decide_eq_true h2
    exact ⟨h1, h3⟩
  · rintro ⟨h1, h2⟩
    have hm : (i, j) ∈ ch.order.filter (fun p => decide (p = (i, j) ∧ gainOf c x.s.part x.q p > 0)) :=
      List.mem_filter.2 ⟨h1, decide_eq_true ⟨rfl, h2⟩⟩
    have := List.length_pos_of_mem hm
    omega

/-- an improvement was found for a pair with block `b` -/
def Hit (q q' : QG) (b : Nat) : Prop := ∃ i j, (b = i ∨ b = j) ∧ q.nimp i j < q'.nimp i j

theorem Hit.split {q q1 q2 : QG} (h1 : ∀ i j, q.nimp i j ≤ q1.nimp i j) (h2 : ∀ i j, q1.nimp i j ≤ q2.nimp i j) {b : Nat} :
    Hit q q2 b ↔ Hit q q1 b ∨ Hit q1 q2 b := by
  constructor
  · rintro ⟨i, j, hb, hl⟩
    rcases Nat.lt_or_ge (q.nimp i j) (q1.nimp i j) with h | h
    · exact Or.inl ⟨i, j, hb, h⟩
    · exact Or.inr ⟨i, j, hb, by omega⟩
  · rintro (⟨i, j, hb, hl⟩ | ⟨i, j, hb, hl⟩)
    · exact ⟨i, j, hb, lt_of_lt_of_le hl (h2 i j)⟩
    · exact ⟨i, j, hb, lt_of_le_of_lt (h1 i j) hl⟩

theorem MatchRes.flags {x y : DSt σ} {ms : List (Nat × Nat)} {ch : Choice} (h : MatchRes C c L x ms ch y) (b : Nat) :
    (y.h.next b = true → x.h.next b = true ∨ Hit x.q y.q b) ∧
    (Calm ch.order.length ch.flags → (y.h.next b = true ↔ x.h.next b = true ∨ Hit x.q y.q b)) := by
  obtain ⟨f, f1, f2, f3⟩ := h.h
  have key : (∃ p ∈ ch.order, gainOf c x.s.part x.q p > 0 ∧ (b = p.1 ∨ b = p.2)) ↔ Hit x.q y.q b := by
    constructor
    · rintro ⟨p, hp, hg, hb⟩
      exact ⟨p.1, p.2, hb, (h.nimp p.1 p.2).2.2 ⟨hp, hg⟩⟩
    · rintro ⟨i, j, hb, hl⟩
      obtain ⟨h1, h2⟩ := (h.nimp i j).2.1 hl
      exact ⟨(i, j), h1, h2, hb⟩
  rw [f3, ← key]
  exact ⟨fun hh => flags_sound f1 hh, fun hc => flags_calm f1 f2 hc b⟩

theorem round_active (E : Env c.fc m mx) (hF : FlowOK c) (hew : ∀ e ∈ c.fc.H.edges, 0 ≤ c.fc.H.ew e) (chs : List Choice) :
    ∀ {x y : DSt σ}, Good L c.fc.H x.s → RInv c x.h x.q → roundExec C c x chs = some y →
    (∀ i j, x.q.nimp i j ≤ y.q.nimp i j) ∧ (∀ b, y.h.next b = true → x.h.next b = true ∨ Hit x.q y.q b) ∧
    (CalmRound chs → ∀ b, (y.h.next b = true ↔ x.h.next b = true ∨ Hit x.q y.q b)) := by
  induction chs with
  | nil =>
    intro x y hG hI he
    rw [roundExec] at he
    split_ifs at he with hn
    injection he with he; subst he
    have hno : ∀ b, ¬ Hit x.q x.q b := by rintro b ⟨i, j, _, hl⟩; omega
    refine ⟨fun _ _ => Nat.le_refl _, fun b hb => Or.inl ?_, fun _ b => ?_⟩
    · rw [← (nextMatching_spec hI).2.next]; exact hb
    · simp only [hno b, or_false]
      rw [(nextMatching_spec hI).2.next]
  | cons ch chs ih =>
    intro x y hG hI he
    rw [roundExec] at he
    split_ifs at he with hn
    obtain ⟨n1, n2⟩ := nextMatching_spec hI
    have hms : IsMatching c.fc.k (nextMatching c x.h x.q).2 := ⟨fun p hp => ⟨(n2.task p hp).1, (n2.task p hp).2.1⟩, n2.disj⟩
    cases hm : matching C c { x with h := (nextMatching c x.h x.q).1 } (nextMatching c x.h x.q).2 ch with
    | none => rw [hm] at he; cases he
    | some z =>
      rw [hm] at he
      simp only [] at he
      have M := matching_spec (x := { x with h := (nextMatching c x.h x.q).1 }) E hF hG hms hm
      obtain ⟨w1, w2⟩ := MatchRes.mono (x := { x with h := (nextMatching c x.h x.q).1 }) E hF hew hG hms M
      obtain ⟨f, _, _, hh⟩ := M.h
      have hzI : RInv c z.h z.q := RInv.mono n1 (by rw [hh]) (by rw [hh]) (by rw [hh]) (by rw [hh]) (by rw [hh]) w1 w2
      obtain ⟨i1, i2, i3⟩ := ih M.good hzI he
      have hsp : ∀ b, Hit x.q y.q b ↔ Hit x.q z.q b ∨ Hit z.q y.q b := fun b => Hit.split w2 i1
      have hfl := fun b => M.flags b
      simp only [] at hfl
      rw [n2.next] at hfl
      refine ⟨fun i j => Nat.le_trans (w2 i j) (i1 i j), fun b hb => ?_, fun hc b => ?_⟩
      · rw [hsp]
        rcases i2 b hb with h | h
        · rcases (hfl b).1 h with h | h
          · exact Or.inl h
          · exact Or.inr (Or.inl h)
        · exact Or.inr (Or.inr h)
      · rw [hsp, i3 (fun a ha => hc a (by simp [ha])) b, (hfl b).2 (hc ch (by simp)), or_assoc]

/-! ### The initial quotient graph -/

theorem initPushes_filter (E : Env c.fc m mx) {s : CSt σ} (hG : Good L c.fc.H s) {e : Nat} (he : e ∈ c.fc.H.edges) {i j : Nat} (hij : i < j) (hj : j < c.fc.k) :
    (((initPushes C s.con e).filter (fun p => decide (i = min p.1 p.2.1 ∧ j = max p.1 p.2.1))).map (fun p => c.fc.H.ew p.2.2)).sum =
    if 0 < c.fc.H.pinsIn s.part e i ∧ 0 < c.fc.H.pinsIn s.part e j then c.fc.H.ew e else 0 := by
  obtain ⟨T, r1, r2⟩ := (quiescent_sim E.wf hG.inv hG.wt hG.quiet).con
  have hem : e < m := (E.fits e he).1
  have hnd : (C.connSet s.con e).Nodup := L.connSet_nodup r1 hem
  have hmem : ∀ b, b < c.fc.k → (b ∈ C.connSet s.con e ↔ 0 < c.fc.H.pinsIn s.part e b) := by
    intro b hb
    have : b ∈ C.connSet s.con e ↔ b < c.fc.k ∧ 0 < T e b := L.connSet_mem r1 hem b
    have r2' : T e b = c.fc.H.pinsIn s.part e b := r2 e he b hb
    rw [this, ← r2']
    exact ⟨fun h => h.2, fun h => ⟨hb, h⟩⟩
  have hpm : ∀ p, p ∈ initPushes C s.con e ↔ p.1 ∈ C.connSet s.con e ∧ p.2.1 ∈ C.connSet s.con e ∧ p.1 < p.2.1 ∧ p.2.2 = e := by
    rintro ⟨a, b, e'⟩
    unfold initPushes
    simp only [List.mem_flatMap, List.mem_map, List.mem_filter, decide_eq_true_eq, Prod.mk.injEq]
    constructor
    · rintro ⟨i', hi, j', ⟨hj, hl⟩, rfl, rfl, rfl⟩; exact ⟨hi, hj, hl, rfl⟩
    · rintro ⟨h1, h2, h3, rfl⟩; exact ⟨a, h1, b, ⟨h2, h3⟩, rfl, rfl, rfl⟩
  have hN : (initPushes C s.con e).Nodup := by
    unfold initPushes
    rw [List.nodup_flatMap]
    refine ⟨fun a _ => List.Nodup.map (fun b b' hh => by simpa using hh) (hnd.filter _), ?_⟩
    refine hnd.pairwise_of_forall_ne (fun a _ b _ hab => ?_)
    intro p hp hq
    obtain ⟨_, _, rfl⟩ := List.mem_map.1 hp
    obtain ⟨_, _, h2⟩ := List.mem_map.1 hq
    exact hab (congrArg Prod.fst h2).symm
  have hf : ∀ p, p ∈ (initPushes C s.con e).filter (fun p => decide (i = min p.1 p.2.1 ∧ j = max p.1 p.2.1)) ↔
      p = (i, j, e) ∧ 0 < c.fc.H.pinsIn s.part e i ∧ 0 < c.fc.H.pinsIn s.part e j := by
    rintro ⟨a, b, e'⟩
    rw [List.mem_filter, hpm, ← hmem i (by omega), ← hmem j hj]
    simp only [decide_eq_true_eq, Prod.mk.injEq]
    constructor
    · rintro ⟨⟨h1, h2, h3, rfl⟩, h4, h5⟩
      have ea : a = i := by omega
      have eb : b = j := by omega
      subst ea; subst eb
      exact ⟨⟨rfl, rfl, rfl⟩, h1, h2⟩
    · rintro ⟨⟨rfl, rfl, rfl⟩, h1, h2⟩
      exact ⟨⟨h1, h2, hij, rfl⟩, by omega, by omega⟩
  split_ifs with hc
  · have : ((initPushes C s.con e).filter (fun p => decide (i = min p.1 p.2.1 ∧ j = max p.1 p.2.1))).Perm [(i, j, e)] := by
      rw [List.perm_ext_iff_of_nodup (hN.filter _) (List.nodup_singleton _)]
      intro p; rw [hf p]; simp [hc]
    rw [(this.map _).sum_eq]; simp
  · have : (initPushes C s.con e).filter (fun p => decide (i = min p.1 p.2.1 ∧ j = max p.1 p.2.1)) = [] := by
      apply List.eq_nil_iff_forall_not_mem.2
      intro p hp
      exact hc ((hf p).1 hp).2
    rw [this]; simp

theorem flatMap_filter_sum (P : Nat × Nat × Nat → Bool) (w : Nat × Nat × Nat → Int) (f : Nat → List (Nat × Nat × Nat)) (l : List Nat) :
    (((l.flatMap f).filter P).map w).sum = (l.map (fun e => (((f e).filter P).map w).sum)).sum := by
  induction l with
  | nil => rfl
  | cons e l ih => rw [List.flatMap_cons, List.filter_append, List.map_append, List.sum_append, ih, List.map_cons, List.sum_cons]

theorem start_weight (E : Env c.fc m mx) {s : CSt σ} (hG : Good L c.fc.H s) (q0 : QG) (h0 : Sch) {order : List (Nat × Nat × Nat)}
    (ho : order.Perm (c.fc.H.edges.flatMap (initPushes C s.con))) {i j : Nat} (hij : i < j) (hj : j < c.fc.k) :
    (start C c s q0 h0 order).q.weight i j =
    (c.fc.H.edges.map (fun e => if 0 < c.fc.H.pinsIn s.part e i ∧ 0 < c.fc.H.pinsIn s.part e j then c.fc.H.ew e else 0)).sum := by
  show (addAll _ _ _).weight i j = _
  rw [addAll_weight, ((ho.filter _).map _).sum_eq, flatMap_filter_sum]
  simp only [Int.zero_add]
  congr 1
  exact List.map_congr_left (fun e he => initPushes_filter E hG he hij hj)

theorem start_active (s : CSt σ) (q0 : QG) (h0 : Sch) (order : List (Nat × Nat × Nat)) :
    (start C c s q0 h0 order).h.active = (fun _ => true) ∧ (start C c s q0 h0 order).h.round = 0 := by
  obtain ⟨r1, r2, r3, r4, r5, r6⟩ := resetImpl_spec (c := c) { h0 with next := fun _ => true, round := 0 } (start C c s q0 h0 order).q
  exact ⟨r2, r5⟩

end DFlow
end Verif
