import Verif.Lemmas.DFlow7
/-! # Deterministic flow refinement: the result does not depend on the schedule -/
namespace Verif
namespace DFlow
open DetLP (Mv moveAll moveAll_other moveAll_mem Fit Good)
open Flow (Env)
open CSt Rollback PHG

variable {σ : Type} {C : ConInfo σ} {c : Cfg} {m mx : Nat} {L : C.Lawful m c.fc.k mx}

theorem sort_perm {l l' : List Nat} (h : l.Perm l') : l.insertionSort (· ≤ ·) = l'.insertionSort (· ≤ ·) :=
  List.Perm.eq_of_pairwise' (List.pairwise_insertionSort _ _) (List.pairwise_insertionSort _ _)
    ((List.perm_insertionSort _ _).trans (h.trans (List.perm_insertionSort _ _).symm))

theorem moveAll_perm {A B : List Mv} (h : A.Perm B) (hn : (A.map Mv.node).Nodup) (Φ : Assign) : moveAll Φ A = moveAll Φ B := by
  funext v
  by_cases hv : v ∈ A.map Mv.node
  · obtain ⟨mv, hm, rfl⟩ := List.mem_map.1 hv
    rw [moveAll_mem A hn mv hm, moveAll_mem B ((h.map _).nodup_iff.1 hn) mv (h.subset hm)]
  · rw [moveAll_other A hv, moveAll_other B (fun hh => hv ((h.map _).mem_iff.2 hh))]

theorem QG.eq_cut {q q' : QG} (hw : q'.weight = q.weight) (hn : q'.nimp = q.nimp) (ht : q'.timp = q.timp) : q' = { q with cut := q'.cut } := by
  cases q; cases q'; simp only at hw hn ht; subst hw; subst hn; subst ht; rfl

/-! ### The scheduler does not read the lists of cut hyperedges and the flags of the next round -/

theorem matchLoop_irr (q : QG) (f : Nat → Nat → List Nat) (n : Nat → Bool) (l : List Nat) : ∀ (h : Sch) (sc : Nat → Bool) (ts : List (Nat × Nat)),
    matchLoop c { q with cut := f } l { h with next := n } sc ts = ({ (matchLoop c q l h sc ts).1 with next := n }, (matchLoop c q l h sc ts).2) := by
  induction l with
  | nil => intro h sc ts; rfl
  | cons b0 l ih =>
    intro h sc ts
    rw [matchLoop, matchLoop]
    have hu : (fun b1 => usable c { q with cut := f } { h with next := n } sc b0 b1) = (fun b1 => usable c q h sc b0 b1) := rfl
    by_cases h0 : sc b0 = true
    · rw [if_pos h0, if_pos h0]; exact ih h sc ts
    · rw [if_neg h0, if_neg h0]
      rw [hu]
      cases hf : (h.pairs b0).find? (fun b1 => usable c q h sc b0 b1) with
      | none =>
        simp only [hf]
        split_ifs
        · rfl
        · exact ih h sc ts
      | some b1 =>
        simp only [hf]
        split_ifs
        · rfl
        · exact ih (take h (min b0 b1) (max b0 b1)) _ _

theorem nextMatching_irr (h : Sch) (q : QG) (f : Nat → Nat → List Nat) (n : Nat → Bool) :
    nextMatching c { h with next := n } { q with cut := f } = ({ (nextMatching c h q).1 with next := n }, (nextMatching c h q).2) :=
  matchLoop_irr q f n _ h _ _

theorem resetImpl_irr (h : Sch) (q : QG) (f : Nat → Nat → List Nat) : resetImpl c h { q with cut := f } = resetImpl c h q := rfl

/-- Same partition and same data that is relevant for the scheduler; the lists of cut hyperedges may be ordered differently, the flags for the next round and
the internal state of the connectivity sets are not compared. -/
structure Same (L : C.Lawful m c.fc.k mx) (x x' : DSt σ) : Prop where
  good : Good L c.fc.H x.s
  good' : Good L c.fc.H x'.s
  part : x'.s.part = x.s.part
  q : x'.q = { x.q with cut := x'.q.cut }
  cut : ∀ i j, (x'.q.cut i j).Perm (x.q.cut i j)
  h : x'.h = { x.h with next := x'.h.next }
  delta : x'.delta = x.delta
  total : x'.total = x.total

theorem Same.matching {x x' : DSt σ} (h : Same L x x') :
    (nextMatching c x'.h x'.q).2 = (nextMatching c x.h x.q).2 ∧
    Same L { x with h := (nextMatching c x.h x.q).1 } { x' with h := (nextMatching c x'.h x'.q).1 } := by
  have e : nextMatching c x'.h x'.q = ({ (nextMatching c x.h x.q).1 with next := x'.h.next }, (nextMatching c x.h x.q).2) := by
    conv_lhs => rw [h.h, h.q]
    exact nextMatching_irr _ _ _ _
  refine ⟨by rw [e], ⟨h.good, h.good', h.part, h.q, h.cut, ?_, h.delta, h.total⟩⟩
  simp only []
  rw [e]

theorem mvOf_same {x x' : DSt σ} (h : Same L x x') (p : Nat × Nat) : mvOf c x'.s.part x'.q p = mvOf c x.s.part x.q p := by
  unfold mvOf
  rw [h.part, sort_perm (h.cut _ _)]

theorem gainOf_same {x x' : DSt σ} (h : Same L x x') (p : Nat × Nat) : gainOf c x'.s.part x'.q p = gainOf c x.s.part x.q p := by
  unfold gainOf
  rw [mvOf_same h, h.part]

theorem connSet_perm (E : Env c.fc m mx) {s s' : CSt σ} (hG : Good L c.fc.H s) (hG' : Good L c.fc.H s') (hp : s'.part = s.part) {e : Nat}
    (he : e ∈ c.fc.H.edges) : (C.connSet s'.con e).Perm (C.connSet s.con e) := by
  obtain ⟨T, r1, r2⟩ := (quiescent_sim E.wf hG.inv hG.wt hG.quiet).con
  obtain ⟨T', r1', r2'⟩ := (quiescent_sim E.wf hG'.inv hG'.wt hG'.quiet).con
  have hem : e < m := (E.fits e he).1
  rw [List.perm_ext_iff_of_nodup (L.connSet_nodup r1' hem) (L.connSet_nodup r1 hem)]
  intro b
  have h1 : b ∈ C.connSet s'.con e ↔ b < c.fc.k ∧ 0 < T' e b := L.connSet_mem r1' hem b
  have h2 : b ∈ C.connSet s.con e ↔ b < c.fc.k ∧ 0 < T e b := L.connSet_mem r1 hem b
  rw [h1, h2]
  constructor
  · rintro ⟨hb, h⟩
    refine ⟨hb, ?_⟩
    rw [r2 e he b hb, ← hp]; rwa [r2' e he b hb] at h
  · rintro ⟨hb, h⟩
    refine ⟨hb, ?_⟩
    rw [r2' e he b hb, hp]; rwa [r2 e he b hb] at h

theorem pushesOf_perm (E : Env c.fc m mx) {s s' : CSt σ} (hG : Good L c.fc.H s) (hG' : Good L c.fc.H s') (hp : s'.part = s.part) {e : Nat}
    (he : e ∈ c.fc.H.edges) (b : Nat) : (pushesOf C s'.con e b).Perm (pushesOf C s.con e b) :=
  ((connSet_perm E hG hG' hp he).filter _).map _

theorem MatchRes.same (E : Env c.fc m mx) (hF : FlowOK c) {x x' y y' : DSt σ} {ms : List (Nat × Nat)} {ch ch' : Choice} (hS : Same L x x')
    (hms : IsMatching c.fc.k ms) (h : MatchRes C c L x ms ch y) (h' : MatchRes C c L x' ms ch' y') :
    Same L y y' ∧ (x'.h.next = x.h.next → Calm ch.order.length ch.flags → Calm ch'.order.length ch'.flags → y'.h.next = y.h.next) := by
  have hΦ : ∀ v ∈ c.fc.H.nodes, ∃ b, b < c.fc.k ∧ x.s.part v = some b := fun v hv => hS.good.inv.assigned v hv
  have ho : ch'.order.Perm ch.order := h'.perm.trans h.perm.symm
  have hmv : mvOf c x'.s.part x'.q = mvOf c x.s.part x.q := funext (mvOf_same hS)
  have hgn : gainOf c x'.s.part x'.q = gainOf c x.s.part x.q := funext (gainOf_same hS)
  have hpart : y'.s.part = y.s.part := by
    rw [h'.part, h.part, hmv, hS.part]
    exact (moveAll_perm (ho.symm.flatMap_right _) (mvOf_nodup hF (hms.perm h.perm) x.q hΦ) _).symm
  have hpush : ch'.pushes.Perm ch.pushes := by
    refine h'.pushes.trans (List.Perm.trans ?_ h.pushes.symm)
    unfold pushList
    rw [hmv, hS.part]
    refine List.Perm.flatMap ho (fun p hp => List.Perm.flatMap_left _ (fun r hr => ?_))
    refine pushesOf_perm E h.good h'.good hpart ?_ _
    unfold newCuts at hr
    obtain ⟨u, hu, hur⟩ := List.mem_filterMap.1 hr
    split_ifs at hur
    cases hur
    have hp' := ho.subset hp
    exact seqLog_he E.wf _ (fun mv hm => (mvOf_ok hF (hms.perm h.perm) x.q hΦ hp').mem mv hm) u hu
  obtain ⟨a1, a2, a3, a4⟩ := report_fold ch.order (gainOf c x.s.part x.q) (sortCut x.q ch.order)
  obtain ⟨b1, b2, b3, b4⟩ := report_fold ch'.order (gainOf c x'.s.part x'.q) (sortCut x'.q ch'.order)
  have hw : x'.q.weight = x.q.weight := by rw [hS.q]
  have hn : x'.q.nimp = x.q.nimp := by rw [hS.q]
  have ht : x'.q.timp = x.q.timp := by rw [hS.q]
  have yw : y'.q.weight = y.q.weight := by
    funext i j
    rw [h'.q, h.q, addAll_weight, addAll_weight, a2, b2]
    show x'.q.weight i j + _ = x.q.weight i j + _
    rw [hw, ((hpush.filter _).map _).sum_eq]
  have yn : y'.q.nimp = y.q.nimp := by
    funext i j
    rw [h'.q, h.q, (addAll_imp _ _ _).1, (addAll_imp _ _ _).1, a3, b3]
    show x'.q.nimp i j + _ = x.q.nimp i j + _
    rw [hn, hgn, (ho.filter _).length_eq]
  have yt : y'.q.timp = y.q.timp := by
    funext i j
    rw [h'.q, h.q, (addAll_imp _ _ _).2, (addAll_imp _ _ _).2, a4, b4]
    show x'.q.timp i j + _ = x.q.timp i j + _
    rw [ht, hgn, ((ho.filter _).map _).sum_eq]
  obtain ⟨f, f1, f2, f3⟩ := h.h
  obtain ⟨f', f1', f2', f3'⟩ := h'.h
  refine ⟨⟨h.good, h'.good, hpart, ?_, ?_, ?_, ?_, ?_⟩, ?_⟩
  · exact QG.eq_cut yw yn yt
  · intro i j
    rw [h'.q, h.q, addAll_cut, addAll_cut, a1, b1]
    refine List.Perm.append ?_ ((hpush.filter _).map _)
    unfold sortCut
    simp only []
    have hc := hS.cut i j
    by_cases hm : (i, j) ∈ ch.order
    · rw [if_pos hm, if_pos (ho.mem_iff.2 hm), sort_perm hc]
    · rw [if_neg hm, if_neg (fun hh => hm (ho.mem_iff.1 hh))]
      exact hc
  · rw [f3', f3, hS.h]
  · rw [h'.delta, h.delta, hS.delta, hgn, (ho.map _).sum_eq]
  · rw [h'.total, h.total, hS.total]
  · intro hnx c1 c2
    rw [f3', f3]
    simp only []
    funext b
    rw [Bool.eq_iff_iff, flags_calm f1' f2' c2, flags_calm f1 f2 c1, hnx, hgn]
    refine or_congr Iff.rfl ?_
    constructor
    · rintro ⟨p, hp, hh⟩; exact ⟨p, ho.subset hp, hh⟩
    · rintro ⟨p, hp, hh⟩; exact ⟨p, ho.symm.subset hp, hh⟩

/-- no lost flags in a round -/
def CalmRound (r : List Choice) : Prop := ∀ ch ∈ r, Calm ch.order.length ch.flags

theorem round_same (E : Env c.fc m mx) (hF : FlowOK c) (hew : ∀ e ∈ c.fc.H.edges, 0 ≤ c.fc.H.ew e) (chs : List Choice) :
    ∀ {chs' : List Choice} {x x' y y' : DSt σ}, Same L x x' → RInv c x.h x.q → RInv c x'.h x'.q → roundExec C c x chs = some y → roundExec C c x' chs' = some y' →
    Same L y y' ∧ chs'.length = chs.length ∧ (x'.h.next = x.h.next → CalmRound chs → CalmRound chs' → y'.h.next = y.h.next) := by
  induction chs with
  | nil =>
    intro chs' x x' y y' hS hI hI' he he'
    obtain ⟨e1, e2⟩ := hS.matching
    rw [roundExec] at he
    split_ifs at he with hn
    injection he with he; subst he
    cases chs' with
    | nil =>
      rw [roundExec] at he'
      split_ifs at he' with hn'
      injection he' with he'; subst he'
      refine ⟨e2, rfl, fun hh _ _ => ?_⟩
      simp only []
      rw [(nextMatching_spec hI').2.next, (nextMatching_spec hI).2.next, hh]
    | cons ch' chs' =>
      rw [roundExec, if_pos (by rw [e1, hn])] at he'
      cases he'
  | cons ch chs ih =>
    intro chs' x x' y y' hS hI hI' he he'
    obtain ⟨e1, e2⟩ := hS.matching
    rw [roundExec] at he
    split_ifs at he with hn
    cases chs' with
    | nil =>
      rw [roundExec, if_neg (by rw [e1]; exact hn)] at he'
      cases he'
    | cons ch' chs' =>
      rw [roundExec, if_neg (by rw [e1]; exact hn)] at he'
      obtain ⟨n1, n2⟩ := nextMatching_spec hI
      obtain ⟨n1', n2'⟩ := nextMatching_spec hI'
      have hms : IsMatching c.fc.k (nextMatching c x.h x.q).2 := ⟨fun p hp => ⟨(n2.task p hp).1, (n2.task p hp).2.1⟩, n2.disj⟩
      rw [e1] at he'
      cases hm : DFlow.matching C c { x with h := (nextMatching c x.h x.q).1 } (nextMatching c x.h x.q).2 ch with
      | none => rw [hm] at he; cases he
      | some z =>
        rw [hm] at he
        simp only [] at he
        cases hm' : DFlow.matching C c { x' with h := (nextMatching c x'.h x'.q).1 } (nextMatching c x.h x.q).2 ch' with
        | none => rw [hm'] at he'; cases he'
        | some z' =>
          rw [hm'] at he'
          simp only [] at he'
          have M := matching_spec (x := { x with h := (nextMatching c x.h x.q).1 }) E hF hS.good hms hm
          have M' := matching_spec (x := { x' with h := (nextMatching c x'.h x'.q).1 }) E hF hS.good' hms hm'
          obtain ⟨w1, w2⟩ := MatchRes.mono (x := { x with h := (nextMatching c x.h x.q).1 }) E hF hew hS.good hms M
          obtain ⟨w1', w2'⟩ := MatchRes.mono (x := { x' with h := (nextMatching c x'.h x'.q).1 }) E hF hew hS.good' hms M'
          obtain ⟨f, _, _, hh⟩ := M.h
          obtain ⟨f', _, _, hh'⟩ := M'.h
          have hzI : RInv c z.h z.q := RInv.mono n1 (by rw [hh]) (by rw [hh]) (by rw [hh]) (by rw [hh]) (by rw [hh]) w1 w2
          have hzI' : RInv c z'.h z'.q := RInv.mono n1' (by rw [hh']) (by rw [hh']) (by rw [hh']) (by rw [hh']) (by rw [hh']) w1' w2'
          obtain ⟨s1, s2⟩ := MatchRes.same (x := { x with h := (nextMatching c x.h x.q).1 }) (x' := { x' with h := (nextMatching c x'.h x'.q).1 }) E hF e2 hms M M'
          obtain ⟨i1, i2, i3⟩ := ih s1 hzI hzI' he he'
          refine ⟨i1, by rw [List.length_cons, List.length_cons, i2], fun hnx c1 c2 => i3 (s2 ?_ (c1 ch (by simp)) (c2 ch' (by simp)))
            (fun a ha => c1 a (by simp [ha])) (fun a ha => c2 a (by simp [ha]))⟩
          simp only []
          rw [n2.next, n2'.next, hnx]

theorem refine_same (E : Env c.fc m mx) (hF : FlowOK c) (hew : ∀ e ∈ c.fc.H.edges, 0 ≤ c.fc.H.ew e) (rs : List (List Choice)) :
    ∀ {rs' : List (List Choice)} {x x' y y' : DSt σ} {d : Option Int}, Same L x x' → x'.h.next = x.h.next → Fresh C c L x → Fresh C c L x' →
    refine C c x d rs = some y → refine C c x' d rs' = some y' → (∀ r ∈ rs, CalmRound r) → (∀ r ∈ rs', CalmRound r) →
    Same L y y' ∧ y'.h = y.h ∧ rs'.length = rs.length := by
  induction rs with
  | nil =>
    intro rs' x x' y y' d hS hnx hf hf' he he' _ _
    obtain ⟨e1, e2⟩ := hS.matching
    rw [refine] at he
    split_ifs at he with hn
    injection he with he; subst he
    cases rs' with
    | nil =>
      rw [refine] at he'
      split_ifs at he' with hn'
      injection he' with he'; subst he'
      exact ⟨hS, by rw [hS.h, hnx], rfl⟩
    | cons r' rs' =>
      rw [refine, if_pos (by rw [e1]; exact hn)] at he'
      cases he'
  | cons r rs ih =>
    intro rs' x x' y y' d hS hnx hf hf' he he' hc hc'
    obtain ⟨e1, e2⟩ := hS.matching
    rw [refine] at he
    split_ifs at he with hn
    cases rs' with
    | nil =>
      rw [refine, if_neg (by rw [e1]; exact hn)] at he'
      cases he'
    | cons r' rs' =>
      rw [refine, if_neg (by rw [e1]; exact hn)] at he'
      cases hr : roundExec C c { x with delta := 0 } r with
      | none => rw [hr] at he; cases he
      | some z =>
        rw [hr] at he
        simp only [] at he
        cases hr' : roundExec C c { x' with delta := 0 } r' with
        | none => rw [hr'] at he'; cases he'
        | some z' =>
          rw [hr'] at he'
          simp only [] at he'
          have hS0 : Same L { x with delta := 0 } { x' with delta := 0 } := ⟨hS.good, hS.good', hS.part, hS.q, hS.cut, hS.h, rfl, hS.total⟩
          obtain ⟨s1, s2, s3⟩ := round_same (x := { x with delta := 0 }) (x' := { x' with delta := 0 }) E hF hew r hS0 hf.inv hf'.inv hr hr'
          have hz := s3 hnx (hc r (by simp)) (hc' r' (by simp))
          have hzh : z'.h = z.h := by rw [s1.h, hz]
          have hreset : resetRound c z'.h z'.q = resetRound c z.h z.q := by
            rw [hzh, s1.q]; rfl
          rw [s1.delta] at he'
          obtain ⟨i1, i2, i3⟩ := ih (x := { z with total := z.total + z.delta, h := resetRound c z.h z.q })
            (x' := { z' with total := z'.total + z.delta, delta := z.delta, h := resetRound c z'.h z'.q })
            ⟨s1.good, s1.good', s1.part, s1.q, s1.cut, by simp only []; rw [hreset], rfl, by simp only []; rw [s1.total]⟩
            (by simp only []; rw [hreset]) (hf.round E hF hew hr).1 (by have := (hf'.round E hF hew hr').1; rwa [s1.delta] at this) he he'
            (fun a ha => hc a (by simp [ha])) (fun a ha => hc' a (by simp [ha]))
          exact ⟨i1, i2, by rw [List.length_cons, List.length_cons, i3]⟩

/-- the quotient graph after the initialization -/
theorem start_same (E : Env c.fc m mx) {s s' : CSt σ} (hG : Good L c.fc.H s) (hG' : Good L c.fc.H s') (hp : s'.part = s.part) (q0 : QG) (h0 : Sch)
    {order order' : List (Nat × Nat × Nat)} (ho : order.Perm (c.fc.H.edges.flatMap (initPushes C s.con)))
    (ho' : order'.Perm (c.fc.H.edges.flatMap (initPushes C s'.con))) :
    Same L (start C c s q0 h0 order) (start C c s' q0 h0 order') ∧ (start C c s' q0 h0 order').h = (start C c s q0 h0 order).h := by
  have hpo : order'.Perm order := by
    refine ho'.trans (List.Perm.trans ?_ ho.symm)
    refine List.Perm.flatMap_left _ (fun e he => ?_)
    have hcs := connSet_perm E hG hG' hp he
    unfold initPushes
    exact List.Perm.flatMap hcs (fun i _ => (hcs.filter _).map _)
  have hq : (start C c s' q0 h0 order').q = { (start C c s q0 h0 order).q with cut := (start C c s' q0 h0 order').q.cut } := by
    have hw : (start C c s' q0 h0 order').q.weight = (start C c s q0 h0 order).q.weight := by
      funext i j
      show (addAll _ _ _).weight i j = (addAll _ _ _).weight i j
      rw [addAll_weight, addAll_weight, ((hpo.filter _).map _).sum_eq]
    have hn : (start C c s' q0 h0 order').q.nimp = (start C c s q0 h0 order).q.nimp := by
      show (addAll _ _ _).nimp = (addAll _ _ _).nimp
      rw [(addAll_imp _ _ _).1, (addAll_imp _ _ _).1]
    have ht : (start C c s' q0 h0 order').q.timp = (start C c s q0 h0 order).q.timp := by
      show (addAll _ _ _).timp = (addAll _ _ _).timp
      rw [(addAll_imp _ _ _).2, (addAll_imp _ _ _).2]
    exact QG.eq_cut hw hn ht
  have hh : (start C c s' q0 h0 order').h = (start C c s q0 h0 order).h := by
    show initSch c h0 (start C c s' q0 h0 order').q = initSch c h0 (start C c s q0 h0 order).q
    rw [hq]; rfl
  refine ⟨⟨hG, hG', hp, hq, ?_, by rw [hh], rfl, rfl⟩, hh⟩
  intro i j
  show ((addAll _ _ _).cut i j).Perm ((addAll _ _ _).cut i j)
  rw [addAll_cut, addAll_cut]
  exact List.Perm.append (List.Perm.refl _) ((hpo.filter _).map _)

/-- at most one pair per matching for `k ≤ 3` -/
theorem small_matching {k : Nat} (hk : k ≤ 3) {ms : List (Nat × Nat)} (h : IsMatching k ms) : ms.length ≤ 1 := by
  match ms, h with
  | [], _ => simp
  | [_], _ => simp
  | p :: p' :: ms, h =>
    exfalso
    have hd := (List.pairwise_cons.1 h.disj).1 p' (by simp)
    have h1 := h.lt p (by simp)
    have h2 := h.lt p' (by simp)
    obtain ⟨d1, d2, d3, d4⟩ := hd
    omega

theorem round_calm_small (E : Env c.fc m mx) (hF : FlowOK c) (hew : ∀ e ∈ c.fc.H.edges, 0 ≤ c.fc.H.ew e) (hk : c.fc.k ≤ 3) (rs : List (List Choice)) :
    ∀ {x y : DSt σ} {d : Option Int}, Fresh C c L x → refine C c x d rs = some y → ∀ r ∈ rs, CalmRound r := by
  induction rs with
  | nil => intro x y d _ _ r hr; simp at hr
  | cons r rs ih =>
    intro x y d h he
    rw [refine] at he
    split_ifs at he
    cases hr : roundExec C c { x with delta := 0 } r with
    | none => rw [hr] at he; cases he
    | some z =>
      rw [hr] at he
      simp only [] at he
      obtain ⟨f, R⟩ := h.round E hF hew hr
      intro r' hr'
      rcases List.mem_cons.1 hr' with rfl | hr'
      · intro ch hch
        exact Or.inl (small_matching hk (R.each ch hch).2)
      · exact ih f he r' hr'

end DFlow
end Verif
