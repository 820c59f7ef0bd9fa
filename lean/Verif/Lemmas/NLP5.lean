import Verif.Lemmas.NLP4
/-!
# Every step of the uncontraction of a batch preserves the invariant
-/
namespace Verif
namespace Dyn
open SMap (wr)

variable {σ : Type} {C : ConInfo σ} {m k mx : Nat}
variable {s0 : DH} {par ver bi : Nat → Nat} {G : Gh} {V c : Nat} {b : List (Nat × Nat)} {U : UG} {L : C.Lawful m k mx} {o : Metrics.Obj} {ini : Bool}
  {part : Assign} {cache0 : Nat → Int} {s s' : PUSt σ}

/-- what does not change while a batch is uncontracted -/
structure PFix (s0 : DH) (par : Nat → Nat) (m k mx : Nat) (b : List (Nat × Nat)) (part : Assign) (h : DH) : Prop where
  mEq : s0.m = m
  parEq : h.par = par
  slots : ∀ e, s0.used e → (h.pins e).length ≤ mx
  parts : ∀ u v, (u, v) ∈ b → part v = part u ∧ ∃ bl, bl < k ∧ part u = some bl

theorem PFix.step (hF : PFix s0 par m k mx b part s.x.h) {x' : USt} (h : UStep b s.x x') : PFix s0 par m k mx b part x'.h := by
  refine ⟨hF.mEq, h.frame.2.2.2.1.trans hF.parEq, fun e he => ?_, hF.parts⟩
  rw [h.slots]; exact hF.slots e he

theorem PInv.other (hc : Clean s0) (hS : Stat s0 par ver bi G) (hb : BatchOK par bi c b) (hI : UInv s0 par ver bi G V c b s.x U) (hF : PFix s0 par m k mx b part s.x.h)
    (hP : PInv L o ini b part cache0 s) {x' : USt} (h : UStep b s.x x') (hp : x'.h.pins = s.x.h.pins) (hs : x'.h.size = s.x.h.size) :
    PInv L o ini b part cache0 { s with x := x' } := by
  obtain ⟨e1, e2, e3, e4, e5⟩ := h.frame
  have hep : x'.h.edgePins = s.x.h.edgePins := by funext e; unfold DH.edgePins; rw [hp, hs]
  refine ⟨hP.parts, ?_, ?_, ?_, hP.out, ?_, ?_, hP.off⟩
  · show ∃ T, L.R s.P.con T ∧ ∀ e, e < m → ∀ b, b < k → T e b = if x'.h.een e = true then bcnt part (x'.h.edgePins e) b else 0
    rw [e1, hep]; exact hP.con
  · show ∀ e, e < m → x'.h.een e = true → ∀ x ∈ x'.h.edgePins e, ∃ b, b < k ∧ part x = some b
    rw [e1, hep]; exact hP.asg
  · intro bl hbl
    show s.P.wt bl = wtSum x'.h part bl
    rw [hP.wt bl hbl]
    rcases e5 with ⟨a1, a2⟩ | ⟨j, u, v, hj, ht, a1, a2⟩
    · unfold wtSum; rw [e3, a1, a2]
    · obtain ⟨p1, p2, p3, p4, p5, p6⟩ := hI.parent hS hb hj
      obtain ⟨h1, h2, h3⟩ := hb.at hj
      have hcalls : CallsOK G s.x.h s.x.flag U v [] none := hI.at hj ht
      have hv := (hS.live v h1).1
      have := wtSum_enable (h := s.x.h) (part := part) (u := u) (v := v) (by rw [hI.core.nEq]; exact p1.1) (by rw [hI.core.nEq]; exact hv.1)
        (by rintro rfl; exact h1 h2) p4 hcalls.en (hF.parts u v (List.mem_of_getElem? hj)).1 bl
      rw [← this]
      unfold wtSum
      rw [e3, a1, a2]
  · show ini = true → ∀ x bl, bl < k → s.cache (benIdx k x bl) + ∑ j ∈ Finset.range b.length, opsSum part (benIdx k x bl) (s.todo j) = benSum o m x'.h part x bl
    have : ∀ x bl, benSum o m x'.h part x bl = benSum o m s.x.h part x bl := by intro x bl; unfold benSum; rw [e1, e2, hep]
    intro hi x bl hbl; rw [this]; exact hP.ben hi x bl hbl
  · show ini = true → ∀ x, s.cache (penIdx k x) + ∑ j ∈ Finset.range b.length, opsSum part (penIdx k x) (s.todo j) = penSum o m x'.h part x
    have : ∀ x, penSum o m x'.h part x = penSum o m s.x.h part x := by intro x; unfold penSum; rw [e1, e2, hep]
    intro hi x; rw [this]; exact hP.pen hi x

theorem PInv.cacheStep (hP : PInv L o ini b part cache0 s) {j i : Nat} {a : Int} {rest : List CacheOp} (h0 : s.todo j = .add i a :: rest) :
    PInv L o ini b part cache0 { s with cache := cacheAdd s.cache i a, todo := wr s.todo j rest } := by
  have hj : j < b.length := by
    rcases Nat.lt_or_ge j b.length with h | h
    · exact h
    · rw [hP.out j h] at h0; cases h0
  have hini : ini = true := by
    cases hi : ini with
    | true => rfl
    | false => rw [(hP.off hi).2 j] at h0; cases h0
  have hsum : ∀ q, cacheAdd s.cache i a q + ∑ j' ∈ Finset.range b.length, opsSum part q (wr s.todo j rest j') = s.cache q + ∑ j' ∈ Finset.range b.length, opsSum part q (s.todo j') := by
    intro q
    rw [sum_todo hj, h0, opsSum_cons]
    simp only [CacheOp.contrib, cacheAdd]
    by_cases hq : q = i
    · subst hq; simp; omega
    · rw [if_neg hq, if_neg (fun h => hq h.symm)]; omega
  refine ⟨hP.parts, hP.con, hP.asg, hP.wt, ?_, ?_, ?_, ?_⟩
  · intro j' hj'
    show wr s.todo j _ j' = []
    rw [wr_other _ _ (by omega)]; exact hP.out j' hj'
  · intro hi x bl hbl
    exact (hsum _).trans (hP.ben hi x bl hbl)
  · intro hi x
    exact (hsum _).trans (hP.pen hi x)
  · intro hi; rw [hini] at hi; cases hi

theorem PInv.writeStep (hS : Stat s0 par ver bi G) (hb : BatchOK par bi c b) (hver : ∀ v, par v ≠ v → bi v = c → ver v = V)
    (hI : UInv s0 par ver bi G V c b s.x U) (hF : PFix s0 par m k mx b part s.x.h)
    (hP : PInv L o ini b part cache0 s) {j u v e p : Nat} {cs : List Call} {blk : Nat} (hj : b[j]? = some (u, v)) (ht : s.x.tk j = .write e p cs)
    (h0 : s.todo j = []) (hb' : s.P.part u = some blk) :
    PInv L o ini b part cache0 { s with
        x := { s.x with h := { s.x.h with pins := wr s.x.h.pins e ((s.x.h.pins e).set p v) }, tk := wr s.x.tk j (.nets cs) }
        todo := wr s.todo j (if ini then replaceOps o k (s.x.h.size e) (C.connSet s.P.con e) (C.connectivity s.P.con e) (C.pinCount s.P.con e) blk u v (s.x.h.ew e) else []) } := by
  obtain ⟨w1, w2, w3, w4, w5, w6, w7, w8, w9⟩ := hI.writeNet hS hb hver hj ht
  obtain ⟨_, k2, k3⟩ := hI.at hj ht
  have hem : e < m := hF.mEq ▸ w1.1
  have hjl : j < b.length := (List.getElem?_eq_some_iff.1 hj).1
  obtain ⟨hpv, bl, hbl, hpu⟩ := hF.parts u v (List.mem_of_getElem? hj)
  have hblk : bl = blk := by
    rw [hP.parts, hpu] at hb'; injection hb'
  subst hblk
  have hpin : ∀ e', ({ s.x.h with pins := wr s.x.h.pins e ((s.x.h.pins e).set p v) } : DH).edgePins e' = if e' = e then (s.x.h.edgePins e).set p v else s.x.h.edgePins e' := by
    intro e'
    show (wr s.x.h.pins e ((s.x.h.pins e).set p v) e').take (s.x.h.size e') = _
    by_cases he : e' = e
    · subst he; rw [wr_same, if_pos rfl]; exact w6
    · rw [wr_other _ _ he, if_neg he]; rfl
  have hgetD : (s.x.h.edgePins e).getD p 0 = u := by
    show ((s.x.h.pins e).take _).getD p 0 = u
    rw [List.getD_eq_getElem?_getD, List.getElem?_take_of_lt k2, ← List.getD_eq_getElem?_getD]; exact k3
  have hcnt : ∀ b, bcnt part ((s.x.h.edgePins e).set p v) b = bcnt part (s.x.h.edgePins e) b := bcnt_set (by rw [w9]; exact k2) hgetD hpv
  obtain ⟨T, hR, hT⟩ := hP.con
  have hasg' : ∀ x ∈ (s.x.h.edgePins e).set p v, ∃ b, b < k ∧ part x = some b := by
    intro x hx
    rcases (w8 x).1 hx with rfl | ⟨_, hx⟩
    · exact ⟨bl, hbl, hpv.trans hpu⟩
    · exact hP.asg e hem w2 x hx
  have hN : NetCnt k part ((s.x.h.edgePins e).set p v) (C.connSet s.P.con e) (C.connectivity s.P.con e) (C.pinCount s.P.con e) := by
    refine netCnt_of hR hem w7 hasg' (fun b hb => ?_)
    rw [hT e hem b hb, if_pos w2, hcnt]
  have hlen : ((s.x.h.edgePins e).set p v).length = s.x.h.size e := by rw [List.length_set, w9]
  have hpc : ∀ b, b < k → C.pinCount s.P.con e b = bcnt part (s.x.h.edgePins e) b := by
    intro b hb; rw [L.pinCount_eq hR hem hb, hT e hem b hb, if_pos w2]
  refine hP.netStep (x' := { s.x with h := { s.x.h with pins := wr s.x.h.pins e ((s.x.h.pins e).set p v) }, tk := wr s.x.tk j (.nets cs) }) (con' := s.P.con)
    hem hjl h0 w2 rfl rfl rfl rfl rfl ?_ ?_ ?_ ?_ ?_
  · intro e' he'
    show DH.edgePins _ e' = _
    rw [hpin, if_neg he']
  · show ∀ x ∈ DH.edgePins _ e, _
    rw [hpin, if_pos rfl]
    exact hasg'
  · refine ⟨T, hR, fun e' he' b hb => ?_⟩
    rw [hT e' he' b hb]
    show (if s.x.h.een e' = true then _ else 0) = if s.x.h.een e' = true then bcnt part (DH.edgePins _ e') b else 0
    rw [hpin]
    by_cases he : e' = e
    · subst he; rw [if_pos (c := e' = e') rfl, hcnt]
    · rw [if_neg (c := e' = e) he]
  · intro _ x b hb
    show _ = netBen o _ (DH.edgePins _ e) (bcnt part (DH.edgePins _ e)) x b - _
    rw [hpin, if_pos rfl, ← hlen, replace_ben o hN hbl (hpv.trans hpu) w3 ((w8 v).2 (Or.inl rfl)) (s.x.h.ew e) w4 (by rw [hlen]; exact w9) w8 w5 hb part]
    rw [netBen_congr (pc := C.pinCount s.P.con e) (pc' := bcnt part ((s.x.h.edgePins e).set p v)) (by rw [hpc b hb, hcnt]),
      netBen_congr (pc := C.pinCount s.P.con e) (pc' := bcnt part (s.x.h.edgePins e)) (hpc b hb)]
  · intro _ x
    show _ = netPen o _ part (DH.edgePins _ e) (bcnt part (DH.edgePins _ e)) x - _
    rw [hpin, if_pos rfl, ← hlen, replace_pen o hN hbl (hpv.trans hpu) hpu w3 ((w8 v).2 (Or.inl rfl)) (s.x.h.ew e) w4 (by rw [hlen]; exact w9) w8 w5 part]
    rw [netPen_congr (pc := C.pinCount s.P.con e) (pc' := bcnt part ((s.x.h.edgePins e).set p v)) hasg' (fun b hb => by rw [hpc b hb, hcnt]),
      netPen_congr (pc := C.pinCount s.P.con e) (pc' := bcnt part (s.x.h.edgePins e)) (hP.asg e hem w2) hpc]

theorem PInv.growStep (hS : Stat s0 par ver bi G) (hb : BatchOK par bi c b) (hver : ∀ v, par v ≠ v → bi v = c → ver v = V)
    (hI : UInv s0 par ver bi G V c b s.x U) (hF : PFix s0 par m k mx b part s.x.h)
    (hP : PInv L o ini b part cache0 s) {j e p : Nat} {cs : List Call} {blk : Nat} (ht : s.x.tk j = .resize e p cs) (hp : p < (s.x.h.pins e).length)
    (hbi : s.x.h.bi ((s.x.h.pins e).getD p 0) = s.x.h.bi (b.getD 0 (0, 0)).2) (h0 : s.todo j = [])
    (hb' : s.P.part (s.x.h.par ((s.x.h.pins e).getD p 0)) = some blk) :
    PInv L o ini b part cache0 { s with
        x := { s.x with h := { s.x.h with size := wr s.x.h.size e (s.x.h.size e + 1) }, tk := wr s.x.tk j (.resize e (p + 1) cs) }
        P := { s.P with con := (C.incBlock s.P.con e blk).2 }
        todo := wr s.todo j (if ini then restoreOps o k s.P.part ((s.x.h.pins e).take (s.x.h.size e + 1)) (C.connSet (C.incBlock s.P.con e blk).2 e)
          (C.connectivity (C.incBlock s.P.con e blk).2 e) (C.pinCount (C.incBlock s.P.con e blk).2 e) blk ((s.x.h.pins e).getD p 0) (C.incBlock s.P.con e blk).1 (s.x.h.ew e) else []) } := by
  obtain ⟨u, v, hj⟩ := hI.entry (j := j) (by rw [ht]; exact Tk.noConfusion)
  obtain ⟨x, hx⟩ : ∃ x, (s.x.h.pins e).getD p 0 = x := ⟨_, rfl⟩
  obtain ⟨w0, w1, w2, w3, w4, w5, w6, w7, w8, y, w9, w10⟩ := hI.growNet hS hb hver ht hp hbi hx
  rw [hx, hP.parts, hF.parEq] at hb'
  rw [hx, hP.parts, w6]
  have hem : e < m := hF.mEq ▸ w1.1
  have hjl : j < b.length := (List.getElem?_eq_some_iff.1 hj).1
  obtain ⟨hpx, bl, hbl, hpu⟩ := hF.parts (par x) x ((hb.mem _ _).2 ⟨w3, rfl, w4⟩)
  have hblk : bl = blk := by
    rw [hpu] at hb'; injection hb'
  subst hblk
  have hpy : part y = some bl := by
    rcases w10 with rfl | ⟨y1, y2, y3⟩
    · exact hpu
    · rw [(hF.parts (par y) y ((hb.mem _ _).2 ⟨y2, rfl, y3⟩)).1, y1]; exact hpu
  have hpxb : part x = some bl := hpx.trans hpu
  have hpin : ∀ e', ({ s.x.h with size := wr s.x.h.size e (s.x.h.size e + 1) } : DH).edgePins e' = if e' = e then s.x.h.edgePins e ++ [x] else s.x.h.edgePins e' := by
    intro e'
    show (s.x.h.pins e').take (wr s.x.h.size e (s.x.h.size e + 1) e') = _
    by_cases he : e' = e
    · subst he; rw [wr_same, if_pos rfl]; exact w6
    · rw [wr_other _ _ he, if_neg he]; rfl
  obtain ⟨T, hR, hT⟩ := hP.con
  have hTe : ∀ b, b < k → T e b = bcnt part (s.x.h.edgePins e) b := by intro b hb; rw [hT e hem b hb, if_pos w2]
  have hle : T e bl + 1 ≤ mx := by
    have h1 : T e bl ≤ s.x.h.size e := by rw [hTe bl hbl, ← w8]; exact List.countP_le_length
    have h2 := hF.slots e w1
    omega
  obtain ⟨i1, i2⟩ := L.incBlock hR hem hbl hle
  have hT' : ∀ b, b < k → T.upd e bl (T e bl + 1) e b = bcnt part (s.x.h.edgePins e ++ [x]) b := by
    intro b hb
    rw [bcnt_append, hpxb]
    unfold Table.upd
    by_cases hbb : b = bl
    · subst hbb; simp [hTe b hb]
    · have : ¬ (some bl = some b) := by intro h; injection h with h; exact hbb h.symm
      simp [hbb, hTe b hb, Ne.symm hbb]
  have hasg' : ∀ z ∈ s.x.h.edgePins e ++ [x], ∃ b, b < k ∧ part z = some b := by
    intro z hz
    rcases List.mem_append.1 hz with hz | hz
    · exact hP.asg e hem w2 z hz
    · rw [List.mem_singleton] at hz; subst hz; exact ⟨bl, hbl, hpxb⟩
  have hN := netCnt_of i2 hem w7 hasg' hT'
  have hpc' : ∀ b, b < k → C.pinCount (C.incBlock s.P.con e bl).2 e b = bcnt part (s.x.h.edgePins e ++ [x]) b := by
    intro b hb; rw [L.pinCount_eq i2 hem hb, hT' b hb]
  have hpc : ∀ b, b < k → C.pinCount s.P.con e b = bcnt part (s.x.h.edgePins e) b := by
    intro b hb; rw [L.pinCount_eq hR hem hb, hTe b hb]
  have hstep : ∀ b, b < k → C.pinCount (C.incBlock s.P.con e bl).2 e b = C.pinCount s.P.con e b + if b = bl then 1 else 0 := by
    intro b hb
    rw [hpc' b hb, hpc b hb, bcnt_append, hpxb]
    by_cases hbb : b = bl
    · subst hbb; simp
    · simp [hbb, Ne.symm hbb]
  have hpos : 0 < bcnt part (s.x.h.edgePins e) bl := List.countP_pos_iff.2 ⟨y, w9, by simp [hpy]⟩
  have h2 : 2 ≤ C.pinCount (C.incBlock s.P.con e bl).2 e bl := by
    rw [hstep bl hbl, hpc bl hbl, if_pos rfl]; omega
  have hafter : (C.incBlock s.P.con e bl).1 = C.pinCount (C.incBlock s.P.con e bl).2 e bl := by
    rw [i1, hstep bl hbl, if_pos rfl, L.pinCount_eq hR hem hbl]
  rw [hafter]
  refine hP.netStep (x' := { s.x with h := { s.x.h with size := wr s.x.h.size e (s.x.h.size e + 1) }, tk := wr s.x.tk j (.resize e (p + 1) cs) })
    hem hjl h0 w2 rfl rfl rfl rfl rfl ?_ ?_ ?_ ?_ ?_
  · intro e' he'
    show DH.edgePins _ e' = _
    rw [hpin, if_neg he']
  · show ∀ x ∈ DH.edgePins _ e, _
    rw [hpin, if_pos rfl]
    exact hasg'
  · refine ⟨_, i2, fun e' he' b hb => ?_⟩
    show _ = if s.x.h.een e' = true then bcnt part (DH.edgePins _ e') b else 0
    rw [hpin]
    by_cases he : e' = e
    · subst he; rw [if_pos w2, if_pos rfl]; exact hT' b hb
    · rw [if_neg (c := e' = e) he, ← hT e' he' b hb]
      unfold Table.upd
      simp [he]
  · intro _ z b hb
    show _ = netBen o _ (DH.edgePins _ e) (bcnt part (DH.edgePins _ e)) z b - _
    rw [hpin, if_pos rfl, restore_ben o hN hbl hpxb hstep h2 (s.x.h.ew e) hb part]
    rw [netBen_congr (hpc' b hb), netBen_congr (hpc b hb)]
  · intro _ z
    show _ = netPen o _ part (DH.edgePins _ e) (bcnt part (DH.edgePins _ e)) z - _
    rw [hpin, if_pos rfl, restore_pen o hN hbl hpxb hstep h2 (s.x.h.ew e) part]
    rw [netPen_congr hasg' hpc', netPen_congr (hP.asg e hem w2) hpc]

/-- **the invariant is preserved by every step** -/
theorem PInv.step (hc : Clean s0) (hS : Stat s0 par ver bi G) (hb : BatchOK par bi c b) (hver : ∀ v, par v ≠ v → bi v = c → ver v = V)
    (hI : UInv s0 par ver bi G V c b s.x U) (hF : PFix s0 par m k mx b part s.x.h) (hP : PInv L o ini b part cache0 s) (h : PUStep C k o ini b s s') :
    (s'.x = s.x ∨ UStep b s.x s'.x) ∧ (∃ U', UInv s0 par ver bi G V c b s'.x U') ∧ PFix s0 par m k mx b part s'.x.h ∧ PInv L o ini b part cache0 s' := by
  cases h with
  | other x' h hp hs ht =>
    exact ⟨Or.inr h, hI.step hc hS hb hver h, hF.step h, hP.other hc hS hb hI hF h hp hs⟩
  | write j u v e p cs blk hj ht h0 hb' =>
    have h : UStep b s.x _ := UStep.write s.x j u v e p cs hj ht
    exact ⟨Or.inr h, hI.step hc hS hb hver h, hF.step h, hP.writeStep hS hb hver hI hF hj ht h0 hb'⟩
  | grow j e p cs blk ht hp hbi h0 hb' =>
    have h : UStep b s.x _ := UStep.grow s.x j e p cs ht hp hbi
    exact ⟨Or.inr h, hI.step hc hS hb hver h, hF.step h, hP.growStep hS hb hver hI hF ht hp hbi h0 hb'⟩
  | cache j i a rest h0 => exact ⟨Or.inl rfl, ⟨U, hI⟩, hF, hP.cacheStep h0⟩

end Dyn
end Verif
