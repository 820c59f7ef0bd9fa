import Verif.Lemmas.Dyn13
/-!
# A concrete run of the coarsening phase (witness for C27 and C41)

Three nodes, nets {0, 1}, {1, 2} and {0, 1, 2}; node 1 is contracted onto node 0, then the single-pin
net {0} and the net {0, 2}, which exists twice now, are removed.
-/
namespace Verif
namespace Dyn
open SMap (wr)

/-- the hypergraph -/
def wA : INA where
  n := 3
  pv := id
  nx := id
  ipv := id
  inx := id
  tl := id
  sz := fun x => if x = 1 then 3 else 2
  dg := fun x => if x = 1 then 3 else 2
  vr := fun _ => 0
  hd := fun _ => true
  ent := fun x => if x = 0 then [(0, 0), (2, 0)] else if x = 1 then [(0, 0), (1, 0), (2, 0)] else [(1, 0), (2, 0)]

def wH : DH where
  n := 3
  m := 3
  en := fun x => decide (x < 3)
  wt := fun _ => 1
  par := id
  pend := fun _ => 0
  ver := fun _ => kInvVer
  start := fun _ => 0
  stop := fun _ => 0
  cidx := 0
  V := 0
  pins := fun e => if e = 0 then [0, 1] else if e = 1 then [1, 2] else [0, 1, 2]
  size := fun e => if e = 2 then 3 else 2
  een := fun e => decide (e < 3)
  ew := fun e => (e : Int) + 1
  bi := fun _ => 0
  ina := wA
  removed := []

theorem some_getD {α : Type} {o : Option α} {d : α} (h : o.isSome = true) : o = some (o.getD d) := by
  cases o with
  | none => cases h
  | some a => rfl

theorem lt3 {x : Nat} (h : x < 3) : x = 0 ∨ x = 1 ∨ x = 2 := by omega

theorem wH_live {x : Nat} : wH.live x ↔ x < 3 := by
  unfold DH.live wH
  simp

theorem wH_used {x : Nat} : wH.used x ↔ x < 3 := by
  unfold DH.used wH
  simp

theorem wH_clean : Clean wH := by
  refine ⟨fun _ => rfl, fun _ => rfl, fun _ => rfl, rfl, rfl, ?_, ?_, ?_, ?_, rfl, ?_, ?_, ?_, ?_, ?_, ?_⟩
  · intro v; show (0 : Int) ≤ 1; decide
  · intro e he
    rcases lt3 (wH_used.1 he) with rfl | rfl | rfl <;> rfl
  · intro e he
    rcases lt3 (wH_used.1 he) with rfl | rfl | rfl <;> decide
  · intro e he x hx
    rw [wH_live]
    rcases lt3 (wH_used.1 he) with rfl | rfl | rfl <;> simp [wH] at hx <;> omega
  · intro x hx
    exact ⟨rfl, rfl, rfl, rfl, rfl⟩
  · intro x hx
    rcases lt3 (wH_live.1 hx) with rfl | rfl | rfl <;> decide
  · intro x hx
    rcases lt3 (wH_live.1 hx) with rfl | rfl | rfl <;> decide
  · intro x hx
    rcases lt3 (wH_live.1 hx) with rfl | rfl | rfl <;> intro p hp <;> simp [wH, wA] at hp
  · intro x hx
    rcases lt3 (wH_live.1 hx) with rfl | rfl | rfl <;> rfl
  · intro x hx
    refine ⟨?_, ?_⟩
    · rcases lt3 (wH_live.1 hx) with rfl | rfl | rfl <;> decide
    · intro e
      unfold DH.orig
      rw [wH_used]
      rcases lt3 (wH_live.1 hx) with rfl | rfl | rfl
      · constructor
        · intro h
          have : e = 0 ∨ e = 2 := by simpa [wH, wA, INA.active] using h
          rcases this with rfl | rfl <;> decide
        · rintro ⟨h, h'⟩
          rcases lt3 h with rfl | rfl | rfl
          · decide
          · exact absurd h' (by decide)
          · decide
      · constructor
        · intro h
          have : e = 0 ∨ e = 1 ∨ e = 2 := by simpa [wH, wA, INA.active] using h
          rcases this with rfl | rfl | rfl <;> decide
        · rintro ⟨h, h'⟩
          rcases lt3 h with rfl | rfl | rfl <;> decide
      · constructor
        · intro h
          have : e = 1 ∨ e = 2 := by simpa [wH, wA, INA.active] using h
          rcases this with rfl | rfl <;> decide
        · rintro ⟨h, h'⟩
          rcases lt3 h with rfl | rfl | rfl
          · exact absurd h' (by decide)
          · decide
          · decide

/-- the states of the run -/
def w0 : St := ⟨wH, fun _ => .idle, fun _ _ => false⟩
def w1 : St := { w0 with h := w0.h.registerTree 0 1, thr := wr w0.thr 0 (.look 1) }
def w2 : St := { w1 with thr := wr w1.thr 0 (.tryC 0 1) }
def w3 : St := { w2 with h := w2.h.disable 0 1, thr := wr w2.thr 0 (.load 0 1) }
def w4 : St := { w3 with thr := wr w3.thr 0 (.iter 0 1 0 0 (fun _ => false) []) }
def w5 : St := { w4 with h := w4.h.setEdge 0 [0, 1] 1, thr := wr w4.thr 0 (.iter 0 1 0 1 (flagIf (fun _ => false) 0 true) []) }
/-- net 1 is locked by another thread -/
def w6 : St := { w5 with thr := wr w5.thr 0 (.iter 0 1 0 2 (flagIf (fun _ => false) 0 true) [1]) }
def w7 : St := { w6 with h := w6.h.setEdge 2 [0, 2, 1] 2, thr := wr w6.thr 0 (.iter 0 1 0 3 (flagIf (flagIf (fun _ => false) 0 true) 2 true) [1]) }
def w8 : St := { w7 with thr := wr w7.thr 0 (.late 0 1 0 (flagIf (flagIf (fun _ => false) 0 true) 2 true) [1]) }
def w9 : St := { w8 with h := w8.h.setEdge 1 [2, 0] 2, thr := wr w8.thr 0 (.late 0 1 0 (flagIf (flagIf (flagIf (fun _ => false) 0 true) 2 true) 1 false) []) }
def wInc : INA := (w9.h.ina.contract 0 1 (flagIf (flagIf (flagIf (fun _ => false) 0 true) 2 true) 1 false)).getD wA
def w10 : St := { w9 with h := { w9.h with ina := wInc }, thr := wr w9.thr 0 (.tick 0 1 0) }
def w11 : St := { w10 with h := { w10.h with cidx := 1 }, thr := wr w10.thr 0 (.unreg 0 1 0 1) }
def w12 : St := { w11 with h := w11.h.unregister 0 1 0 1, thr := wr w11.thr 0 (.look 0) }
def w13 : St := { w12 with thr := wr w12.thr 0 .idle }

theorem w_ce0 : contractHE 0 1 (w4.h.pins 0) (w4.h.size 0) = some ([0, 1], 1, true) := by decide
theorem w_ce2 : contractHE 0 1 (w6.h.pins 2) (w6.h.size 2) = some ([0, 2, 1], 2, true) := by decide
theorem w_ce1 : contractHE 0 1 (w8.h.pins 1) (w8.h.size 1) = some ([2, 0], 2, false) := by decide
theorem w_inc : w9.h.ina.contract 0 1 (flagIf (flagIf (flagIf (fun _ => false) 0 true) 2 true) 1 false) = some wInc := by
  have h : (w9.h.ina.contract 0 1 (flagIf (flagIf (flagIf (fun _ => false) 0 true) 2 true) 1 false)).isSome = true := by decide +kernel
  exact some_getD h

theorem w_run : Steps 10 w0 w13 := by
  refine .tail _ w12 _ ?_ (.thread 0 _ _ (.lookEnd w12 0 rfl rfl))
  refine .tail _ w11 _ ?_ (.thread 0 _ _ (.unreg w11 0 1 0 1 rfl))
  refine .tail _ w10 _ ?_ (.thread 0 _ _ (.tick w10 0 1 0 rfl))
  refine .tail _ w9 _ ?_ (.thread 0 _ _ (.merge w9 0 1 0 _ wInc rfl w_inc))
  refine .tail _ w8 _ ?_ (.thread 0 _ _ (.lateEdge w8 0 1 0 _ 1 [] [2, 0] 2 false rfl w_ce1))
  refine .tail _ w7 _ ?_ (.thread 0 _ _ (.iterEnd w7 0 1 0 3 _ [1] [0, 1, 2] rfl rfl (by decide)))
  refine .tail _ w6 _ ?_ (.thread 0 _ _ (.edge w6 0 1 0 2 _ [1] [0, 1, 2] 2 [0, 2, 1] 2 true rfl rfl rfl w_ce2))
  refine .tail _ w5 _ ?_ (.thread 0 _ _ (.defer w5 0 1 0 1 _ [] [0, 1, 2] 1 rfl rfl rfl))
  refine .tail _ w4 _ ?_ (.thread 0 _ _ (.edge w4 0 1 0 0 _ [] [0, 1, 2] 0 [0, 1] 1 true rfl rfl rfl w_ce0))
  refine .tail _ w3 _ ?_ (.thread 0 _ _ (.load w3 0 1 rfl))
  refine .tail _ w2 _ ?_ (.thread 0 _ _ (.start w2 0 1 rfl rfl rfl (by decide) rfl))
  refine .tail _ w1 _ ?_ (.thread 0 _ _ (.lookGo w1 1 rfl (by decide)))
  exact .tail _ w0 _ (.refl _) (.thread 0 _ _ (.register w0 0 1 rfl (by decide) (by decide) (by decide) rfl rfl rfl (Or.inl rfl)))

theorem w13_idle : ∀ i, w13.thr i = .idle := by
  intro i
  by_cases h : i = 0
  · subst h; rfl
  · show wr w12.thr 0 .idle i = _
    rw [wr_other _ _ h]
    show wr w11.thr 0 _ i = _
    rw [wr_other _ _ h]
    show wr w10.thr 0 _ i = _
    rw [wr_other _ _ h]
    show wr w9.thr 0 _ i = _
    rw [wr_other _ _ h]
    show wr w8.thr 0 _ i = _
    rw [wr_other _ _ h]
    show wr w7.thr 0 _ i = _
    rw [wr_other _ _ h]
    show wr w6.thr 0 _ i = _
    rw [wr_other _ _ h]
    show wr w5.thr 0 _ i = _
    rw [wr_other _ _ h]
    show wr w4.thr 0 _ i = _
    rw [wr_other _ _ h]
    show wr w3.thr 0 _ i = _
    rw [wr_other _ _ h]
    show wr w2.thr 0 _ i = _
    rw [wr_other _ _ h]
    show wr w1.thr 0 _ i = _
    rw [wr_other _ _ h]
    show wr w0.thr 0 _ i = _
    rw [wr_other _ _ h]
    rfl

theorem w13_acyclic : Acyclic w13.h.n w13.h.par := by
  intro v hv
  rcases lt3 hv with rfl | rfl | rfl
  · exact ⟨0, rfl⟩
  · exact ⟨1, rfl⟩
  · exact ⟨0, rfl⟩

/-- the removed nets: {0} is a single-pin net, net 2 is parallel to net 1 -/
def wR : RemovedNets := [(0, none), (2, some 1)]

theorem w13_removal : RemovalOK w13.h wR := by
  refine ⟨by decide, by decide, ?_, ?_⟩
  · intro e
    constructor
    · intro h
      have : e = 0 := by simpa [wR] using h
      subst this
      decide
    · rintro ⟨h1, h2, h3⟩
      rcases lt3 h1 with rfl | rfl | rfl
      · decide
      · exact absurd h3 (by decide)
      · exact absurd h3 (by decide)
  · intro e r h
    have : e = 2 ∧ r = 1 := by simpa [wR] using h
    obtain ⟨rfl, rfl⟩ := this
    decide

def wEnd : DH := (w13.h.removeNetsStep wR [0, 2]).getD wH

theorem w_rem : w13.h.removeNetsStep wR [0, 2] = some wEnd := by
  have h : (w13.h.removeNetsStep wR [0, 2]).isSome = true := by decide +kernel
  exact some_getD h

theorem removeNetsStep_par {s h' : DH} {R : RemovedNets} {ord : List Nat} (h : s.removeNetsStep R ord = some h') :
    h'.n = s.n ∧ h'.par = s.par ∧ h'.V = s.V + 1 ∧ h'.removed = R :: s.removed := by
  unfold DH.removeNetsStep at h
  split at h
  · cases h
  injection h with h
  subst h
  exact ⟨rfl, rfl, rfl, rfl⟩

def w14 : St := { w13 with h := wEnd }

theorem w_run' : Steps 10 w0 w14 :=
  .tail _ w13 _ w_run (.remove w13 wR [0, 2] wEnd w13_idle w13_acyclic w13_removal (by decide) w_rem)

theorem w14_acyclic : Acyclic w14.h.n w14.h.par := by
  show Acyclic wEnd.n wEnd.par
  rw [(removeNetsStep_par w_rem).1, (removeNetsStep_par w_rem).2.1]
  exact w13_acyclic

theorem w_result : wEnd.size 1 = 2 ∧ wEnd.een 1 = true ∧ wEnd.ew 1 = 5 ∧ wEnd.een 0 = false ∧ wEnd.een 2 = false ∧ wEnd.wt 0 = 2 ∧
    wEnd.en 1 = false ∧ wEnd.ina.incidentEdges 0 = some [1] ∧ wEnd.ina.incidentEdges 2 = some [1] := by
  refine ⟨by decide +kernel, by decide +kernel, by decide +kernel, by decide +kernel, by decide +kernel, by decide +kernel, by decide +kernel, by decide +kernel, by decide +kernel⟩

end Dyn
end Verif
