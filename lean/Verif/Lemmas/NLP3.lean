import Verif.Lemmas.NLP2
import Verif.Lemmas.Dyn30
/-!
# Changes of a net during the uncontraction of a batch
-/
namespace Verif
namespace Dyn
open SMap (wr)

variable {s0 : DH} {par ver bi : Nat → Nat} {G : Gh} {V c : Nat} {b : List (Nat × Nat)} {s s' : USt} {U : UG}

theorem mem_set_nodup {l : List Nat} (hn : l.Nodup) {p u v : Nat} (hp : p < l.length) (hu : l.getD p 0 = u) (x : Nat) :
    x ∈ l.set p v ↔ x = v ∨ (x ≠ u ∧ x ∈ l) := by
  have hu' : l[p] = u := by rw [← hu, List.getD_eq_getElem?_getD, List.getElem?_eq_getElem hp]; rfl
  constructor
  · intro h
    obtain ⟨i, hi, hx⟩ := List.mem_iff_getElem.1 h
    rw [List.getElem_set] at hx
    by_cases hpi : p = i
    · rw [if_pos hpi] at hx; exact Or.inl hx.symm
    · rw [if_neg hpi] at hx
      rw [List.length_set] at hi
      refine Or.inr ⟨?_, hx ▸ List.getElem_mem hi⟩
      rintro rfl
      exact hpi ((List.Nodup.getElem_inj_iff hn).1 (hu'.trans hx.symm))
  · rintro (rfl | ⟨h1, h2⟩)
    · exact List.mem_iff_getElem.2 ⟨p, by rw [List.length_set]; exact hp, by rw [List.getElem_set, if_pos rfl]⟩
    · obtain ⟨i, hi, hx⟩ := List.mem_iff_getElem.1 h2
      refine List.mem_iff_getElem.2 ⟨i, by rw [List.length_set]; exact hi, ?_⟩
      rw [List.getElem_set, if_neg, hx]
      rintro rfl
      exact h1 (hx.symm.trans hu')

theorem UInv.een_of (hS : Stat s0 par ver bi G) (hver : ∀ v, par v ≠ v → bi v = c → ver v = V) (hI : UInv s0 par ver bi G V c b s U) {v e : Nat}
    (hp : par v ≠ v) (hb : bi v = c) (h : G.one v e = true ∨ G.two v e = true) : s0.used e ∧ s.h.een e = true := by
  obtain ⟨h1, h2⟩ := hS.logU v e h
  rw [hver v hp hb] at h2
  exact ⟨h1, (hI.core.een e).2 ⟨h1.2, h2⟩⟩

theorem UInv.writeNet (hS : Stat s0 par ver bi G) (hb : BatchOK par bi c b) (hver : ∀ v, par v ≠ v → bi v = c → ver v = V)
    (hI : UInv s0 par ver bi G V c b s U) {j u v e p : Nat} {cs : List Call} (hj : b[j]? = some (u, v)) (ht : s.tk j = .write e p cs) :
    s0.used e ∧ s.h.een e = true ∧ u ≠ v ∧ u ∈ s.h.edgePins e ∧ v ∉ s.h.edgePins e ∧
      ((s.h.pins e).set p v).take (s.h.size e) = (s.h.edgePins e).set p v ∧ ((s.h.edgePins e).set p v).Nodup ∧
      (∀ x, x ∈ (s.h.edgePins e).set p v ↔ x = v ∨ (x ≠ u ∧ x ∈ s.h.edgePins e)) ∧ (s.h.edgePins e).length = s.h.size e := by
  obtain ⟨h, k2, k3⟩ := hI.at hj ht
  obtain ⟨h1, h2, h3⟩ := hb.at hj
  have htwo : U.two v e = true := (h.two e).2 (Or.inr rfl)
  obtain ⟨hused, heen⟩ := hI.een_of hS hver h1 h3 (Or.inr (hI.core.twoLe v e htwo))
  have hP := hI.core.pins e hused
  have hlen : (s.h.edgePins e).length = s.h.size e := by
    show ((s.h.pins e).take _).length = _
    rw [List.length_take]; exact Nat.min_eq_left hP.le
  have hg : (s.h.edgePins e).getD p 0 = u := by
    show ((s.h.pins e).take _).getD p 0 = u
    rw [List.getD_eq_getElem?_getD, List.getElem?_take_of_lt k2, ← List.getD_eq_getElem?_getD]; exact k3
  have hv : v ∉ s.h.edgePins e := by
    intro hm
    have := ((hP.tmem v).1 hm).2.2
    rw [htwo] at this; cases this
  have hset : ((s.h.pins e).set p v).take (s.h.size e) = (s.h.edgePins e).set p v := by
    unfold DH.edgePins; rw [List.take_set]
  have hu : u ∈ s.h.edgePins e := by
    rw [← hg, List.getD_eq_getElem?_getD, List.getElem?_eq_getElem (by omega)]
    exact List.getElem_mem _
  have hn : ((s.h.edgePins e).set p v).Nodup := by
    rw [← hset]
    obtain ⟨p1, p2, p3, p4, p5, p6⟩ := hI.parent hS hb hj
    exact (split_net (hI.core.log e) hP h2 htwo (p5 e) (p6 e) k2 k3).2.1.tnd
  exact ⟨hused, heen, by rintro rfl; exact hv hu, hu, hv, hset, hn, mem_set_nodup (l := s.h.edgePins e) hP.tnd (by rw [hlen]; exact k2) hg, hlen⟩

theorem UInv.growNet (hS : Stat s0 par ver bi G) (hb : BatchOK par bi c b) (hver : ∀ v, par v ≠ v → bi v = c → ver v = V)
    (hI : UInv s0 par ver bi G V c b s U) {j e p x : Nat} {cs : List Call}
    (ht : s.tk j = .resize e p cs) (hp : p < (s.h.pins e).length) (hbi : s.h.bi ((s.h.pins e).getD p 0) = s.h.bi (b.getD 0 (0, 0)).2)
    (hx : (s.h.pins e).getD p 0 = x) :
    p = s.h.size e ∧ s0.used e ∧ s.h.een e = true ∧ par x ≠ x ∧ bi x = c ∧ x ∉ s.h.edgePins e ∧
      (s.h.pins e).take (s.h.size e + 1) = s.h.edgePins e ++ [x] ∧ (s.h.edgePins e ++ [x]).Nodup ∧ (s.h.edgePins e).length = s.h.size e ∧
      ∃ y ∈ s.h.edgePins e, y = par x ∨ (par y = par x ∧ par y ≠ y ∧ bi y = c) := by
  obtain ⟨u, v, hj⟩ := hI.entry (j := j) (by rw [ht]; exact Tk.noConfusion)
  obtain ⟨h, k2, k3, k4⟩ := hI.at hj ht
  obtain ⟨b1, b2, b3⟩ := hb.at hj
  obtain ⟨hused, heen⟩ := hI.een_of hS hver b1 b3 (Or.inl k4)
  subst k2
  rw [hI.core.biEq, hb.first, hx] at hbi
  have hP := hI.core.pins e hused
  obtain ⟨q0, q1, q2⟩ := grow_net (hI.core.log e) hP hp hx
  have hxp : par x ≠ x := (hI.core.log e |>.inn x (Or.inl q0)).2
  have hxm : x ∉ s.h.edgePins e := by
    intro hm
    have := ((hP.tmem x).1 hm).2.1
    rw [q0] at this; cases this
  have htake : (s.h.pins e).take (s.h.size e + 1) = s.h.edgePins e ++ [x] := by
    rw [List.take_succ, ← hx, List.getD_eq_getElem?_getD, List.getElem?_eq_getElem hp]; rfl
  have hlen : (s.h.edgePins e).length = s.h.size e := by
    show ((s.h.pins e).take _).length = _
    rw [List.length_take]; exact Nat.min_eq_left hP.le
  refine ⟨rfl, hused, heen, hxp, hbi, hxm, htake, by rw [← htake]; exact q2.tnd, hlen, ?_⟩
  obtain ⟨jx, hjx⟩ := hb.idx hxp hbi
  obtain ⟨p1, p2, p3, p4, p5, p6⟩ := hI.parent hS hb hjx
  have hpar : InN (fun x => s0.orig x e) par (fun v => U.two v e) (par x) → par x ∈ s.h.edgePins e :=
    fun hin => (hP.tmem _).2 ⟨hin, p5 e, p6 e⟩
  rcases hS.oneIn x e (hI.core.oneLe x e q0) with h1 | ⟨w, w1, w2, w3, w4⟩
  · exact ⟨par x, hpar (Or.inl h1), Or.inl rfl⟩
  · cases hw : U.two w e with
    | true => exact ⟨par x, hpar (Or.inr ⟨w, w1, by rw [← w1]; exact w2, hw⟩), Or.inl rfl⟩
    | false =>
      have hwc : bi w = c := by
        rcases Nat.lt_or_ge (bi w) c with hlt | hge
        · have := (hI.later w w2.symm hlt).two e
          rw [hw, w3] at this; cases this
        · omega
      refine ⟨w, (hP.tmem w).2 ⟨?_, ?_, hw⟩, Or.inr ⟨w1, w2.symm, hwc⟩⟩
      · rcases ((hS.log e).inn w (Or.inr w3)).1 with h1 | ⟨z, z1, z2, z3⟩
        · exact Or.inl h1
        · refine Or.inr ⟨z, z1, z2, ?_⟩
          have hz : par z ≠ z := by rw [z1]; exact z2.symm
          have := hS.up z hz (by rw [z1]; exact w2.symm)
          rw [z1] at this
          show U.two z e = true
          rw [(hI.later z hz (by omega)).two e]; exact z3
      · cases ho : U.one w e with
        | false => rfl
        | true =>
          have := (hS.log e).excl w (hI.core.oneLe w e ho)
          have w3' : G.two w e = true := w3
          rw [show G.two w e = false from this] at w3'; cases w3'

end Dyn
end Verif
