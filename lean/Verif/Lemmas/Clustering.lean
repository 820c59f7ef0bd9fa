import Verif.Model.Clustering
import Mathlib.Logic.Function.Iterate
import Mathlib.Tactic.Common

/-! Invariant of the concurrent clustering -/
namespace Verif
namespace ClSt

def own : CPc → Bool
  | .idle | .weight | .cas | .skip => false
  | _ => true

/-- waiting or before the first decision -/
def inW : CPc → Bool
  | .store | .loadV | .casV | .walk _ _ | .check2 _ _ | .loop => true
  | _ => false

/-- before the loop condition is evaluated -/
def inW' : CPc → Bool
  | .store | .loadV | .casV | .walk _ _ | .check2 _ _ => true
  | _ => false

def inJ (k : JoinKind) : CPc → Bool
  | .jload k' _ | .jwrite k' _ | .jadd k' _ | .jstore k' => decide (k' = k)
  | _ => false

def inAdd : CPc → Bool
  | .jadd _ _ | .jstore _ => true
  | _ => false

/-- in the part of the process that may write `cluster_ids[u]` -/
def busy : CPc → Bool
  | .read | .jload _ _ | .jwrite _ _ | .jadd _ _ | .jstore _ => true
  | _ => false

def pstored : CPc → Bool
  | .idle | .weight | .cas | .skip | .store | .fin2 | .done => false
  | _ => true

def afterLoad : CPc → Bool
  | .walk _ _ | .check2 _ _ | .loop => true
  | _ => false

/-- `z` is the smallest node of a cycle of targets all of which own themselves -/
structure CycMin (s : ClSt) (z : Nat) : Prop where
  per : ∃ n, 0 < n ∧ s.tgt^[n] z = z
  allOwn : ∀ i, own (s.pc (s.tgt^[i] z)) = true
  least : ∀ i, z ≤ s.tgt^[i] z

structure WalkInv (s : ClSt) (u cur small : Nat) : Prop where
  ex : ∃ P : Nat → Prop, P u ∧ P cur ∧ P small ∧ (∀ x, P x → small ≤ x) ∧
    (∀ x, P x → x = cur ∨ (own (s.pc x) = true ∧ P (s.tgt x))) ∧ 
    (∀ x, P x → ∃ i, x = s.tgt^[i] u ∧ ∀ j < i, own (s.pc (s.tgt^[j] u)) = true)

structure CInv (s : ClSt) : Prop where
  tgt_ne : ∀ x, own (s.pc x) = true → s.tgt x ≠ x
  tgt_ne' : ∀ x, s.pc x ≠ .idle → s.tgt x ≠ x
  ownU : ∀ x, own (s.pc x) = true → s.st x ≠ .unmatched
  doneM : ∀ x, s.pc x = .done → s.st x = .matched
  part : ∀ x, s.partner x = if pstored (s.pc x) then s.tgt x else x
  past : ∀ x, own (s.pc x) = true →
    inW (s.pc x) = true ∨ inJ .cyc (s.pc x) = true ∨ inJ .grab (s.pc x) = true ∨ s.st (s.tgt x) = .matched
  ldU : ∀ x, afterLoad (s.pc x) = true → s.st (s.tgt x) ≠ .unmatched
  grabI : ∀ x, inJ .grab (s.pc x) = true → s.st (s.tgt x) = .inProgress
  grabO : ∀ x, inJ .grab (s.pc x) = true → own (s.pc (s.tgt x)) = false
  grabX : ∀ x y, inJ .grab (s.pc x) = true → inJ .grab (s.pc y) = true → s.tgt x = s.tgt y → x = y
  byRes : ∀ x, own (s.pc x) = true → s.pc x ≠ .done → s.st x = .matched → ∃ z, s.res z = true ∧ s.tgt z = x
  resC : ∀ z, s.res z = true → s.CycMin z
  resM : ∀ z, s.res z = true → s.st (s.tgt z) = .matched
  resW : ∀ z, s.res z = true → inW' (s.pc z) = false ∧ inJ .cyc (s.pc z) = false
  cycC : ∀ z, inJ .cyc (s.pc z) = true → s.CycMin z
  cycI : ∀ z, inJ .cyc (s.pc z) = true → ∀ i, s.st (s.tgt^[i] z) = .inProgress
  walkI : ∀ x c m, s.pc x = .walk c m → s.WalkInv x c m
  chkI : ∀ x c m, s.pc x = .check2 c m → s.WalkInv x c m
  noown : ∀ x, own (s.pc x) = false → s.cid x = x
  repH : ∀ x k r, k ≠ .rep → s.pc x = .jload k r ∨ s.pc x = .jwrite k r ∨ s.pc x = .jadd k r → r = s.tgt x
  jst : ∀ x, s.pc x ≠ .jstore .rep
  wcid : ∀ x, inW (s.pc x) = true → s.res x = false → s.cid x = x

/-- The part of the invariant that holds as long as no process is late. -/
structure RInv (s : ClSt) : Prop where
  busyI : ∀ x, busy (s.pc x) = true → s.st x = .inProgress
  root : ∀ x, s.cid x ≠ x → s.cid (s.cid x) = s.cid x ∧
    (s.st (s.cid x) = .matched ∨ (s.tgt x = s.cid x ∧ inAdd (s.pc x) = true ∧
      (inJ .grab (s.pc x) = true ∨ inJ .cyc (s.pc x) = true)))
  held : ∀ x, inJ .grab (s.pc x) = true ∨ inJ .cyc (s.pc x) = true → s.cid (s.tgt x) = s.tgt x
  repM : ∀ x r, s.pc x = .jload .rep r ∨ s.pc x = .jwrite .rep r ∨ s.pc x = .jadd .rep r →
    s.cid r = r ∧ s.st r = .matched ∧ r = s.cid (s.tgt x)

theorem iter_congr {s s' : ClSt} {u : Nat} (ht : ∀ x, own (s.pc x) = true → s'.tgt x = s.tgt x) :
    ∀ i, (∀ j < i, own (s.pc (s.tgt^[j] u)) = true) → s'.tgt^[i] u = s.tgt^[i] u
  | 0, _ => rfl
  | i + 1, h => by
    rw [Function.iterate_succ_apply', Function.iterate_succ_apply',
      iter_congr ht i (fun j hj => h j (by omega)), ht _ (h i (by omega))]

theorem CycMin.mono {s s' : ClSt} {z : Nat} (h : s.CycMin z)
    (ht : ∀ x, own (s.pc x) = true → s'.tgt x = s.tgt x)
    (ho : ∀ x, own (s.pc x) = true → own (s'.pc x) = true) : s'.CycMin z := by
  have hi : ∀ i, s'.tgt^[i] z = s.tgt^[i] z := fun i => iter_congr ht i (fun j _ => h.allOwn j)
  obtain ⟨n, hn, hp⟩ := h.per
  exact ⟨⟨n, hn, by rw [hi]; exact hp⟩, fun i => by rw [hi]; exact ho _ (h.allOwn i), fun i => by rw [hi]; exact h.least i⟩

theorem CycMin.iter {s s' : ClSt} {z : Nat} (h : s.CycMin z)
    (ht : ∀ x, own (s.pc x) = true → s'.tgt x = s.tgt x) (i : Nat) : s'.tgt^[i] z = s.tgt^[i] z :=
  iter_congr ht i (fun j _ => h.allOwn j)

theorem WalkInv.mono {s s' : ClSt} {u c m : Nat} (h : s.WalkInv u c m)
    (ht : ∀ x, own (s.pc x) = true → s'.tgt x = s.tgt x)
    (ho : ∀ x, own (s.pc x) = true → own (s'.pc x) = true) : s'.WalkInv u c m := by
  obtain ⟨P, h1, h2, h3, h4, h5, h6⟩ := h.ex
  refine ⟨P, h1, h2, h3, h4, fun x hx => ?_, fun x hx => ?_⟩
  · rcases h5 x hx with h | ⟨h, h'⟩
    · exact .inl h
    · exact .inr ⟨ho _ h, by rw [ht _ h]; exact h'⟩
  · obtain ⟨i, hi, hj⟩ := h6 x hx
    refine ⟨i, by rw [iter_congr ht i hj]; exact hi, fun j hji => ?_⟩
    rw [iter_congr ht j (fun j' h' => hj j' (by omega))]
    exact ho _ (hj j hji)

/-- every node of a cycle reaches the smallest one again -/
theorem CycMin.back {s : ClSt} {z : Nat} (h : s.CycMin z) (i : Nat) : ∃ j, s.tgt^[j] (s.tgt^[i] z) = z := by
  obtain ⟨n, hn, hp⟩ := h.per
  have hm : ∀ k, s.tgt^[n * k] z = z := by
    intro k
    induction k with
    | zero => rfl
    | succ k ih => rw [Nat.mul_succ, Function.iterate_add_apply, hp, ih]
  refine ⟨n * i - i, ?_⟩
  rw [← Function.iterate_add_apply, Nat.sub_add_cancel (Nat.le_mul_of_pos_left i hn)]
  exact hm i

theorem CycMin.uniq {s : ClSt} {z z' : Nat} (h : s.CycMin z) (h' : s.CycMin z') {i : Nat} (hi : z' = s.tgt^[i] z) :
    z' = z := by
  have h1 : z ≤ z' := by rw [hi]; exact h.least i
  obtain ⟨j, hj⟩ := h.back i
  have h2 : z' ≤ z := by
    have := h'.least j
    rw [hi] at this ⊢
    rwa [hj] at this
  omega

/-- the predecessor in the cycle of a node of the cycle is in the cycle -/
theorem CycMin.uniq' {s : ClSt} {z z' : Nat} (h : s.CycMin z) (h' : s.CycMin z') {i : Nat}
    (hi : s.tgt z' = s.tgt^[i] z) : z' = z := by
  obtain ⟨j, hj⟩ := h'.back 1
  have : z' = s.tgt^[j + i] z := by
    rw [Function.iterate_add_apply, ← hi]; exact hj.symm
  exact h.uniq h' this

/-- An unresolved cycle has no matched node. -/
theorem CInv.cycle_inProgress {s : ClSt} (I : s.CInv) {z : Nat} (h : s.CycMin z) (hnd : s.pc z ≠ .done)
    (hr : s.res z = false) (i : Nat) : s.st (s.tgt^[i] z) = .inProgress := by
  have hres : ∀ z' i, s.res z' = true → s.tgt z' = s.tgt^[i] z → False := by
    intro z' i hz' hi
    have := h.uniq' (I.resC z' hz') hi
    rw [this, hr] at hz'; cases hz'
  have hz : s.st z ≠ .matched := by
    intro hm
    obtain ⟨z', h1, h2⟩ := I.byRes z (h.allOwn 0) hnd hm
    exact hres z' 0 h1 h2
  by_contra hne
  have hM : s.st (s.tgt^[i] z) = .matched := by
    have := I.ownU _ (h.allOwn i)
    cases hs : s.st (s.tgt^[i] z) <;> simp_all
  have hfwd : ∀ j, s.st (s.tgt^[j] (s.tgt^[i] z)) = .matched := by
    intro j
    induction j with
    | zero => exact hM
    | succ j ih =>
      rw [Function.iterate_succ_apply']
      rw [← Function.iterate_add_apply] at ih ⊢
      by_cases hd : s.pc (s.tgt^[j + i] z) = .done
      · have := I.past _ (h.allOwn (j + i))
        rw [hd] at this
        simpa [inW, inJ] using this
      · obtain ⟨z', h1, h2⟩ := I.byRes _ (h.allOwn (j + i)) hd ih
        exact (hres z' (j + i) h1 h2).elim
  obtain ⟨j, hj⟩ := h.back i
  exact hz (by rw [← hj]; exact hfwd j)

/-- While a cycle is being resolved, its nodes wait. -/
theorem CInv.cycle_waits {s : ClSt} (I : s.CInv) {z : Nat} (h : inJ .cyc (s.pc z) = true) (i : Nat) :
    inW (s.pc (s.tgt^[i] z)) = true ∨ s.tgt^[i] z = z := by
  have hc := I.cycC z h
  rcases I.past _ (hc.allOwn i) with h1 | h1 | h1 | h1
  · exact .inl h1
  · exact .inr (hc.uniq (I.cycC _ h1) rfl)
  · have := I.grabO _ h1
    rw [← Function.iterate_succ_apply' s.tgt, hc.allOwn] at this
    cases this
  · rw [← Function.iterate_succ_apply' s.tgt, I.cycI z h] at h1
    cases h1

theorem CInv.target_waits {s : ClSt} (I : s.CInv) {z : Nat} (h : inJ .cyc (s.pc z) = true) :
    inW (s.pc (s.tgt z)) = true := by
  rcases I.cycle_waits h 1 with h1 | h1
  · exact h1
  · exact (I.tgt_ne z ((I.cycC z h).allOwn 0) h1).elim

/-- steps that only move the program counter -/
theorem CInv.pcStep {s : ClSt} (I : s.CInv) {u : Nat} {q : CPc} (hidle : s.pc u ≠ .idle) (hnd : q ≠ .done)
    (hown : own q = own (s.pc u)) (hps : pstored q = pstored (s.pc u)) (hgr : inJ .grab q = inJ .grab (s.pc u))
    (hpast : own q = true → inW q = true ∨ inJ .cyc q = true ∨ inJ .grab q = true ∨ s.st (s.tgt u) = .matched)
    (hld : afterLoad q = true → s.st (s.tgt u) ≠ .unmatched)
    (hndp : s.pc u ≠ .done)
    (hres : s.res u = true → inW' q = false ∧ inJ .cyc q = false)
    (hcyc : inJ .cyc q = true → s.CycMin u ∧ (∀ i, s.st (s.tgt^[i] u) = .inProgress))
    (hwalk : ∀ c m, q = .walk c m → s.WalkInv u c m) (hchk : ∀ c m, q = .check2 c m → s.WalkInv u c m)
    (hrepH : ∀ k r, k ≠ .rep → q = .jload k r ∨ q = .jwrite k r ∨ q = .jadd k r → r = s.tgt u)
    (hjst : q ≠ .jstore .rep) (hwc : inW q = true → s.res u = false → s.cid u = u) : (s.goto u q).CInv := by
  have hp : ∀ x, (s.goto u q).pc x = if x = u then q else s.pc x := by
    intro x; simp only [goto, Function.update_apply]
  have ho : ∀ x, own ((s.goto u q).pc x) = own (s.pc x) := by
    intro x; rw [hp]; split
    · rename_i h; rw [h, hown]
    · rfl
  have ht : ∀ x, own (s.pc x) = true → (s.goto u q).tgt x = s.tgt x := fun _ _ => rfl
  have ho' : ∀ x, own (s.pc x) = true → own ((s.goto u q).pc x) = true := fun x h => by rw [ho]; exact h
  have hg : ∀ x, inJ .grab ((s.goto u q).pc x) = inJ .grab (s.pc x) := by
    intro x; rw [hp]; split
    · rename_i h; rw [h, hgr]
    · rfl
  have split : ∀ {Q : Nat → CPc → Prop}, Q u q → (∀ x, Q x (s.pc x)) → ∀ x, Q x ((s.goto u q).pc x) := by
    intro Q h1 h2 x
    rw [hp]; split
    · rename_i h; rw [h]; exact h1
    · exact h2 x
  constructor
  · intro x hx; rw [ho] at hx; exact I.tgt_ne x hx
  · intro x hx
    by_cases h : x = u
    · rw [h]; exact I.tgt_ne' u hidle
    · rw [hp, if_neg h] at hx; exact I.tgt_ne' x hx
  · intro x hx; rw [ho] at hx; exact I.ownU x hx
  · exact split (Q := fun x p => p = .done → s.st x = .matched) (fun h => (hnd h).elim) I.doneM
  · refine split (Q := fun x p => s.partner x = if pstored p then s.tgt x else x) ?_ I.part
    rw [hps]; exact I.part u
  · exact split (Q := fun x p => own p = true → inW p = true ∨ inJ .cyc p = true ∨ inJ .grab p = true ∨
      s.st (s.tgt x) = .matched) hpast I.past
  · exact split (Q := fun x p => afterLoad p = true → s.st (s.tgt x) ≠ .unmatched) hld I.ldU
  · intro x hx; rw [hg] at hx; exact I.grabI x hx
  · intro x hx; rw [hg] at hx; rw [ho]; exact I.grabO x hx
  · intro x y hx hy; rw [hg] at hx hy; exact I.grabX x y hx hy
  · intro x hx hd; rw [ho] at hx
    refine I.byRes x hx ?_
    by_cases h : x = u
    · rw [h]; exact hndp
    · rwa [hp, if_neg h] at hd
  · intro z hz; exact (I.resC z hz).mono ht ho'
  · exact I.resM
  · exact split (Q := fun x p => s.res x = true → inW' p = false ∧ inJ .cyc p = false) hres I.resW
  · intro z hz
    refine CycMin.mono (s := s) ?_ ht ho'
    revert hz
    exact split (Q := fun z p => inJ .cyc p = true → s.CycMin z) (fun h => (hcyc h).1) I.cycC z
  · exact split (Q := fun z p => inJ .cyc p = true → ∀ i, s.st (s.tgt^[i] z) = .inProgress)
      (fun h => (hcyc h).2) I.cycI
  · intro x c m h
    refine WalkInv.mono (s := s) ?_ ht ho'
    revert h
    exact split (Q := fun x p => p = .walk c m → s.WalkInv x c m) (hwalk c m) (fun x => I.walkI x c m) x
  · intro x c m h
    refine WalkInv.mono (s := s) ?_ ht ho'
    revert h
    exact split (Q := fun x p => p = .check2 c m → s.WalkInv x c m) (hchk c m) (fun x => I.chkI x c m) x
  · intro x hx; rw [ho] at hx; exact I.noown x hx
  · intro x k r hk
    exact split (Q := fun x p => p = .jload k r ∨ p = .jwrite k r ∨ p = .jadd k r → r = s.tgt x)
      (hrepH k r hk) (fun x => I.repH x k r hk) x
  · exact split (Q := fun _ p => p ≠ .jstore .rep) hjst I.jst
  · exact split (Q := fun x p => inW p = true → s.res x = false → s.cid x = x) hwc I.wcid

end ClSt
end Verif
