import Verif.Lemmas.Clustering2
namespace Verif
namespace ClSt

/-- the invariant does not mention the weights and counters -/
theorem CInv.congr {s s' : ClSt} (I : s.CInv) (h1 : s'.st = s.st) (h2 : s'.partner = s.partner) (h3 : s'.cid = s.cid)
    (h4 : s'.pc = s.pc) (h5 : s'.tgt = s.tgt) (h6 : s'.res = s.res) : s'.CInv := by
  have ht : ∀ x, own (s.pc x) = true → s'.tgt x = s.tgt x := fun _ _ => by rw [h5]
  have ho : ∀ x, own (s.pc x) = true → own (s'.pc x) = true := fun _ h => by rw [h4]; exact h
  constructor
  all_goals try simp only [h1, h2, h3, h4, h5, h6]
  · exact I.tgt_ne
  · exact I.tgt_ne'
  · exact I.ownU
  · exact I.doneM
  · exact I.part
  · exact I.past
  · exact I.ldU
  · exact I.grabI
  · exact I.grabO
  · exact I.grabX
  · exact I.byRes
  · exact fun z hz => (I.resC z hz).mono ht ho
  · exact I.resM
  · exact I.resW
  · exact fun z hz => (I.cycC z hz).mono ht ho
  · exact I.cycI
  · exact fun x c m h => (I.walkI x c m h).mono ht ho
  · exact fun x c m h => (I.chkI x c m h).mono ht ho
  · exact I.noown
  · exact I.repH
  · exact I.jst
  · exact I.wcid

theorem RInv.congr {s s' : ClSt} (R : s.RInv) (h1 : s'.st = s.st) (h3 : s'.cid = s.cid)
    (h4 : s'.pc = s.pc) (h5 : s'.tgt = s.tgt) : s'.RInv := by
  constructor
  all_goals simp only [h1, h3, h4, h5]
  · exact R.busyI
  · exact R.root
  · exact R.held
  · exact R.repM

theorem RInv.init (nw : Nat → Int) : (ClSt.init nw).RInv := by
  constructor <;> simp [ClSt.init, inJ, busy]

/-- steps that only move the program counter -/
theorem RInv.pcStep {s : ClSt} (R : s.RInv) {u : Nat} {q : CPc} (hgr : inJ .grab q = inJ .grab (s.pc u))
    (hbusy : busy q = true → s.st u = .inProgress)
    (hcyc : inJ .cyc q = true → s.cid (s.tgt u) = s.tgt u)
    (hroot : s.cid u ≠ u → s.st (s.cid u) = .matched ∨ (s.tgt u = s.cid u ∧ inAdd q = true ∧
      (inJ .grab q = true ∨ inJ .cyc q = true)))
    (hrepM : ∀ r, q = .jload .rep r ∨ q = .jwrite .rep r ∨ q = .jadd .rep r →
      s.cid r = r ∧ s.st r = .matched ∧ r = s.cid (s.tgt u)) : (s.goto u q).RInv := by
  have hp : ∀ x, (s.goto u q).pc x = if x = u then q else s.pc x := by
    intro x; simp only [goto, Function.update_apply]
  have split : ∀ {Q : Nat → CPc → Prop}, Q u q → (∀ x, Q x (s.pc x)) → ∀ x, Q x ((s.goto u q).pc x) := by
    intro Q h1 h2 x
    rw [hp]; split
    · rename_i h; rw [h]; exact h1
    · exact h2 x
  constructor
  · exact split (Q := fun x p => busy p = true → s.st x = .inProgress) hbusy R.busyI
  · intro x hx
    refine ⟨(R.root x hx).1, ?_⟩
    revert hx
    exact split (Q := fun x p => s.cid x ≠ x → s.st (s.cid x) = .matched ∨ (s.tgt x = s.cid x ∧ inAdd p = true ∧
      (inJ .grab p = true ∨ inJ .cyc p = true))) hroot (fun x hx => (R.root x hx).2) x
  · refine split (Q := fun x p => inJ .grab p = true ∨ inJ .cyc p = true → s.cid (s.tgt x) = s.tgt x) ?_ R.held
    rintro (h | h)
    · rw [hgr] at h; exact R.held u (.inl h)
    · exact hcyc h
  · intro x r
    exact split (Q := fun x p => p = .jload .rep r ∨ p = .jwrite .rep r ∨ p = .jadd .rep r →
      s.cid r = r ∧ s.st r = .matched ∧ r = s.cid (s.tgt x)) (hrepM r) (fun x => R.repM x r) x

theorem CInv.init (nw : Nat → Int) : (ClSt.init nw).CInv := by
  constructor <;> simp [ClSt.init, own, pstored, inJ, afterLoad, busy, inW]

theorem CInv.beginStep {s : ClSt} (I : s.CInv) {u v : Nat} (hv : v ≠ u) (hpc : s.pc u = .idle) : (s.begin u v).CInv := by
  set s' := s.begin u v with hs'
  have hp : ∀ x, s'.pc x = if x = u then .weight else s.pc x := fun x => Function.update_apply ..
  have htt : ∀ x, s'.tgt x = if x = u then v else s.tgt x := fun x => Function.update_apply ..
  have hs : s'.st = s.st := rfl
  have hc : s'.cid = s.cid := rfl
  have hr : s'.res = s.res := rfl
  have hpa : s'.partner = s.partner := rfl
  have ho : ∀ x, own (s'.pc x) = own (s.pc x) := by
    intro x; rw [hp]; split
    · rename_i h; rw [h, hpc]; rfl
    · rfl
  have mono : ∀ x, own (s.pc x) = true → own (s'.pc x) = true := fun x h => by rw [ho]; exact h
  have hu : own (s.pc u) = false := by rw [hpc]; rfl
  have ht : ∀ x, own (s.pc x) = true → s'.tgt x = s.tgt x := by
    intro x hx; rw [htt, if_neg]; rintro rfl; rw [hu] at hx; cases hx
  have key : ∀ {f : CPc → Bool}, (∀ p, f p = true → own p = true) → ∀ x, f (s'.pc x) = true → f (s.pc x) = true ∧ s'.tgt x = s.tgt x := by
    intro f hf x hx
    have h1 : own (s'.pc x) = true := hf _ hx
    rw [ho] at h1
    refine ⟨?_, ht x h1⟩
    rw [hp, if_neg] at hx
    · exact hx
    · rintro rfl; rw [hu] at h1; cases h1
  have c1 : ∀ k p, inJ k p = true → own p = true := fun k p => own_of_inJ
  have c2 : ∀ p, busy p = true → own p = true := fun p => own_of_busy
  have c3 : ∀ p, afterLoad p = true → own p = true := fun p => own_of_afterLoad
  have hne : ∀ x, own (s.pc x) = true → s'.pc x = s.pc x := by
    intro x hx; rw [hp, if_neg]; rintro rfl; rw [hu] at hx; cases hx
  constructor
  all_goals try simp only [hs, hc, hr, hpa]
  · intro x hx; rw [ho] at hx; rw [ht x hx]; exact I.tgt_ne x hx
  · intro x hx
    by_cases h : x = u
    · rw [htt, if_pos h, h]; exact hv
    · rw [htt, if_neg h]; rw [hp, if_neg h] at hx; exact I.tgt_ne' x hx
  · intro x hx; rw [ho] at hx; exact I.ownU x hx
  · intro x hx
    rw [hp] at hx
    split at hx
    · cases hx
    · exact I.doneM x hx
  · intro x
    have := I.part x
    rw [hp, htt]
    by_cases h : x = u
    · subst h; rw [hpc] at this; simp [pstored] at this ⊢; exact this
    · rw [if_neg h, if_neg h]; exact this
  · intro x hx; rw [ho] at hx; rw [hne x hx, ht x hx]; exact I.past x hx
  · intro x hx
    obtain ⟨h1, h2⟩ := key c3 x hx
    rw [h2]; exact I.ldU x h1
  · intro x hx
    obtain ⟨h1, h2⟩ := key (c1 .grab) x hx
    rw [h2]; exact I.grabI x h1
  · intro x hx
    obtain ⟨h1, h2⟩ := key (c1 .grab) x hx
    rw [h2, ho]; exact I.grabO x h1
  · intro x y hx hy
    obtain ⟨h1, h2⟩ := key (c1 .grab) x hx
    obtain ⟨h3, h4⟩ := key (c1 .grab) y hy
    rw [h2, h4]; exact I.grabX x y h1 h3
  · intro x hx hd hm
    rw [ho] at hx; rw [hne x hx] at hd
    obtain ⟨z, h1, h2⟩ := I.byRes x hx hd hm
    exact ⟨z, h1, by rw [ht z (I.res_own h1)]; exact h2⟩
  · exact fun z hz => (I.resC z hz).mono ht mono
  · intro z hz; rw [ht z (I.res_own hz)]; exact I.resM z hz
  · intro z hz; rw [hne z (I.res_own hz)]; exact I.resW z hz
  · intro z hz; exact (I.cycC z (key (c1 .cyc) z hz).1).mono ht mono
  · intro z hz i
    have h := (key (c1 .cyc) z hz).1
    rw [(I.cycC z h).iter ht]
    exact I.cycI z h i
  · intro x c m h
    refine WalkInv.mono (I.walkI x c m ?_) ht mono
    rw [hp] at h; split at h
    · cases h
    · exact h
  · intro x c m h
    refine WalkInv.mono (I.chkI x c m ?_) ht mono
    rw [hp] at h; split at h
    · cases h
    · exact h
  · intro x hx; rw [ho] at hx; exact I.noown x hx
  · intro x k r hk h
    have hx : own (s.pc x) = true := by
      rw [← ho]; rcases h with h | h | h <;> rw [h] <;> rfl
    rw [hne x hx] at h; rw [ht x hx]
    exact I.repH x k r hk h
  · intro x h
    rw [hp] at h; split at h
    · cases h
    · exact I.jst x h
  · intro x hx hr'
    have hx' : own (s.pc x) = true := by rw [← ho]; exact own_of_inW hx
    rw [hne x hx'] at hx
    exact I.wcid x hx hr'

theorem RInv.beginStep {s : ClSt} (R : s.RInv) (I : s.CInv) {u v : Nat} (hv : v ≠ u) (hpc : s.pc u = .idle) : (s.begin u v).RInv := by
  set s' := s.begin u v with hs'
  have hp : ∀ x, s'.pc x = if x = u then .weight else s.pc x := fun x => Function.update_apply ..
  have htt : ∀ x, s'.tgt x = if x = u then v else s.tgt x := fun x => Function.update_apply ..
  have hs : s'.st = s.st := rfl
  have hc : s'.cid = s.cid := rfl
  have hr : s'.res = s.res := rfl
  have hpa : s'.partner = s.partner := rfl
  have ho : ∀ x, own (s'.pc x) = own (s.pc x) := by
    intro x; rw [hp]; split
    · rename_i h; rw [h, hpc]; rfl
    · rfl
  have mono : ∀ x, own (s.pc x) = true → own (s'.pc x) = true := fun x h => by rw [ho]; exact h
  have hu : own (s.pc u) = false := by rw [hpc]; rfl
  have ht : ∀ x, own (s.pc x) = true → s'.tgt x = s.tgt x := by
    intro x hx; rw [htt, if_neg]; rintro rfl; rw [hu] at hx; cases hx
  have key : ∀ {f : CPc → Bool}, (∀ p, f p = true → own p = true) → ∀ x, f (s'.pc x) = true → f (s.pc x) = true ∧ s'.tgt x = s.tgt x := by
    intro f hf x hx
    have h1 : own (s'.pc x) = true := hf _ hx
    rw [ho] at h1
    refine ⟨?_, ht x h1⟩
    rw [hp, if_neg] at hx
    · exact hx
    · rintro rfl; rw [hu] at h1; cases h1
  have c1 : ∀ k p, inJ k p = true → own p = true := fun k p => own_of_inJ
  have c2 : ∀ p, busy p = true → own p = true := fun p => own_of_busy
  have c3 : ∀ p, afterLoad p = true → own p = true := fun p => own_of_afterLoad
  have hne : ∀ x, own (s.pc x) = true → s'.pc x = s.pc x := by
    intro x hx; rw [hp, if_neg]; rintro rfl; rw [hu] at hx; cases hx
  constructor
  all_goals try simp only [hs, hc, hr, hpa]
  · intro x hx
    exact R.busyI x (key c2 x hx).1
  · intro x hx
    obtain ⟨h1, h2⟩ := R.root x hx
    refine ⟨h1, ?_⟩
    have : own (s.pc x) = true := by
      by_contra hn
      exact hx (I.noown x (by simpa using hn))
    rw [hne x this, ht x this]; exact h2
  · intro x hx
    have : own (s.pc x) = true := by
      rw [← ho]; rcases hx with h | h <;> exact own_of_inJ h
    rw [hne x this] at hx; rw [ht x this]
    exact R.held x hx
  · intro x r h
    have hx : own (s.pc x) = true := by
      rw [← ho]; rcases h with h | h | h <;> rw [h] <;> rfl
    rw [hne x hx] at h; rw [ht x hx]
    exact R.repM x r h

end ClSt
end Verif
