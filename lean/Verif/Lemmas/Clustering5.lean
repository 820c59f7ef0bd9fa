import Verif.Lemmas.Clustering4
namespace Verif
namespace ClSt

theorem RInv.rep_root {s : ClSt} (R : s.RInv) {v : Nat} (hm : s.st v = .matched) :
    s.cid (s.cid v) = s.cid v ∧ s.st (s.cid v) = .matched := by
  by_cases h : s.cid v = v
  · rw [h]; exact ⟨h, hm⟩
  · obtain ⟨h1, h2 | ⟨_, _, h3⟩⟩ := R.root v h
    · exact ⟨h1, h2⟩
    · have : busy (s.pc v) = true := by rcases h3 with h3 | h3 <;> exact busy_of_inJ h3
      have := R.busyI v this
      rw [hm] at this; cases this

set_option maxHeartbeats 1000000 in
theorem RInv.run {s s' : ClSt} (R : s.RInv) (I : s.CInv) {lim : Int} {nw : Nat → Int} {u : Nat} {ok : Bool}
    (h : s.run lim nw u ok = some s') (hlate : s'.late = false) : s'.RInv := by
  unfold ClSt.run at h
  have hwc := I.wcid u
  have hno := I.noown u
  have hroot : s.cid u ≠ u → _ := fun h => (R.root u h).2
  cases hpc : s.pc u with
  | idle | done | skip => simp [hpc] at h
  | weight =>
    simp only [hpc, Option.some.injEq] at h
    replace hno := hno (by rw [hpc]; rfl)
    subst h
    split
    · refine R.pcStep ?_ ?_ ?_ ?_ ?_ <;> simp [hpc, inJ, busy, hno]
    · refine R.pcStep ?_ ?_ ?_ ?_ ?_ <;> simp [hpc, inJ, busy, hno]
  | cas =>
    simp only [hpc] at h
    split at h
    · rename_i hst
      cases h
      exact R.casStep I hpc hst
    · cases h
      replace hno := hno (by rw [hpc]; rfl)
      refine R.pcStep ?_ ?_ ?_ ?_ ?_ <;> simp [hpc, inJ, busy, hno]
  | store =>
    simp only [hpc, Option.some.injEq] at h
    subst h
    exact R.storeStep I hpc
  | loadV =>
    simp only [hpc] at h
    have hr := I.res_false (u := u) (by rw [hpc]; rfl)
    replace hwc := hwc (by rw [hpc]; rfl) hr
    cases hst : s.st (s.tgt u) with
    | matched =>
      simp only [hst, Option.some.injEq] at h
      subst h
      simp only [Bool.or_eq_false_iff, decide_eq_false_iff_not] at hlate
      have hU := I.ownU u (by rw [hpc]; rfl)
      have hst : s.st u = .inProgress := by cases hh : s.st u <;> simp_all
      refine RInv.congr (s := s.goto u .read) ?_ rfl rfl rfl rfl
      refine R.pcStep ?_ ?_ ?_ ?_ ?_ <;> simp [hpc, inJ, busy, hwc, hst]
    | unmatched =>
      simp only [hst, Option.some.injEq] at h
      subst h
      refine R.pcStep ?_ ?_ ?_ ?_ ?_ <;> simp [hpc, inJ, busy, hwc]
    | inProgress =>
      simp only [hst, Option.some.injEq] at h
      subst h
      refine R.pcStep ?_ ?_ ?_ ?_ ?_ <;> simp [hpc, inJ, busy, hwc]
  | casV =>
    simp only [hpc] at h
    have hr := I.res_false (u := u) (by rw [hpc]; rfl)
    replace hwc := hwc (by rw [hpc]; rfl) hr
    split at h
    · rename_i hst
      cases h
      exact R.casVStep I hpc hst
    · cases h
      refine R.pcStep ?_ ?_ ?_ ?_ ?_ <;> simp [hpc, inJ, busy, hwc]
  | walk c m =>
    simp only [hpc] at h
    have hr := I.res_false (u := u) (by rw [hpc]; rfl)
    replace hwc := hwc (by rw [hpc]; rfl) hr
    split at h
    · cases h
      refine R.pcStep ?_ ?_ ?_ ?_ ?_ <;> simp [hpc, inJ, busy, hwc]
    · cases h
      refine R.pcStep ?_ ?_ ?_ ?_ ?_ <;> simp [hpc, inJ, busy, hwc]
  | check2 c m =>
    simp only [hpc] at h
    have hr := I.res_false (u := u) (by rw [hpc]; rfl)
    replace hwc := hwc (by rw [hpc]; rfl) hr
    split at h
    · rename_i hn
      cases h
      obtain ⟨hn1, rfl⟩ := hn
      obtain ⟨hc, hI⟩ := I.cyc_entry hpc hn1
      -- the target waits, so its cluster id is unchanged
      have hne : s.tgt u ≠ u := I.tgt_ne u (by rw [hpc]; rfl)
      have hnr : ∀ z, s.res z = true → ∀ i, s.tgt^[i] u = z → False := by
        intro z hz i hi
        have := hc.uniq (I.resC z hz) hi.symm
        rw [this, hr] at hz; cases hz
      have hw : inW (s.pc (s.tgt u)) = true := by
        rcases I.past (s.tgt u) (hc.allOwn 1) with h1 | h1 | h1 | h1
        · exact h1
        · exact (hne (hc.uniq (I.cycC _ h1) (i := 1) rfl)).elim
        · have := I.grabO _ h1
          rw [show s.tgt (s.tgt u) = s.tgt^[2] u from rfl, hc.allOwn 2] at this; cases this
        · rw [show s.tgt (s.tgt u) = s.tgt^[2] u from rfl, hI 2] at h1; cases h1
      have hcid : s.cid (s.tgt u) = s.tgt u := by
        refine I.wcid _ hw ?_
        by_contra hh
        exact hnr _ (by simpa using hh) 1 rfl
      have hsu := hI 0
      simp only [Function.iterate_zero, id] at hsu
      refine R.pcStep ?_ ?_ ?_ ?_ ?_ <;> simp [hpc, inJ, busy, hwc, hcid, hsu]
    · cases h
      refine R.pcStep ?_ ?_ ?_ ?_ ?_ <;> simp [hpc, inJ, busy, hwc]
  | loop =>
    simp only [hpc, Option.some.injEq] at h
    subst h
    split
    · refine R.pcStep ?_ ?_ ?_ ?_ ?_ <;> simp_all [inJ, busy, inAdd]
    · refine R.pcStep ?_ ?_ ?_ ?_ ?_ <;> simp_all [inJ, busy, inAdd]
  | self =>
    simp only [hpc, Option.some.injEq] at h
    subst h
    split
    · refine R.pcStep ?_ ?_ ?_ ?_ ?_ <;> simp_all [inJ, busy, inAdd]
    · refine R.pcStep ?_ ?_ ?_ ?_ ?_ <;> simp_all [inJ, busy, inAdd]
  | read =>
    simp only [hpc, Option.some.injEq] at h
    have hm : s.st (s.tgt u) = .matched := by
      have := I.past u (by rw [hpc]; rfl)
      simpa [hpc, inW, inJ] using this
    have hrr := R.rep_root hm
    have hb := R.busyI u (by rw [hpc]; rfl)
    subst h
    refine R.pcStep ?_ ?_ ?_ ?_ ?_ <;> simp_all [inJ, busy, inAdd]
  | jload k rep =>
    simp only [hpc, Option.some.injEq] at h
    have hb := R.busyI u (by rw [hpc]; rfl)
    have hM := R.repM u rep
    have hh := R.held u
    subst h
    split
    · refine R.pcStep ?_ ?_ ?_ ?_ ?_ <;> cases k <;> simp_all [inJ, busy, inAdd]
      obtain ⟨a, b, c⟩ := hM
      rw [← c]; exact ⟨a, b⟩
    · refine R.pcStep ?_ ?_ ?_ ?_ ?_ <;> cases k <;> simp_all [inJ, busy, inAdd, afterJoin]
  | jwrite k rep =>
    simp only [hpc, Option.some.injEq] at h
    subst h
    exact R.jwriteStep I hpc
  | jadd k rep =>
    simp only [hpc, Option.some.injEq] at h
    subst h
    cases k with
    | rep => exact (R.jaddStep_rep I hpc).congr rfl rfl rfl rfl
    | grab => exact (R.jaddStep_grab I hpc).congr rfl rfl rfl rfl
    | cyc => exact (R.jaddStep_cyc I hpc).congr rfl rfl rfl rfl
  | jstore k =>
    cases k with
    | rep => exact (I.jst u hpc).elim
    | grab =>
      simp only [hpc, Option.some.injEq] at h
      subst h
      exact R.jstoreGrab I hpc
    | cyc =>
      simp only [hpc, Option.some.injEq] at h
      subst h
      exact R.jstoreCyc I hpc
  | fin1 =>
    simp only [hpc, Option.some.injEq] at h
    subst h
    exact R.fin1Step I hpc
  | fin2 =>
    simp only [hpc, Option.some.injEq] at h
    subst h
    exact R.fin2Step I hpc

theorem late_mono {s s' : ClSt} {lim : Int} {nw : Nat → Int} {u : Nat} {ok : Bool}
    (h : s.run lim nw u ok = some s') (hl : s'.late = false) : s.late = false := by
  unfold ClSt.run at h
  cases hpc : s.pc u with
  | jstore k => cases k <;> (simp only [hpc, Option.some.injEq] at h; subst h; exact hl)
  | loadV =>
    cases hst : s.st (s.tgt u) <;> (simp only [hpc, hst, Option.some.injEq] at h; subst h)
    · exact hl
    · exact hl
    · simp at hl; exact hl.1
  | _ =>
    simp only [hpc] at h
    first
    | (cases h; done)
    | (split at h <;> (cases h; exact hl))
    | (cases h; exact hl)

theorem Reach.inv {lim : Int} {nw : Nat → Int} {nodes : List Nat} {T : Nat} {s : ClSt} (h : Reach lim nw nodes T s) :
    s.CInv ∧ (s.late = false → s.RInv) := by
  induction h with
  | init => exact ⟨.init nw, fun _ => .init nw⟩
  | start _ _ _ hv hpc _ ih => exact ⟨ih.1.beginStep hv hpc, fun hl => (ih.2 hl).beginStep ih.1 hv hpc⟩
  | run _ hrun ih => exact ⟨ih.1.run hrun, fun hl => (ih.2 (late_mono hrun hl)).run ih.1 hrun hl⟩

end ClSt
end Verif
