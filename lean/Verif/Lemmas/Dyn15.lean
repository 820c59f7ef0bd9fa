import Verif.Lemmas.Dyn14
/-!
# Preservation of the invariant: moves of threads, registered contractions
-/
namespace Verif
namespace Dyn
open SMap (wr)

variable {s0 : DH} {mx : Int} {s : St} {G : Gh}

theorem wr_cases {α : Type} (f : Nat → α) (i : Nat) (a : α) (j : Nat) : (j = i ∧ wr f i a j = a) ∨ (j ≠ i ∧ wr f i a j = f j) := by
  by_cases h : j = i
  · subst h; exact Or.inl ⟨rfl, wr_same _ _ _⟩
  · exact Or.inr ⟨h, wr_other _ _ h⟩

/-- a thread moves without changing shared data -/
theorem Inv.move (hI : Inv s0 mx s G) {i : Nat} {pc : Pc} (hok : ThrOK s0 mx s.h s.ref G pc) (hon : pc.on = (s.thr i).on)
    (how : ∀ v, s.h.en v = true → s.h.par v ≠ v → s.h.pend v = 0 → s.thr i = .look v ∨ s.thr i = .tryC (s.h.par v) v →
      pc = .look v ∨ pc = .tryC (s.h.par v) v) :
    Inv s0 mx { s with thr := wr s.thr i pc } G := by
  have hone : ∀ j, (wr s.thr i pc j).on = (s.thr j).on := by
    intro j
    rcases wr_cases s.thr i pc j with ⟨h1, h2⟩ | ⟨h1, h2⟩
    · rw [h2, h1, hon]
    · rw [h2]
  refine ⟨hI.t, hI.e, ?_, hI.n, ?_⟩
  · have P := hI.p
    refine ⟨P.root, P.enLe, ?_, ?_, P.finD, P.mgD, P.unf, P.pend, ?_, P.verR, P.verM, P.wt0, P.wtS, P.gst, P.tk⟩
    · intro v hv he
      obtain ⟨h1, h2⟩ := P.dis v hv he
      refine ⟨h1, ?_⟩
      rcases h2 with h2 | ⟨j, u, h2⟩
      · exact Or.inl h2
      · exact Or.inr ⟨j, u, by show (wr s.thr i pc j).on = _; rw [hone]; exact h2⟩
    · intro j k u u' v h1 h2
      change (wr s.thr i pc j).on = _ at h1
      change (wr s.thr i pc k).on = _ at h2
      rw [hone] at h1 h2
      exact P.uniq j k u u' v h1 h2
    · intro v hv hp
      rcases P.owed v hv hp with h | ⟨j, h⟩
      · exact Or.inl h
      · by_cases h0 : s.h.pend v = 0
        · refine Or.inr ?_
          by_cases hj : j = i
          · subst hj
            refine ⟨j, ?_⟩
            show wr s.thr j pc j = _ ∨ wr s.thr j pc j = _
            rw [wr_same]
            exact how v hv hp h0 h
          · refine ⟨j, ?_⟩
            show wr s.thr i pc j = _ ∨ wr s.thr i pc j = _
            rw [wr_other _ _ hj]; exact h
        · exact Or.inl (Nat.pos_of_ne_zero h0)
  · intro j
    show ThrOK s0 mx s.h s.ref G (wr s.thr i pc j)
    rcases wr_cases s.thr i pc j with ⟨h1, h2⟩ | ⟨h1, h2⟩
    · rw [h2]; exact hok
    · rw [h2]; exact hI.thr j

theorem Inv.fin_false (hI : Inv s0 mx s G) {v : Nat} (h : s.h.en v = true) : G.fin v = false := by
  rw [bool_false_iff]; intro hf
  have := (hI.p.finD v hf).1
  rw [h] at this; cases this

theorem Inv.mg_false (hI : Inv s0 mx s G) {v : Nat} (h : s.h.en v = true) : G.mg v = false := by
  rw [bool_false_iff]; intro hf
  have := hI.p.mgD v hf
  rw [h] at this; cases this

theorem Inv.log_false (hI : Inv s0 mx s G) {v : Nat} (h : s.h.en v = true) (e : Nat) : G.one v e = false ∧ G.two v e = false := by
  constructor <;> rw [bool_false_iff] <;> intro hf
  · have := (hI.e.logU v e (Or.inl hf)).2.2.1
    rw [h] at this; cases this
  · have := (hI.e.logU v e (Or.inr hf)).2.2.1
    rw [h] at this; cases this

/-- changes of parents and versions of enabled nodes -/
theorem InvT.par {h h' : DH} (hT : InvT s0 h G) (hn : h'.n = h.n) (hm : h'.m = h.m) (ha : h'.ina = h.ina) (hV : h'.V = h.V)
    (hp : ∀ v, G.mg v = true → h'.par v = h.par v ∧ h'.ver v = h.ver v) : InvT s0 h' G := by
  refine ⟨hn.trans hT.nEq, hm.trans hT.mEq, hT.tree.congr (fun v hv => (hp v hv).1), ?_, ?_⟩
  · rw [ha, hV]; exact hT.ina.par_congr hp
  · rw [ha]; exact hT.fresh

theorem InvE.par {h h' : DH} (hE : InvE s0 h G) (h1 : h'.pins = h.pins) (h2 : h'.size = h.size) (hen : ∀ v, h.en v = false → h'.en v = false)
    (hp : ∀ v, h.en v = false → h'.par v = h.par v ∧ h'.ver v = h.ver v) (hmg : ∀ v, G.mg v = true → h.en v = false) : InvE s0 h' G := by
  have hl : ∀ v e, G.one v e = true ∨ G.two v e = true → h'.par v = h.par v ∧ h'.ver v = h.ver v :=
    fun v e hv => hp v (hE.logU v e hv).2.2.1
  have hin : ∀ x e, G.isIn s0 h'.par x e ↔ G.isIn s0 h.par x e := fun x e => InN_congr (fun w hw => (hl w e (Or.inr hw)).1) x
  refine ⟨?_, ?_, ?_, ?_, ?_, ?_⟩
  · intro e; exact (hE.log e).congr (fun w hw => (hl w e hw).1)
  · intro e he
    rw [h1, h2]
    exact (hE.pins e he).congr (fun w hw => (hl w e (Or.inr hw)).1)
  · intro e he; rw [h1, h2]; exact hE.other e he
  · intro v e hv
    obtain ⟨a1, a2, a3, a4⟩ := hE.logU v e hv
    refine ⟨a1, a2, hen v a3, ?_⟩
    rw [(hl v e hv).2]; exact a4
  · intro v e hv
    rw [hin, (hp v (hmg v hv)).2]
    exact hE.comp v e hv
  · intro v e hv
    rw [(hl v e (Or.inl hv)).1, (hl v e (Or.inl hv)).2]
    rcases hE.oneIn v e hv with h | ⟨w, a1, a2, a3, a4⟩
    · exact Or.inl h
    · refine Or.inr ⟨w, ?_, ?_, a3, ?_⟩
      · rw [(hl w e (Or.inr a3)).1]; exact a1
      · rw [(hl w e (Or.inr a3)).1]; exact a2
      · rw [(hl w e (Or.inr a3)).2]; exact a4

theorem InvN.same {h h' : DH} (hN : InvN s0 h G) (h1 : h'.V = h.V) (h2 : h'.removed = h.removed) (h3 : h'.ew = h.ew) (h4 : h'.een = h.een) : InvN s0 h' G := by
  refine ⟨?_, ?_, hN.once, ?_, ?_, ?_⟩
  · rw [h1, h2]; exact hN.rem
  · rw [h1]; exact hN.remV
  · rw [h2, h3]; exact hN.ew
  · rw [h2, h4]; exact hN.een
  · rw [h4]; exact hN.enabled

theorem Inv.register (hI : Inv s0 mx s G) {i w v : Nat} (hi : s.thr i = .idle) (hw : w < s.h.n) (hv : v < s.h.n) (hwv : w ≠ v)
    (ew : s.h.en w = true) (ev : s.h.en v = true) (hp : s.h.par v = v) :
    Inv s0 mx { s with h := s.h.registerTree w v, thr := wr s.thr i (.look v) } G := by
  have P := hI.p
  have hfv := hI.fin_false ev
  have hne : ∀ x, s.h.en x = false → x ≠ v := by rintro x hx rfl; rw [ev] at hx; cases hx
  have hnw : ∀ x, s.h.en x = false → x ≠ w := by rintro x hx rfl; rw [ew] at hx; cases hx
  have hlv : s0.live v := ⟨by rw [← hI.t.nEq]; exact hv, P.enLe v ev⟩
  have hlw : s0.live w := ⟨by rw [← hI.t.nEq]; exact hw, P.enLe w ew⟩
  have hpar : ∀ x, x ≠ v → (s.h.registerTree w v).par x = s.h.par x := fun x hx => wr_other _ _ hx
  have hparv : (s.h.registerTree w v).par v = w := wr_same _ _ _
  have hver : ∀ x, x ≠ v → (s.h.registerTree w v).ver x = s.h.ver x := fun x hx => wr_other _ _ hx
  have hverv : (s.h.registerTree w v).ver v = s.h.V := wr_same _ _ _
  have hon : ∀ j, (wr s.thr i (.look v) j).on = (s.thr j).on := by
    intro j
    rcases wr_cases s.thr i (.look v) j with ⟨h1, h2⟩ | ⟨h1, h2⟩
    · rw [h2, h1, hi]; rfl
    · rw [h2]
  have hmgne : ∀ x, G.mg x = true → x ≠ v := fun x hx => hne x (P.mgD x hx)
  refine ⟨hI.t.par rfl rfl rfl rfl (fun x hx => ⟨hpar x (hmgne x hx), hver x (hmgne x hx)⟩),
    hI.e.par rfl rfl (fun _ h => h) (fun x hx => ⟨hpar x (hne x hx), hver x (hne x hx)⟩) P.mgD, ?_, hI.n.same rfl rfl rfl rfl, ?_⟩
  · refine ⟨?_, P.enLe, ?_, ?_, ?_, P.mgD, ?_, ?_, ?_, ?_, ?_, P.wt0, ?_, P.gst, P.tk⟩
    · intro x hx
      by_cases hxv : x = v
      · subst hxv; show s0.live x ∧ s0.live ((s.h.registerTree w x).par x); rw [hparv]; exact ⟨hlv, hlw⟩
      · change (s.h.registerTree w v).par x ≠ x at hx
        show s0.live x ∧ s0.live ((s.h.registerTree w v).par x)
        rw [hpar x hxv] at hx ⊢; exact P.root x hx
    · intro x hx he
      obtain ⟨h1, h2⟩ := P.dis x hx he
      refine ⟨?_, ?_⟩
      · show (s.h.registerTree w v).par x ≠ x
        rw [hpar x (hne x he)]; exact h1
      · rcases h2 with h2 | ⟨j, u, h2⟩
        · exact Or.inl h2
        · exact Or.inr ⟨j, u, (hon j).trans h2⟩
    · intro j k u u' x h1 h2
      exact P.uniq j k u u' x ((hon j).symm.trans h1) ((hon k).symm.trans h2)
    · intro x hx
      obtain ⟨h1, h2, h3⟩ := P.finD x hx
      refine ⟨h1, ?_, h3⟩
      show (s.h.registerTree w v).par x ≠ x
      rw [hpar x (hne x h1)]; exact h2
    · intro x hx hf
      by_cases hxv : x = v
      · subst hxv
        show s.h.en ((s.h.registerTree w x).par x) = true ∧ (s.h.registerTree w x).ver x = s.h.V
        rw [hparv, hverv]; exact ⟨ew, rfl⟩
      · change (s.h.registerTree w v).par x ≠ x at hx
        show s.h.en ((s.h.registerTree w v).par x) = true ∧ (s.h.registerTree w v).ver x = s.h.V
        rw [hpar x hxv] at hx ⊢
        rw [hver x hxv]; exact P.unf x hx hf
    · intro u
      show wr s.h.pend w (s.h.pend w + 1) u = (openKids s0.n (s.h.registerTree w v).par G.fin u).card
      by_cases hu : u = w
      · subst hu
        rw [wr_same, P.pend u]
        have hnot : v ∉ openKids s0.n s.h.par G.fin u := by
          rw [openKids, Finset.mem_filter]
          rintro ⟨_, h1, h2, _⟩
          exact hwv (h1.symm.trans hp)
        have heq : openKids s0.n (s.h.registerTree u v).par G.fin u = insert v (openKids s0.n s.h.par G.fin u) := by
          ext x
          rw [Finset.mem_insert, openKids, openKids, Finset.mem_filter, Finset.mem_filter]
          by_cases hxv : x = v
          · subst hxv
            rw [hparv]
            simp [hfv, hlv.1, Ne.symm hwv]
          · rw [hpar x hxv]; simp [hxv]
        rw [heq, Finset.card_insert_of_notMem hnot]
      · rw [wr_other _ _ hu, P.pend u]
        congr 1
        ext x
        rw [openKids, openKids, Finset.mem_filter, Finset.mem_filter]
        by_cases hxv : x = v
        · subst hxv
          rw [hparv, hp]
          constructor
          · rintro ⟨_, h1, h2, _⟩; exact absurd h1 h2
          · rintro ⟨_, h1, h2, _⟩; exact absurd h1.symm hu
        · rw [hpar x hxv]
    · intro x hx hpx
      by_cases hxv : x = v
      · subst hxv
        refine Or.inr ⟨i, Or.inl ?_⟩
        show wr s.thr i (.look x) i = _
        rw [wr_same]
      · change (s.h.registerTree w v).par x ≠ x at hpx
        rw [hpar x hxv] at hpx
        rcases P.owed x hx hpx with h | ⟨j, h⟩
        · refine Or.inl ?_
          show 0 < wr s.h.pend w (s.h.pend w + 1) x
          rcases wr_cases s.h.pend w (s.h.pend w + 1) x with ⟨_, h2⟩ | ⟨_, h2⟩
          · rw [h2]; omega
          · rw [h2]; exact h
        · refine Or.inr ⟨j, ?_⟩
          have hji : j ≠ i := by
            rintro rfl
            rw [hi] at h
            rcases h with h | h <;> cases h
          show wr s.thr i (.look v) j = _ ∨ wr s.thr i (.look v) j = .tryC ((s.h.registerTree w v).par x) x
          rw [wr_other _ _ hji, hpar x hxv]; exact h
    · intro x hx
      by_cases hxv : x = v
      · subst hxv
        change (s.h.registerTree w x).par x = x at hx
        rw [hparv] at hx; exact absurd hx hwv
      · change (s.h.registerTree w v).par x = x at hx
        show (s.h.registerTree w v).ver x = _
        rw [hpar x hxv] at hx
        rw [hver x hxv]; exact P.verR x hx
    · intro x hx hpp
      have hxv := hmgne x hx
      change (s.h.registerTree w v).par ((s.h.registerTree w v).par x) ≠ (s.h.registerTree w v).par x at hpp
      show (s.h.registerTree w v).ver x ≤ (s.h.registerTree w v).ver ((s.h.registerTree w v).par x)
      rw [hpar x hxv] at hpp ⊢
      rw [hver x hxv]
      by_cases hpv : s.h.par x = v
      · rw [hpv, hverv]; exact (hI.t.ina.stk x hx).1
      · rw [hpar _ hpv] at hpp
        rw [hver _ hpv]; exact P.verM x hx hpp
    · intro u
      have : inside s0 (s.h.registerTree w v).par s.h.en u = inside s0 s.h.par s.h.en u := by
        ext x
        rw [inside, inside, Finset.mem_filter, Finset.mem_filter]
        by_cases hxv : x = v
        · subst hxv; simp [ev]
        · rw [hpar x hxv]
      show s.h.wt u = s0.wt u + ∑ x ∈ inside s0 (s.h.registerTree w v).par s.h.en u, s.h.wt x
      rw [this]; exact P.wtS u
  · intro j
    show ThrOK s0 mx (s.h.registerTree w v) s.ref G (wr s.thr i (.look v) j)
    rcases wr_cases s.thr i (.look v) j with ⟨h1, h2⟩ | ⟨h1, h2⟩
    · rw [h2]; exact hlv
    · rw [h2]
      refine (hI.thr j).stable ?_ ?_
      · intro u x hx
        have hr := (hI.thr j).run hx
        refine ⟨hpar x (hne x hr.en), rfl, rfl, ?_, rfl, rfl, rfl, rfl, fun _ => ⟨rfl, rfl⟩, fun _ => rfl⟩
        exact wr_other _ _ (hnw x hr.en)
      · intro u x _ hux hor
        by_cases hxv : x = v
        · subst hxv
          rcases hor with h | h | h | h
          · exact absurd (h.symm.trans hp) hux
          · rw [ev] at h; cases h
          · exact Or.inr (Or.inr (Or.inl h))
          · exact Or.inr (Or.inr (Or.inr h))
        · rw [hpar x hxv]; exact hor

/-- a registered contraction is given up -/
theorem Inv.failed (hI : Inv s0 mx s G) {i u v : Nat} (hi : s.thr i = .tryC u v) (ev : s.h.en v = true) (hp : s.h.par v = u) {ref' : Nat → Nat → Bool}
    (hr : ∀ a b, s.ref a b = true → ref' a b = true) (hwhy : mx < s.h.wt u + s.h.wt v ∨ ref' u v = true) :
    Inv s0 mx { h := s.h.unregisterFailed u v, thr := wr s.thr i (.look u), ref := ref' } G := by
  have P := hI.p
  have hfv := hI.fin_false ev
  have hok := hI.thr i
  rw [hi] at hok
  obtain ⟨hlu, hlv, huv, _⟩ := hok
  have hpv : s.h.par v ≠ v := by rw [hp]; exact huv
  have eu : s.h.en u = true := by have := (P.unf v hpv hfv).1; rwa [hp] at this
  have hne : ∀ x, s.h.en x = false → x ≠ v := by rintro x hx rfl; rw [ev] at hx; cases hx
  have hnu : ∀ x, s.h.en x = false → x ≠ u := by rintro x hx rfl; rw [eu] at hx; cases hx
  have hpar : ∀ x, x ≠ v → (s.h.unregisterFailed u v).par x = s.h.par x := fun x hx => wr_other _ _ hx
  have hparv : (s.h.unregisterFailed u v).par v = v := wr_same _ _ _
  have hver : ∀ x, x ≠ v → (s.h.unregisterFailed u v).ver x = s.h.ver x := fun x hx => wr_other _ _ hx
  have hverv : (s.h.unregisterFailed u v).ver v = kInvVer := wr_same _ _ _
  have hon : ∀ j, (wr s.thr i (.look u) j).on = (s.thr j).on := by
    intro j
    rcases wr_cases s.thr i (.look u) j with ⟨h1, h2⟩ | ⟨h1, h2⟩
    · rw [h2, h1, hi]; rfl
    · rw [h2]
  have hmgne : ∀ x, G.mg x = true → x ≠ v := fun x hx => hne x (P.mgD x hx)
  have hvin : v ∈ openKids s0.n s.h.par G.fin u := by
    rw [openKids, Finset.mem_filter, Finset.mem_range]; exact ⟨hlv.1, hp, Ne.symm huv, hfv⟩
  refine ⟨hI.t.par rfl rfl rfl rfl (fun x hx => ⟨hpar x (hmgne x hx), hver x (hmgne x hx)⟩),
    hI.e.par rfl rfl (fun _ h => h) (fun x hx => ⟨hpar x (hne x hx), hver x (hne x hx)⟩) P.mgD, ?_, hI.n.same rfl rfl rfl rfl, ?_⟩
  · refine ⟨?_, P.enLe, ?_, ?_, ?_, P.mgD, ?_, ?_, ?_, ?_, ?_, P.wt0, ?_, P.gst, P.tk⟩
    · intro x hx
      change (s.h.unregisterFailed u v).par x ≠ x at hx
      have hxv : x ≠ v := by rintro rfl; exact hx hparv
      show s0.live x ∧ s0.live ((s.h.unregisterFailed u v).par x)
      rw [hpar x hxv] at hx ⊢; exact P.root x hx
    · intro x hx he
      obtain ⟨h1, h2⟩ := P.dis x hx he
      refine ⟨?_, ?_⟩
      · show (s.h.unregisterFailed u v).par x ≠ x
        rw [hpar x (hne x he)]; exact h1
      · rcases h2 with h2 | ⟨j, u, h2⟩
        · exact Or.inl h2
        · exact Or.inr ⟨j, u, (hon j).trans h2⟩
    · intro j k a a' x h1 h2
      exact P.uniq j k a a' x ((hon j).symm.trans h1) ((hon k).symm.trans h2)
    · intro x hx
      obtain ⟨h1, h2, h3⟩ := P.finD x hx
      refine ⟨h1, ?_, h3⟩
      show (s.h.unregisterFailed u v).par x ≠ x
      rw [hpar x (hne x h1)]; exact h2
    · intro x hx hf
      change (s.h.unregisterFailed u v).par x ≠ x at hx
      have hxv : x ≠ v := by rintro rfl; exact hx hparv
      show s.h.en ((s.h.unregisterFailed u v).par x) = true ∧ (s.h.unregisterFailed u v).ver x = s.h.V
      rw [hpar x hxv] at hx ⊢
      rw [hver x hxv]; exact P.unf x hx hf
    · intro a
      show wr s.h.pend u (s.h.pend u - 1) a = (openKids s0.n (s.h.unregisterFailed u v).par G.fin a).card
      by_cases hu : a = u
      · subst hu
        rw [wr_same, P.pend a]
        have heq : openKids s0.n (s.h.unregisterFailed a v).par G.fin a = (openKids s0.n s.h.par G.fin a).erase v := by
          ext x
          rw [Finset.mem_erase, openKids, openKids, Finset.mem_filter, Finset.mem_filter]
          by_cases hxv : x = v
          · subst hxv
            rw [hparv]
            simp [huv.symm]
          · rw [hpar x hxv]; simp [hxv]
        rw [heq, Finset.card_erase_of_mem hvin]
      · rw [wr_other _ _ hu, P.pend a]
        congr 1
        ext x
        rw [openKids, openKids, Finset.mem_filter, Finset.mem_filter]
        by_cases hxv : x = v
        · subst hxv
          rw [hparv, hp]
          constructor
          · rintro ⟨_, h1, h2, _⟩; exact absurd h1.symm hu
          · rintro ⟨_, h1, h2, _⟩; exact absurd h1 h2
        · rw [hpar x hxv]
    · intro x hx hpx
      change (s.h.unregisterFailed u v).par x ≠ x at hpx
      have hxv : x ≠ v := by rintro rfl; exact hpx hparv
      rw [hpar x hxv] at hpx
      by_cases hxu : x = u
      · subst hxu
        refine Or.inr ⟨i, Or.inl ?_⟩
        show wr s.thr i (.look x) i = _
        rw [wr_same]
      · rcases P.owed x hx hpx with h | ⟨j, h⟩
        · refine Or.inl ?_
          show 0 < wr s.h.pend u (s.h.pend u - 1) x
          rw [wr_other _ _ hxu]; exact h
        · refine Or.inr ⟨j, ?_⟩
          have hji : j ≠ i := by
            rintro rfl
            rw [hi] at h
            rcases h with h | h
            · cases h
            · injection h with _ h; exact hxv h.symm
          show wr s.thr i (.look u) j = _ ∨ wr s.thr i (.look u) j = .tryC ((s.h.unregisterFailed u v).par x) x
          rw [wr_other _ _ hji, hpar x hxv]; exact h
    · intro x hx
      by_cases hxv : x = v
      · subst hxv; exact hverv
      · change (s.h.unregisterFailed u v).par x = x at hx
        show (s.h.unregisterFailed u v).ver x = _
        rw [hpar x hxv] at hx
        rw [hver x hxv]; exact P.verR x hx
    · intro x hx hpp
      have hxv := hmgne x hx
      change (s.h.unregisterFailed u v).par ((s.h.unregisterFailed u v).par x) ≠ (s.h.unregisterFailed u v).par x at hpp
      show (s.h.unregisterFailed u v).ver x ≤ (s.h.unregisterFailed u v).ver ((s.h.unregisterFailed u v).par x)
      rw [hpar x hxv] at hpp ⊢
      rw [hver x hxv]
      have hpv' : s.h.par x ≠ v := by intro h; rw [h] at hpp; exact hpp hparv
      rw [hpar _ hpv'] at hpp
      rw [hver _ hpv']; exact P.verM x hx hpp
    · intro a
      have : inside s0 (s.h.unregisterFailed u v).par s.h.en a = inside s0 s.h.par s.h.en a := by
        ext x
        rw [inside, inside, Finset.mem_filter, Finset.mem_filter]
        by_cases hxv : x = v
        · subst hxv; simp [ev]
        · rw [hpar x hxv]
      show s.h.wt a = s0.wt a + ∑ x ∈ inside s0 (s.h.unregisterFailed u v).par s.h.en a, s.h.wt x
      rw [this]; exact P.wtS a
  · intro j
    show ThrOK s0 mx (s.h.unregisterFailed u v) ref' G (wr s.thr i (.look u) j)
    rcases wr_cases s.thr i (.look u) j with ⟨h1, h2⟩ | ⟨h1, h2⟩
    · rw [h2]; exact hlu
    · rw [h2]
      refine (hI.thr j).stable ?_ ?_
      · intro a x hx
        have hr := (hI.thr j).run hx
        refine ⟨hpar x (hne x hr.en), rfl, rfl, ?_, rfl, rfl, rfl, rfl, fun _ => ⟨rfl, rfl⟩, fun _ => rfl⟩
        exact wr_other _ _ (hnu x hr.en)
      · intro a x _ hux hor
        by_cases hxv : x = v
        · subst hxv
          rcases hor with h | h | h | h
          · have : a = u := h.symm.trans hp
            subst this
            rcases hwhy with h | h
            · exact Or.inr (Or.inr (Or.inl h))
            · exact Or.inr (Or.inr (Or.inr h))
          · rw [ev] at h; cases h
          · exact Or.inr (Or.inr (Or.inl h))
          · exact Or.inr (Or.inr (Or.inr (hr _ _ h)))
        · rw [hpar x hxv]
          rcases hor with h | h | h | h
          · exact Or.inl h
          · exact Or.inr (Or.inl h)
          · exact Or.inr (Or.inr (Or.inl h))
          · exact Or.inr (Or.inr (Or.inr (hr _ _ h)))

end Dyn
end Verif
