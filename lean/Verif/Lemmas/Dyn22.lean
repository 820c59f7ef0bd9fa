import Verif.Lemmas.Dyn21
/-!
# Steps of the uncontraction of a batch
-/
namespace Verif
namespace Dyn
open SMap (wr)

variable {s0 : DH} {par ver bi : Nat → Nat} {G : Gh} {V c : Nat} {b : List (Nat × Nat)} {s s' : USt} {U : UG}

/-- a memento moves without changing shared data -/
theorem UInv.move (hb : BatchOK par bi c b) (hI : UInv s0 par ver bi G V c b s U) {j u v : Nat} {t' : Tk} (hj : b[j]? = some (u, v))
    (hok : TkOK G s.h s.flag U u v t') (hnr : ∀ e p cs, t' ≠ .resize e p cs)
    (hgr : ∀ e p cs, s.tk j = .resize e p cs → ∀ v, par v ≠ v → bi v = c → U.one v e = false) :
    UInv s0 par ver bi G V c b { s with tk := wr s.tk j t' } U := by
  refine ⟨hI.core, hI.later, hI.undone, ?_, ?_, hI.off, ?_, ?_⟩
  · intro j' u' v' hj'
    show TkOK G s.h s.flag U u' v' (wr s.tk j t' j')
    rcases wr_cases s.tk j t' j' with ⟨h1, h2⟩ | ⟨h1, h2⟩
    · subst h1
      rw [hj] at hj'
      injection hj' with hj'
      injection hj' with h3 h4
      subst h3 h4
      rw [h2]; exact hok
    · rw [h2]; exact hI.tk j' u' v' hj'
  · intro j' hj'
    show wr s.tk j t' j' = .wait
    rw [wr_other _ _ (by rintro rfl; rw [hj] at hj'; cases hj')]
    exact hI.out j' hj'
  · intro j1 j2 e p p' cs cs' h1 h2
    have h1 : wr s.tk j t' j1 = .resize e p cs := h1
    have h2 : wr s.tk j t' j2 = .resize e p' cs' := h2
    rcases wr_cases s.tk j t' j1 with ⟨_, h3⟩ | ⟨_, h3⟩
    · rw [h3] at h1; exact absurd h1 (hnr _ _ _)
    · rcases wr_cases s.tk j t' j2 with ⟨_, h4⟩ | ⟨_, h4⟩
      · rw [h4] at h2; exact absurd h2 (hnr _ _ _)
      · rw [h3] at h1; rw [h4] at h2
        exact hI.resU j1 j2 e p p' cs cs' h1 h2
  · intro e hf hno x hx hxc
    by_cases hold : ∃ p cs, s.tk j = .resize e p cs
    · obtain ⟨p, cs, h⟩ := hold
      exact hgr e p cs h x hx hxc
    · refine hI.grown e hf ?_ x hx hxc
      intro j' p cs h
      by_cases hjj : j' = j
      · subst hjj; exact hold ⟨p, cs, h⟩
      · exact hno j' p cs (by show wr s.tk j t' j' = _; rw [wr_other _ _ hjj]; exact h)

/-- the batch entry of a memento that has started -/
theorem UInv.entry (hI : UInv s0 par ver bi G V c b s U) {j : Nat} (h : s.tk j ≠ .wait) : ∃ u v, b[j]? = some (u, v) := by
  cases hj : b[j]? with
  | none => exact absurd (hI.out j hj) h
  | some x => exact ⟨x.1, x.2, rfl⟩

theorem UInv.at (hI : UInv s0 par ver bi G V c b s U) {j u v : Nat} {t : Tk} (hj : b[j]? = some (u, v)) (ht : s.tk j = t) : TkOK G s.h s.flag U u v t := by
  rw [← ht]; exact hI.tk j u v hj

theorem UInv.vNe (hb : BatchOK par bi c b) {j j' u v u' v' : Nat} (hj : b[j]? = some (u, v)) (hj' : b[j']? = some (u', v')) (hne : j' ≠ j) : v' ≠ v := by
  rintro rfl
  exact hne (hb.inj hj' hj)

/-- call of the second kind -/
theorem UInv.two (hS : Stat s0 par ver bi G) (hb : BatchOK par bi c b) (hI : UInv s0 par ver bi G V c b s U) {j e : Nat} {cs : List Call}
    (ht : s.tk j = .nets (.two e :: cs)) : UInv s0 par ver bi G V c b { s with tk := wr s.tk j (.scan e (s.h.size e) cs) } U := by
  obtain ⟨u, v, hj⟩ := hI.entry (j := j) (by rw [ht]; exact Tk.noConfusion)
  have h := hI.at hj ht
  have h : CallsOK G s.h s.flag U v (.two e :: cs) none := h
  obtain ⟨h1, h2, h3⟩ := hb.at hj
  obtain ⟨p1, p2, p3, p4, p5, p6⟩ := hI.parent hS hb hj
  obtain ⟨n1, n2⟩ := List.nodup_cons.1 h.nodup
  have htwo : U.two v e = true := (h.two e).2 (Or.inl (by simp))
  have hused := (hS.logU v e (Or.inr (hI.core.twoLe v e htwo))).1
  refine hI.move hb hj ⟨⟨h.mg, h.mid, h.en, n2, ?_, ?_, ?_, ?_⟩, Nat.le_refl _, ?_⟩ (fun _ _ _ => Tk.noConfusion) (by rw [ht]; exact fun _ _ _ h => Tk.noConfusion h)
  · intro e'
    rw [h.two e']
    simp only [List.mem_cons, Call.two.injEq, reduceCtorEq, or_false, Option.some.injEq]
    constructor
    · rintro (h | h)
      · exact Or.inr h.symm
      · exact Or.inl h
    · rintro (h | h)
      · exact Or.inr h
      · exact Or.inl h.symm
  · intro e' he'
    injection he' with he'
    subst he'
    exact n1
  · intro e' he'
    exact h.one e' (List.mem_cons_of_mem _ he')
  · intro e' he'
    rcases h.all e' he' with hh | hh
    · rcases List.mem_cons.1 hh with hh | hh
      · cases hh
      · exact Or.inl hh
    · exact Or.inr hh
  · rw [(hI.core.pins e hused).tmem u]
    exact ⟨Or.inr ⟨v, h2, by rw [← h2]; exact Ne.symm h1, htwo⟩, p5 e, p6 e⟩

theorem getD_of_mem_take {l : List Nat} {u k : Nat} (h : u ∈ l.take k) : ∃ q < k, q < l.length ∧ l.getD q 0 = u := by
  obtain ⟨q, hq, h2⟩ := List.getElem_of_mem h
  rw [List.length_take] at hq
  refine ⟨q, by omega, by omega, ?_⟩
  rw [List.getElem_take] at h2
  rw [List.getD_eq_getElem _ _ (by omega), h2]

theorem mem_take_of_getD {l : List Nat} {u k q : Nat} (h1 : q < k) (h2 : q < l.length) (h3 : l.getD q 0 = u) : u ∈ l.take k := by
  rw [List.getD_eq_getElem _ _ h2] at h3
  rw [← h3]
  exact List.mem_take_iff_getElem.2 ⟨q, by omega, rfl⟩

theorem getD_set_ne {l : List Nat} {p q x : Nat} (h : q ≠ p) : (l.set p x).getD q 0 = l.getD q 0 := by
  rw [List.getD_eq_getElem?_getD, List.getD_eq_getElem?_getD, List.getElem?_set_ne (Ne.symm h)]

theorem UInv.scanHit (hb : BatchOK par bi c b) (hI : UInv s0 par ver bi G V c b s U) {j u v e p : Nat} {cs : List Call}
    (hj : b[j]? = some (u, v)) (ht : s.tk j = .scan e (p + 1) cs) (hp : (s.h.pins e).getD p 0 = u) :
    UInv s0 par ver bi G V c b { s with tk := wr s.tk j (.write e p cs) } U := by
  obtain ⟨h1, h2, h3⟩ := hI.at hj ht
  exact hI.move hb hj ⟨h1, by omega, hp⟩ (fun _ _ _ => Tk.noConfusion) (by rw [ht]; exact fun _ _ _ h => Tk.noConfusion h)

theorem UInv.scanMiss (hb : BatchOK par bi c b) (hI : UInv s0 par ver bi G V c b s U) {j u v e p : Nat} {cs : List Call}
    (hj : b[j]? = some (u, v)) (ht : s.tk j = .scan e (p + 1) cs) (hp : (s.h.pins e).getD p 0 ≠ u) :
    UInv s0 par ver bi G V c b { s with tk := wr s.tk j (.scan e p cs) } U := by
  obtain ⟨h1, h2, h3⟩ := hI.at hj ht
  refine hI.move hb hj ⟨h1, by omega, ?_⟩ (fun _ _ _ => Tk.noConfusion) (by rw [ht]; exact fun _ _ _ h => Tk.noConfusion h)
  obtain ⟨q, q1, q2, q3⟩ := getD_of_mem_take h3
  have : q ≠ p := by rintro rfl; exact hp q3
  exact mem_take_of_getD (by omega) q2 q3

theorem UInv.write (hS : Stat s0 par ver bi G) (hb : BatchOK par bi c b) (hI : UInv s0 par ver bi G V c b s U) {j u v e p : Nat} {cs : List Call}
    (hj : b[j]? = some (u, v)) (ht : s.tk j = .write e p cs) :
    UInv s0 par ver bi G V c b { s with h := { s.h with pins := wr s.h.pins e ((s.h.pins e).set p v) }, tk := wr s.tk j (.nets cs) }
      { U with two := clr U.two v e } := by
  obtain ⟨h, k2, k3⟩ := hI.at hj ht
  obtain ⟨h1, h2, h3⟩ := hb.at hj
  obtain ⟨p1, p2, p3, p4, p5, p6⟩ := hI.parent hS hb hj
  have htwo : U.two v e = true := (h.two e).2 (Or.inr rfl)
  have hused := (hS.logU v e (Or.inr (hI.core.twoLe v e htwo))).1
  obtain ⟨q1, q2, _, _⟩ := split_net (hI.core.log e) (hI.core.pins e hused) h2 htwo (p5 e) (p6 e) k2 k3
  have hle := (hI.core.pins e hused).le
  have hpins : ∀ e', (wr s.h.pins e ((s.h.pins e).set p v) e').drop (s.h.size e') = (s.h.pins e').drop (s.h.size e') := by
    intro e'
    rcases wr_cases s.h.pins e ((s.h.pins e).set p v) e' with ⟨a, b⟩ | ⟨a, b⟩
    · rw [b, a, List.drop_set_of_lt k2]
    · rw [b]
  refine ⟨⟨hI.core.nEq, hI.core.mEq, hI.core.biEq, hI.core.VEq, hI.core.tree, hI.core.ina, ?_, ?_, ?_, ?_, hI.core.oneLe, ?_, hI.core.root,
    hI.core.wtS, hI.core.een, hI.core.rem, hI.core.ew, hI.core.een0⟩, ?_, ?_, ?_, ?_, hI.off, ?_, ?_⟩
  · intro e'
    by_cases he : e' = e
    · subst he; show LogOK _ _ _ (fun x => clr U.two v e' x e'); rw [clr_col]; exact q1
    · show LogOK _ _ _ (fun x => clr U.two v e x e'); rw [clr_ne _ _ he]; exact hI.core.log e'
  · intro e' hu'
    by_cases he : e' = e
    · subst he
      show PinsOK _ _ _ (fun x => clr U.two v e' x e') (wr s.h.pins e' _ e') _
      rw [clr_col, wr_same]; exact q2
    · show PinsOK _ _ _ (fun x => clr U.two v e x e') (wr s.h.pins e _ e') _
      rw [clr_ne _ _ he, wr_other _ _ he]; exact hI.core.pins e' hu'
  · intro e' hu'
    show List.Pairwise _ ((wr s.h.pins e _ e').drop (s.h.size e'))
    rw [hpins]; exact hI.core.sorted e' hu'
  · intro e' hu'
    have he : e' ≠ e := by rintro rfl; exact hu' hused
    show (wr s.h.pins e _ e').take (s.h.size e') = _ ∧ _
    rw [wr_other _ _ he]; exact hI.core.other e' hu'
  · intro x e' hx
    exact hI.core.twoLe x e' (clr_true.1 hx).1
  · intro x hx hc
    have hxv : x ≠ v := by rintro rfl; omega
    have := hI.later x hx hc
    exact ⟨this.mg, this.mid, this.en, this.one, fun e' => by show clr U.two v e x e' = _; rw [clr_other _ hxv]; exact this.two e'⟩
  · intro x hx hc
    have hxv : x ≠ v := by rintro rfl; omega
    have := hI.undone x hx hc
    exact ⟨this.mg, this.mid, this.en, this.one, fun e' => by show clr U.two v e x e' = _; rw [clr_other _ hxv]; exact this.two e'⟩
  · intro j' u' v' hj'
    show TkOK G _ s.flag _ u' v' (wr s.tk j (.nets cs) j')
    rcases wr_cases s.tk j (.nets cs) j' with ⟨a1, a2⟩ | ⟨a1, a2⟩
    · subst a1
      rw [hj] at hj'
      injection hj' with hj'
      injection hj' with h4 h5
      subst h4 h5
      rw [a2]
      refine ⟨h.mg, h.mid, h.en, h.nodup, ?_, (by intro _ h; cases h), h.one, h.all⟩
      intro e'
      show clr U.two v e v e' = true ↔ _
      rw [clr_true, h.two e']
      constructor
      · rintro ⟨hh | hh, hne⟩
        · exact Or.inl hh
        · injection hh with hh
          exact absurd ⟨rfl, hh.symm⟩ hne
      · rintro (hh | hh)
        · refine ⟨Or.inl hh, ?_⟩
          rintro ⟨_, rfl⟩
          exact h.cur e' rfl hh
        · cases hh
    · rw [a2]
      have hvv : v' ≠ v := UInv.vNe hb hj hj' a1
      have hother := hI.tk j' u' v' hj'
      have huu : ∀ e2 cs2, CallsOK G s.h s.flag U v' cs2 (some e2) → e2 = e → u' ≠ u := by
        rintro e2 cs2 hcs rfl rfl
        exact hvv ((hI.core.log e2).uniq2 v' v ((hcs.two e2).2 (Or.inr rfl)) htwo ((hb.at hj').2.1.trans h2.symm))
      refine TkOK.stable hother rfl rfl rfl (fun e' => ?_) (fun _ h => h) ?_ ?_ (fun _ _ _ _ => rfl)
      · show clr U.two v e v' e' = _; rw [clr_other _ hvv]
      · intro e2 pp cs2 ht2 b1 b2
        refine ⟨b1, ?_⟩
        show u' ∈ (wr s.h.pins e _ e2).take pp
        rcases wr_cases s.h.pins e ((s.h.pins e).set p v) e2 with ⟨a, b⟩ | ⟨a, b⟩
        · rw [b]
          rw [ht2] at hother
          have hne := huu e2 cs2 hother.1 a
          rw [a] at b2
          obtain ⟨q, q1, q2, q3⟩ := getD_of_mem_take b2
          have hqp : q ≠ p := by rintro rfl; exact hne (q3.symm.trans k3)
          exact mem_take_of_getD q1 (by rw [List.length_set]; exact q2) (by rw [getD_set_ne hqp]; exact q3)
        · rw [b]; exact b2
      · intro e2 pp cs2 ht2 b1 b2
        refine ⟨b1, ?_⟩
        show (wr s.h.pins e _ e2).getD pp 0 = u'
        rcases wr_cases s.h.pins e ((s.h.pins e).set p v) e2 with ⟨a, b⟩ | ⟨a, b⟩
        · rw [b]
          rw [ht2] at hother
          have hne := huu e2 cs2 hother.1 a
          rw [a] at b2
          have hqp : pp ≠ p := by rintro rfl; exact hne (b2.symm.trans k3)
          rw [getD_set_ne hqp]; exact b2
        · rw [b]; exact b2
  · intro j' hj'
    show wr s.tk j _ j' = .wait
    rw [wr_other _ _ (by rintro rfl; rw [hj] at hj'; cases hj')]
    exact hI.out j' hj'
  · intro j1 j2 e' p1 p2 cs1 cs2 g1 g2
    have g1 : wr s.tk j (.nets cs) j1 = _ := g1
    have g2 : wr s.tk j (.nets cs) j2 = _ := g2
    rcases wr_cases s.tk j (.nets cs) j1 with ⟨_, h3⟩ | ⟨_, h3⟩
    · rw [h3] at g1; cases g1
    · rcases wr_cases s.tk j (.nets cs) j2 with ⟨_, h4⟩ | ⟨_, h4⟩
      · rw [h4] at g2; cases g2
      · rw [h3] at g1; rw [h4] at g2
        exact hI.resU j1 j2 e' p1 p2 cs1 cs2 g1 g2
  · intro e' hf hno
    refine hI.grown e' hf ?_
    intro j' p' cs' hh
    by_cases hjj : j' = j
    · subst hjj; rw [ht] at hh; cases hh
    · exact hno j' p' cs' (by show wr s.tk j _ j' = _; rw [wr_other _ _ hjj]; exact hh)

/-- calls of the first kind -/
theorem CallsOK.pop_one {h : DH} {flag flag' : Nat → Bool} {v e : Nat} {cs : List Call} (hp : CallsOK G h flag U v (.one e :: cs) none)
    (hf : ∀ e, flag e = true → flag' e = true) (he : flag' e = true) : CallsOK G h flag' U v cs none := by
  obtain ⟨n1, n2⟩ := List.nodup_cons.1 hp.nodup
  refine ⟨hp.mg, hp.mid, hp.en, n2, ?_, (by intro _ h; cases h), fun e' he' => hp.one e' (List.mem_cons_of_mem _ he'), ?_⟩
  · intro e'
    rw [hp.two e']; simp
  · intro e' h'
    rcases hp.all e' h' with hh | hh
    · rcases List.mem_cons.1 hh with hh | hh
      · injection hh with hh
        subst hh; exact Or.inr he
      · exact Or.inl hh
    · exact Or.inr (hf e' hh)

theorem UInv.oneOther (hb : BatchOK par bi c b) (hI : UInv s0 par ver bi G V c b s U) {j e : Nat} {cs : List Call}
    (ht : s.tk j = .nets (.one e :: cs)) (hf : s.flag e = true) : UInv s0 par ver bi G V c b { s with tk := wr s.tk j (.nets cs) } U := by
  obtain ⟨u, v, hj⟩ := hI.entry (j := j) (by rw [ht]; exact Tk.noConfusion)
  have h := hI.at hj ht
  exact hI.move hb hj (CallsOK.pop_one h (fun _ h => h) hf) (fun _ _ _ => Tk.noConfusion) (by rw [ht]; exact fun _ _ _ h => Tk.noConfusion h)

theorem UInv.one (hb : BatchOK par bi c b) (hI : UInv s0 par ver bi G V c b s U) {j e : Nat} {cs : List Call}
    (ht : s.tk j = .nets (.one e :: cs)) (hf : s.flag e = false) :
    UInv s0 par ver bi G V c b { s with flag := wr s.flag e true, tk := wr s.tk j (.resize e (s.h.size e) cs) } U := by
  obtain ⟨u, v, hj⟩ := hI.entry (j := j) (by rw [ht]; exact Tk.noConfusion)
  have h := hI.at hj ht
  have hmono : ∀ e', s.flag e' = true → wr s.flag e true e' = true := by
    intro e' he'
    rcases wr_cases s.flag e true e' with ⟨_, h⟩ | ⟨_, h⟩
    · exact h
    · rw [h]; exact he'
  have hnores : ∀ j' p cs, s.tk j' ≠ .resize e p cs := by
    intro j' p cs h'
    obtain ⟨u', v', hj'⟩ := hI.entry (j := j') (by rw [h']; exact Tk.noConfusion)
    have := (hI.at hj' h').2.2.1
    rw [hf] at this; cases this
  refine ⟨hI.core, hI.later, hI.undone, ?_, ?_, ?_, ?_, ?_⟩
  · intro j' u' v' hj'
    show TkOK G s.h (wr s.flag e true) U u' v' (wr s.tk j _ j')
    rcases wr_cases s.tk j (.resize e (s.h.size e) cs) j' with ⟨a1, a2⟩ | ⟨a1, a2⟩
    · subst a1
      rw [hj] at hj'
      injection hj' with hj'
      injection hj' with h4 h5
      subst h4 h5
      rw [a2]
      exact ⟨CallsOK.pop_one h hmono (wr_same _ _ _), rfl, wr_same _ _ _, h.one e (by simp)⟩
    · rw [a2]
      exact TkOK.stable (hI.tk j' u' v' hj') rfl rfl rfl (fun _ => rfl) hmono (fun _ _ _ _ h1 h2 => ⟨h1, h2⟩) (fun _ _ _ _ h1 h2 => ⟨h1, h2⟩) (fun _ _ _ _ => rfl)
  · intro j' hj'
    show wr s.tk j _ j' = .wait
    rw [wr_other _ _ (by rintro rfl; rw [hj] at hj'; cases hj')]
    exact hI.out j' hj'
  · intro x e' hx hc hf'
    have hf' : wr s.flag e true e' = false := hf'
    rcases wr_cases s.flag e true e' with ⟨_, h⟩ | ⟨_, h⟩
    · rw [h] at hf'; cases hf'
    · rw [h] at hf'; exact hI.off x e' hx hc hf'
  · intro j1 j2 e' p1 p2 cs1 cs2 g1 g2
    have g1 : wr s.tk j (.resize e (s.h.size e) cs) j1 = _ := g1
    have g2 : wr s.tk j (.resize e (s.h.size e) cs) j2 = _ := g2
    rcases wr_cases s.tk j (.resize e (s.h.size e) cs) j1 with ⟨h1, h3⟩ | ⟨h1, h3⟩
    · rw [h3] at g1
      injection g1 with g1 _ _
      subst g1
      rcases wr_cases s.tk j (.resize e (s.h.size e) cs) j2 with ⟨h2, h4⟩ | ⟨h2, h4⟩
      · rw [h1, h2]
      · rw [h4] at g2; exact absurd g2 (hnores _ _ _)
    · rw [h3] at g1
      rcases wr_cases s.tk j (.resize e (s.h.size e) cs) j2 with ⟨h2, h4⟩ | ⟨h2, h4⟩
      · rw [h4] at g2
        injection g2 with g2 _ _
        subst g2
        exact absurd g1 (hnores _ _ _)
      · rw [h4] at g2
        exact hI.resU j1 j2 e' p1 p2 cs1 cs2 g1 g2
  · intro e' hf' hno x hx hc
    have hne : e' ≠ e := by
      rintro rfl
      exact hno j (s.h.size e') cs (wr_same _ _ _)
    have hf' : wr s.flag e true e' = true := hf'
    rw [wr_other _ _ hne] at hf'
    refine hI.grown e' hf' ?_ x hx hc
    intro j' p' cs' hh
    by_cases hjj : j' = j
    · subst hjj; rw [ht] at hh; cases hh
    · exact hno j' p' cs' (by show wr s.tk j _ j' = _; rw [wr_other _ _ hjj]; exact hh)

theorem BatchOK.first (hb : BatchOK par bi c b) : bi (b.getD 0 (0, 0)).2 = c := by
  cases b with
  | nil => exact absurd rfl hb.ne
  | cons a l => exact ((hb.mem a.1 a.2).1 (by simp)).2.2

theorem UInv.grow (hS : Stat s0 par ver bi G) (hb : BatchOK par bi c b) (hI : UInv s0 par ver bi G V c b s U) {j e p : Nat} {cs : List Call}
    (ht : s.tk j = .resize e p cs) (hp : p < (s.h.pins e).length) (hbi : s.h.bi ((s.h.pins e).getD p 0) = s.h.bi (b.getD 0 (0, 0)).2) :
    UInv s0 par ver bi G V c b { s with h := { s.h with size := wr s.h.size e (s.h.size e + 1) }, tk := wr s.tk j (.resize e (p + 1) cs) }
      { U with one := clr U.one ((s.h.pins e).getD p 0) e } := by
  obtain ⟨u, v, hj⟩ := hI.entry (j := j) (by rw [ht]; exact Tk.noConfusion)
  obtain ⟨h, k2, k3, k4⟩ := hI.at hj ht
  have hused := (hS.logU v e (Or.inl k4)).1
  subst k2
  rw [hI.core.biEq, hb.first] at hbi
  generalize hx : (s.h.pins e).getD (s.h.size e) 0 = x at hbi ⊢
  obtain ⟨q0, q1, q2⟩ := grow_net (hI.core.log e) (hI.core.pins e hused) hp hx
  have hsz : ∀ e', s.h.size e' ≤ wr s.h.size e (s.h.size e + 1) e' := by
    intro e'
    rcases wr_cases s.h.size e (s.h.size e + 1) e' with ⟨a, b⟩ | ⟨a, b⟩
    · rw [b, a]; omega
    · rw [b]
  have hxp : par x ≠ x := (hI.core.log e |>.inn x (Or.inl q0)).2
  refine ⟨⟨hI.core.nEq, hI.core.mEq, hI.core.biEq, hI.core.VEq, hI.core.tree, hI.core.ina, ?_, ?_, ?_, ?_, ?_, hI.core.twoLe, hI.core.root,
    hI.core.wtS, hI.core.een, hI.core.rem, hI.core.ew, hI.core.een0⟩, ?_, ?_, ?_, ?_, ?_, ?_, ?_⟩
  · intro e'
    by_cases he : e' = e
    · subst he; show LogOK _ _ (fun y => clr U.one x e' y e') _; rw [clr_col]; exact q1
    · show LogOK _ _ (fun y => clr U.one x e y e') _; rw [clr_ne _ _ he]; exact hI.core.log e'
  · intro e' hu'
    by_cases he : e' = e
    · subst he
      show PinsOK _ _ (fun y => clr U.one x e' y e') _ _ (wr s.h.size e' _ e')
      rw [clr_col, wr_same]; exact q2
    · show PinsOK _ _ (fun y => clr U.one x e y e') _ _ (wr s.h.size e _ e')
      rw [clr_ne _ _ he, wr_other _ _ he]; exact hI.core.pins e' hu'
  · intro e' hu'
    show List.Pairwise _ ((s.h.pins e').drop (wr s.h.size e _ e'))
    refine List.Pairwise.sublist ?_ (hI.core.sorted e' hu')
    exact List.drop_sublist_drop_left _ (hsz e')
  · intro e' hu'
    have he : e' ≠ e := by rintro rfl; exact hu' hused
    show (s.h.pins e').take (wr s.h.size e _ e') = _ ∧ wr s.h.size e _ e' = _
    rw [wr_other _ _ he]; exact hI.core.other e' hu'
  · intro y e' hy
    exact hI.core.oneLe y e' (clr_true.1 hy).1
  · intro y hy hc
    have hyx : y ≠ x := by rintro rfl; omega
    have := hI.later y hy hc
    exact ⟨this.mg, this.mid, this.en, fun e' => by show clr U.one x e y e' = _; rw [clr_other _ hyx]; exact this.one e', this.two⟩
  · intro y hy hc
    have hyx : y ≠ x := by rintro rfl; omega
    have := hI.undone y hy hc
    exact ⟨this.mg, this.mid, this.en, fun e' => by show clr U.one x e y e' = _; rw [clr_other _ hyx]; exact this.one e', this.two⟩
  · intro j' u' v' hj'
    show TkOK G _ s.flag _ u' v' (wr s.tk j _ j')
    rcases wr_cases s.tk j (.resize e (s.h.size e + 1) cs) j' with ⟨a1, a2⟩ | ⟨a1, a2⟩
    · subst a1
      rw [hj] at hj'
      injection hj' with hj'
      injection hj' with h4 h5
      subst h4 h5
      rw [a2]
      exact ⟨CallsOK.stable h rfl rfl rfl (fun _ => rfl) (fun _ h => h), (wr_same _ _ _).symm, k3, k4⟩
    · rw [a2]
      refine TkOK.stable (hI.tk j' u' v' hj') rfl rfl rfl (fun _ => rfl) (fun _ h => h) ?_ ?_ ?_
      · intro e2 p2 cs2 _ b1 b2
        exact ⟨Nat.le_trans b1 (hsz e2), b2⟩
      · intro e2 p2 cs2 _ b1 b2
        exact ⟨Nat.lt_of_lt_of_le b1 (hsz e2), b2⟩
      · intro e2 p2 cs2 ht2
        refine wr_other _ _ ?_
        rintro rfl
        exact a1 (hI.resU j' j e2 p2 _ cs2 cs ht2 ht)
  · intro j' hj'
    show wr s.tk j _ j' = .wait
    rw [wr_other _ _ (by rintro rfl; rw [hj] at hj'; cases hj')]
    exact hI.out j' hj'
  · intro y e' hy hc hf'
    have hne : e' ≠ e := by rintro rfl; rw [k3] at hf'; cases hf'
    show clr U.one x e y e' = _
    rw [show clr U.one x e y e' = U.one y e' from congrFun (clr_ne U.one x hne) y]
    exact hI.off y e' hy hc hf'
  · intro j1 j2 e' p1 p2 cs1 cs2 g1 g2
    have g1 : wr s.tk j (.resize e (s.h.size e + 1) cs) j1 = _ := g1
    have g2 : wr s.tk j (.resize e (s.h.size e + 1) cs) j2 = _ := g2
    rcases wr_cases s.tk j (.resize e (s.h.size e + 1) cs) j1 with ⟨h1, h3⟩ | ⟨h1, h3⟩
    · rw [h3] at g1
      injection g1 with g1 _ _
      subst g1
      rcases wr_cases s.tk j (.resize e (s.h.size e + 1) cs) j2 with ⟨h2, h4⟩ | ⟨h2, h4⟩
      · rw [h1, h2]
      · rw [h4] at g2; rw [h1]; exact hI.resU j j2 e _ p2 cs cs2 ht g2
    · rw [h3] at g1
      rcases wr_cases s.tk j (.resize e (s.h.size e + 1) cs) j2 with ⟨h2, h4⟩ | ⟨h2, h4⟩
      · rw [h4] at g2
        injection g2 with g2 _ _
        subst g2
        rw [h2]; exact hI.resU j1 j e p1 _ cs1 cs g1 ht
      · rw [h4] at g2
        exact hI.resU j1 j2 e' p1 p2 cs1 cs2 g1 g2
  · intro e' hf' hno y hy hc
    have hne : e' ≠ e := by
      rintro rfl
      exact hno j (s.h.size e' + 1) cs (wr_same _ _ _)
    show clr U.one x e y e' = _
    rw [show clr U.one x e y e' = U.one y e' from congrFun (clr_ne U.one x hne) y]
    refine hI.grown e' hf' ?_ y hy hc
    intro j' p' cs' hh
    by_cases hjj : j' = j
    · subst hjj; rw [ht] at hh; injection hh with hh; exact hne hh.symm
    · exact hno j' p' cs' (by show wr s.tk j _ j' = _; rw [wr_other _ _ hjj]; exact hh)

theorem UInv.resized (hS : Stat s0 par ver bi G) (hb : BatchOK par bi c b) (hI : UInv s0 par ver bi G V c b s U) {j e p : Nat} {cs : List Call}
    (ht : s.tk j = .resize e p cs) (hp : (s.h.pins e).length ≤ p ∨ s.h.bi ((s.h.pins e).getD p 0) ≠ s.h.bi (b.getD 0 (0, 0)).2) :
    UInv s0 par ver bi G V c b { s with tk := wr s.tk j (.nets cs) } U := by
  obtain ⟨u, v, hj⟩ := hI.entry (j := j) (by rw [ht]; exact Tk.noConfusion)
  obtain ⟨h, k2, k3, k4⟩ := hI.at hj ht
  have hused := (hS.logU v e (Or.inl k4)).1
  subst k2
  rw [hI.core.biEq, hb.first] at hp
  refine hI.move hb hj h (fun _ _ _ => Tk.noConfusion) ?_
  intro e' p' cs' ht' y hy hc
  rw [ht] at ht'
  injection ht' with h1 _ _
  subst h1
  have P := hI.core.pins e hused
  rw [bool_false_iff]
  intro hone
  have hmem := (P.dmem y).2 hone
  rcases Nat.lt_or_ge (s.h.size e) (s.h.pins e).length with hlt | hge
  · rcases hp with hp | hp
    · omega
    rw [List.getD_eq_getElem _ _ hlt] at hp
    have hsort := hI.core.sorted e hused
    rw [List.drop_eq_getElem_cons hlt] at hmem hsort
    have hx := (P.dmem (s.h.pins e)[s.h.size e]).1 (by rw [List.drop_eq_getElem_cons hlt]; exact List.mem_cons_self)
    have hxp := (hI.core.log e |>.inn _ (Or.inl hx)).2
    have hle : bi (s.h.pins e)[s.h.size e] ≤ c := by
      by_contra hgt
      have := (hI.undone _ hxp (by omega)).one e
      have hx : U.one (s.h.pins e)[s.h.size e] e = true := hx
      rw [hx] at this; cases this
    rcases List.mem_cons.1 hmem with hm | hm
    · rw [← hm] at hp; exact hp hc
    · have := (List.pairwise_cons.1 hsort).1 y hm
      omega
  · rw [List.drop_eq_nil_of_le hge] at hmem
    cases hmem

end Dyn
end Verif
