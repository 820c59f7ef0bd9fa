import Verif.Lemmas.Dyn22
/-!
# Steps of the uncontraction of a batch: incident nets and nodes
-/
namespace Verif
namespace Dyn
open SMap (wr)

variable {s0 : DH} {par ver bi : Nat → Nat} {G : Gh} {V c : Nat} {b : List (Nat × Nat)} {s s' : USt} {U : UG}

/-- changes of the forest, the incident nets and the nodes that concern one memento only -/
theorem UInv.node (hb : BatchOK par bi c b) (hI : UInv s0 par ver bi G V c b s U) {j u v : Nat} {t' : Tk} (hj : b[j]? = some (u, v)) {h' : DH} {U' : UG}
    (hcore : UCore s0 par ver bi G V h' U') (e1 : U'.one = U.one) (e2 : U'.two = U.two) (e3 : h'.pins = s.h.pins) (e4 : h'.size = s.h.size)
    (hmg : ∀ x, x ≠ v → U'.mg x = U.mg x ∧ U'.mid x = U.mid x ∧ h'.en x = s.h.en x)
    (hold : ∀ e p cs, s.tk j ≠ .resize e p cs) (hnew : ∀ e p cs, t' ≠ .resize e p cs) (hok : TkOK G h' s.flag U' u v t') :
    UInv s0 par ver bi G V c b { s with h := h', tk := wr s.tk j t' } U' := by
  obtain ⟨h1, h2, h3⟩ := hb.at hj
  refine ⟨hcore, ?_, ?_, ?_, ?_, ?_, ?_, ?_⟩
  · intro x hx hc
    have hxv : x ≠ v := by rintro rfl; omega
    have := hI.later x hx hc
    obtain ⟨a1, a2, a3⟩ := hmg x hxv
    exact ⟨by rw [a1]; exact this.mg, by rw [a2]; exact this.mid, by show h'.en x = _; rw [a3]; exact this.en, by rw [e1]; exact this.one, by rw [e2]; exact this.two⟩
  · intro x hx hc
    have hxv : x ≠ v := by rintro rfl; omega
    have := hI.undone x hx hc
    obtain ⟨a1, a2, a3⟩ := hmg x hxv
    exact ⟨by rw [a1]; exact this.mg, by rw [a2]; exact this.mid, by show h'.en x = _; rw [a3]; exact this.en, by rw [e1]; exact this.one, by rw [e2]; exact this.two⟩
  · intro j' u' v' hj'
    show TkOK G h' s.flag U' u' v' (wr s.tk j t' j')
    rcases wr_cases s.tk j t' j' with ⟨a1, a2⟩ | ⟨a1, a2⟩
    · subst a1
      rw [hj] at hj'
      injection hj' with hj'
      injection hj' with h4 h5
      subst h4 h5
      rw [a2]; exact hok
    · rw [a2]
      obtain ⟨b1, b2, b3⟩ := hmg v' (UInv.vNe hb hj hj' a1)
      refine TkOK.stable (hI.tk j' u' v' hj') b3 b1 b2 (fun _ => by rw [e2]) (fun _ h => h) ?_ ?_ ?_
      · intro e p cs _ c1 c2; rw [e3, e4]; exact ⟨c1, c2⟩
      · intro e p cs _ c1 c2; rw [e3, e4]; exact ⟨c1, c2⟩
      · intro e p cs _; rw [e4]
  · intro j' hj'
    show wr s.tk j _ j' = .wait
    rw [wr_other _ _ (by rintro rfl; rw [hj] at hj'; cases hj')]
    exact hI.out j' hj'
  · intro x e hx hc hf
    rw [e1]; exact hI.off x e hx hc hf
  · intro j1 j2 e' p1 p2 cs1 cs2 g1 g2
    have g1 : wr s.tk j t' j1 = _ := g1
    have g2 : wr s.tk j t' j2 = _ := g2
    rcases wr_cases s.tk j t' j1 with ⟨_, h3⟩ | ⟨_, h3⟩
    · rw [h3] at g1; exact absurd g1 (hnew _ _ _)
    · rcases wr_cases s.tk j t' j2 with ⟨_, h4⟩ | ⟨_, h4⟩
      · rw [h4] at g2; exact absurd g2 (hnew _ _ _)
      · rw [h3] at g1; rw [h4] at g2
        exact hI.resU j1 j2 e' p1 p2 cs1 cs2 g1 g2
  · intro e' hf hno x hx hc
    rw [e1]
    refine hI.grown e' hf ?_ x hx hc
    intro j' p' cs' hh
    by_cases hjj : j' = j
    · subst hjj; exact hold _ _ _ hh
    · exact hno j' p' cs' (by show wr s.tk j _ j' = _; rw [wr_other _ _ hjj]; exact hh)

theorem UInv.cut (hS : Stat s0 par ver bi G) (hb : BatchOK par bi c b) (hver : ∀ v, par v ≠ v → bi v = c → ver v = V)
    (hI : UInv s0 par ver bi G V c b s U) {j u v : Nat} (hj : b[j]? = some (u, v)) (ht : s.tk j = .wait) :
    ∃ a, s.h.ina.cut u v = some a ∧ ∃ U', UInv s0 par ver bi G V c b { s with h := { s.h with ina := a }, tk := wr s.tk j .cut } U' := by
  obtain ⟨h1, h2, h3⟩ := hb.at hj
  obtain ⟨p1, p2, p3, p4, p5, p6⟩ := hI.parent hS hb hj
  obtain ⟨k1, k2, k3, k4⟩ := hI.at hj ht
  have C := hI.core
  have hk : v ∈ U.kids u := (C.tree.kid v u).2 ⟨k1, h2⟩
  obtain ⟨x, y, hxy⟩ := List.append_of_mem hk
  obtain ⟨a, ha, hA, _⟩ := C.ina.cut C.tree p2 p3 k1 h2 (hver v h1 h3) hxy
  have hT := (C.tree.unmerge p1.1 p2 k1 h2 hxy).1
  refine ⟨a, ha, { U with mg := wr U.mg v false, mid := wr U.mid v true, kids := wr U.kids u (x ++ y), sg := wr U.sg u (u :: (x ++ y).flatMap U.sg) }, ?_⟩
  refine hI.node hb hj ?_ rfl rfl rfl rfl ?_ (by rw [ht]; exact fun _ _ _ h => Tk.noConfusion h) (fun _ _ _ h => Tk.noConfusion h) ?_
  · refine ⟨C.nEq, C.mEq, C.biEq, C.VEq, hT, hA, C.log, C.pins, C.sorted, C.other, C.oneLe, C.twoLe, ?_, C.wtS, C.een, C.rem, C.ew, C.een0⟩
    intro w hw
    have hwv : w ≠ v := by rintro rfl; exact h1 hw
    show wr U.mg v false w = false ∧ wr U.mid v true w = false ∧ _
    rw [wr_other _ _ hwv, wr_other _ _ hwv]
    exact C.root w hw
  · intro w hw
    show wr U.mg v false w = _ ∧ wr U.mid v true w = _ ∧ _
    rw [wr_other _ _ hw, wr_other _ _ hw]
    exact ⟨rfl, rfl, rfl⟩
  · exact ⟨wr_same _ _ _, wr_same _ _ _, k3, k4⟩

theorem UInv.restore (hc : Clean s0) (hS : Stat s0 par ver bi G) (hb : BatchOK par bi c b) (hver : ∀ v, par v ≠ v → bi v = c → ver v = V)
    (hI : UInv s0 par ver bi G V c b s U) {j u v : Nat} (hj : b[j]? = some (u, v)) (ht : s.tk j = .cut) :
    ∃ a cs, s.h.ina.restoreNets v = some (a, cs) ∧
      ∃ U', UInv s0 par ver bi G V c b { s with h := { s.h with ina := a }, tk := wr s.tk j (.nets cs) } U' := by
  obtain ⟨h1, h2, h3⟩ := hb.at hj
  obtain ⟨k1, k2, k3, k4⟩ := hI.at hj ht
  have C := hI.core
  obtain ⟨a, cs, r1, r2, r3, r4, r5⟩ := restore_calls hc C.ina C.tree hS.log (fun v e h => (hS.logU v e h).2) hS.comp k2 h1 (hver v h1 h3) (hI.below hS h1 h3)
  refine ⟨a, cs, r1, { U with mid := wr U.mid v false, ops := fun x => if x ∈ U.sg v then (U.ops x).tail else U.ops x }, ?_⟩
  refine hI.node hb hj ?_ rfl rfl rfl rfl ?_ (by rw [ht]; exact fun _ _ _ h => Tk.noConfusion h) (fun _ _ _ h => Tk.noConfusion h) ?_
  · refine ⟨C.nEq, C.mEq, C.biEq, C.VEq, C.tree, r2, C.log, C.pins, C.sorted, C.other, C.oneLe, C.twoLe, ?_, C.wtS, C.een, C.rem, C.ew, C.een0⟩
    intro w hw
    have hwv : w ≠ v := by rintro rfl; exact h1 hw
    show U.mg w = false ∧ wr U.mid v false w = false ∧ _
    rw [wr_other _ _ hwv]
    exact C.root w hw
  · intro w hw
    show U.mg w = _ ∧ wr U.mid v false w = _ ∧ _
    rw [wr_other _ _ hw]
    exact ⟨rfl, rfl, rfl⟩
  · refine ⟨k1, wr_same _ _ _, k3, r3, ?_, (by intro _ h; cases h), fun e he => (r5 e).1 he, fun e he => Or.inl ((r5 e).2 he)⟩
    intro e
    show U.two v e = true ↔ _
    rw [k4, r4]
    simp

theorem inside_enable {en : Nat → Bool} {v : Nat} (hv : s0.live v) (he : en v = false) (x : Nat) (wt : Nat → Int) :
    ∑ w ∈ inside s0 par en x, wt w = ∑ w ∈ inside s0 par (wr en v true) x, wt w + if par v = x then wt v else 0 := by
  classical
  by_cases hx : par v = x
  · rw [if_pos hx]
    have hmem : v ∈ inside s0 par en x := by
      unfold inside
      rw [Finset.mem_filter, Finset.mem_range]
      exact ⟨hv.1, hx, hv.2, he⟩
    have : inside s0 par (wr en v true) x = (inside s0 par en x).erase v := by
      ext w
      unfold inside
      rw [Finset.mem_erase, Finset.mem_filter, Finset.mem_filter]
      rcases wr_cases en v true w with ⟨a, b⟩ | ⟨a, b⟩
      · rw [b]; simp [a]
      · rw [b]; simp [a]
    rw [this, Finset.sum_erase_add _ _ hmem]
  · rw [if_neg hx, add_zero]
    refine Finset.sum_congr ?_ (fun _ _ => rfl)
    ext w
    unfold inside
    rw [Finset.mem_filter, Finset.mem_filter]
    rcases wr_cases en v true w with ⟨a, b⟩ | ⟨a, b⟩
    · rw [a]
      constructor
      · rintro ⟨_, h, _⟩; exact absurd h hx
      · rintro ⟨_, h, _⟩; exact absurd h hx
    · rw [b]

theorem UInv.enable (hS : Stat s0 par ver bi G) (hb : BatchOK par bi c b) (hI : UInv s0 par ver bi G V c b s U) {j u v : Nat}
    (hj : b[j]? = some (u, v)) (ht : s.tk j = .nets []) :
    UInv s0 par ver bi G V c b { s with h := { s.h with en := wr s.h.en v true, wt := wr s.h.wt u (s.h.wt u - s.h.wt v) }, tk := wr s.tk j .done } U := by
  obtain ⟨h1, h2, h3⟩ := hb.at hj
  have h : CallsOK G s.h s.flag U v [] none := hI.at hj ht
  obtain ⟨p1, p2, p3, p4, p5, p6⟩ := hI.parent hS hb hj
  have C := hI.core
  have hl := hS.live v h1
  refine hI.node hb hj ?_ rfl rfl rfl rfl ?_ (by rw [ht]; exact fun _ _ _ h => Tk.noConfusion h) (fun _ _ _ h => Tk.noConfusion h) ?_
  · refine ⟨C.nEq, C.mEq, C.biEq, C.VEq, C.tree, C.ina, C.log, C.pins, C.sorted, C.other, C.oneLe, C.twoLe, ?_, ?_, C.een, C.rem, C.ew, C.een0⟩
    · intro w hw
      have hwv : w ≠ v := by rintro rfl; exact h1 hw
      show _ ∧ _ ∧ (_ → wr s.h.en v true w = _)
      rw [wr_other _ _ hwv]
      exact C.root w hw
    · intro x
      show wr s.h.wt u (s.h.wt u - s.h.wt v) x = s0.wt x + ∑ w ∈ inside s0 par (wr s.h.en v true) x, wr s.h.wt u (s.h.wt u - s.h.wt v) w
      have hsum : ∑ w ∈ inside s0 par (wr s.h.en v true) x, wr s.h.wt u (s.h.wt u - s.h.wt v) w = ∑ w ∈ inside s0 par (wr s.h.en v true) x, s.h.wt w := by
        refine Finset.sum_congr rfl ?_
        intro w hw
        refine wr_other _ _ ?_
        rintro rfl
        unfold inside at hw
        rw [Finset.mem_filter] at hw
        have hw := hw.2.2.2
        rcases wr_cases s.h.en v true w with ⟨_, b⟩ | ⟨_, b⟩
        · rw [b] at hw; cases hw
        · rw [b, p4] at hw; cases hw
      rw [hsum]
      have h5 := C.wtS x
      rw [inside_enable hl.1 h.en x s.h.wt, h2] at h5
      rcases wr_cases s.h.wt u (s.h.wt u - s.h.wt v) x with ⟨a, b⟩ | ⟨a, b⟩
      · rw [b]; rw [if_pos a.symm] at h5; rw [a] at h5 ⊢; omega
      · rw [b]; rw [if_neg (Ne.symm a)] at h5; omega
  · intro w hw
    show _ ∧ _ ∧ wr s.h.en v true w = _
    rw [wr_other _ _ hw]
    exact ⟨rfl, rfl, rfl⟩
  · refine ⟨h.mg, h.mid, wr_same _ _ _, ?_, ?_⟩
    · intro e
      rw [bool_false_iff, h.two e]; simp
    · intro e he
      rcases h.all e he with hh | hh
      · cases hh
      · exact hh

theorem UInv.step (hc : Clean s0) (hS : Stat s0 par ver bi G) (hb : BatchOK par bi c b) (hver : ∀ v, par v ≠ v → bi v = c → ver v = V)
    (hI : UInv s0 par ver bi G V c b s U) (h : UStep b s s') : ∃ U', UInv s0 par ver bi G V c b s' U' := by
  cases h with
  | cut j u v a hj ht hcut =>
    obtain ⟨a', ha, hU⟩ := hI.cut hS hb hver hj ht
    rw [hcut] at ha
    injection ha with ha
    subst ha
    exact hU
  | restore j u v a cs hj ht hr =>
    obtain ⟨a', cs', ha, hU⟩ := hI.restore hc hS hb hver hj ht
    rw [hr] at ha
    injection ha with ha
    injection ha with ha hb'
    subst ha hb'
    exact hU
  | two j e cs ht => exact ⟨_, hI.two hS hb ht⟩
  | scanHit j u v e p cs hj ht hp => exact ⟨_, hI.scanHit hb hj ht hp⟩
  | scanMiss j u v e p cs hj ht hp => exact ⟨_, hI.scanMiss hb hj ht hp⟩
  | scanLost j e cs ht =>
    obtain ⟨u, v, hj⟩ := hI.entry (j := j) (by rw [ht]; exact Tk.noConfusion)
    obtain ⟨_, _, hmem⟩ := hI.at hj ht
    rw [List.take_zero] at hmem
    cases hmem
  | write j u v e p cs hj ht => exact ⟨_, hI.write hS hb hj ht⟩
  | oneOther j e cs ht hf => exact ⟨_, hI.oneOther hb ht hf⟩
  | one j e cs ht hf => exact ⟨_, hI.one hb ht hf⟩
  | grow j e p cs ht hp hbi => exact ⟨_, hI.grow hS hb ht hp hbi⟩
  | grown j e p cs ht hp => exact ⟨_, hI.resized hS hb ht hp⟩
  | enable j u v hj ht => exact ⟨_, hI.enable hS hb hj ht⟩

theorem UInv.steps (hc : Clean s0) (hS : Stat s0 par ver bi G) (hb : BatchOK par bi c b) (hver : ∀ v, par v ≠ v → bi v = c → ver v = V)
    (hI : UInv s0 par ver bi G V c b s U) (h : USteps b s s') : ∃ U', UInv s0 par ver bi G V c b s' U' := by
  induction h with
  | refl => exact ⟨U, hI⟩
  | tail s1 s2 _ h2 ih =>
    obtain ⟨U1, h1⟩ := ih
    exact h1.step hc hS hb hver h2

/-- every memento that is not finished can go on -/
theorem UInv.progress (hc : Clean s0) (hS : Stat s0 par ver bi G) (hb : BatchOK par bi c b) (hver : ∀ v, par v ≠ v → bi v = c → ver v = V)
    (hI : UInv s0 par ver bi G V c b s U) {j : Nat} (hj : j < b.length) (hd : s.tk j ≠ .done) : ∃ s', UStep b s s' ∧ s'.tk j ≠ s.tk j := by
  obtain ⟨u, v, hbj⟩ : ∃ u v, b[j]? = some (u, v) := ⟨_, _, List.getElem?_eq_getElem hj⟩
  have hw : ∀ (t : Tk) (h : DH) (f : Nat → Bool), t ≠ s.tk j → (⟨h, wr s.tk j t, f⟩ : USt).tk j ≠ s.tk j := by
    intro t h f hne
    show wr s.tk j t j ≠ _
    rw [wr_same]; exact hne
  cases ht : s.tk j with
  | wait =>
    obtain ⟨a, ha, _⟩ := hI.cut hS hb hver hbj ht
    exact ⟨_, .cut s j u v a hbj ht ha, by rw [← ht]; exact hw _ _ _ (by rw [ht]; exact Tk.noConfusion)⟩
  | cut =>
    obtain ⟨a, cs, ha, _⟩ := hI.restore hc hS hb hver hbj ht
    exact ⟨_, .restore s j u v a cs hbj ht ha, by rw [← ht]; exact hw _ _ _ (by rw [ht]; exact Tk.noConfusion)⟩
  | nets cs =>
    cases cs with
    | nil => exact ⟨_, .enable s j u v hbj ht, by rw [← ht]; exact hw _ _ _ (by rw [ht]; exact Tk.noConfusion)⟩
    | cons x cs =>
      cases x with
      | two e => exact ⟨_, .two s j e cs ht, by rw [← ht]; exact hw _ _ _ (by rw [ht]; exact Tk.noConfusion)⟩
      | one e =>
        by_cases hf : s.flag e = true
        · exact ⟨_, .oneOther s j e cs ht hf, by rw [← ht]; exact hw _ _ _ (by rw [ht]; intro h; injection h with h; exact absurd h.symm (by simp))⟩
        · exact ⟨_, .one s j e cs ht (by simpa using hf), by rw [← ht]; exact hw _ _ _ (by rw [ht]; exact Tk.noConfusion)⟩
  | scan e p cs =>
    cases p with
    | zero =>
      obtain ⟨_, _, hmem⟩ := hI.at hbj ht
      rw [List.take_zero] at hmem
      cases hmem
    | succ p =>
      by_cases hp : (s.h.pins e).getD p 0 = u
      · exact ⟨_, .scanHit s j u v e p cs hbj ht hp, by rw [← ht]; exact hw _ _ _ (by rw [ht]; exact Tk.noConfusion)⟩
      · exact ⟨_, .scanMiss s j u v e p cs hbj ht hp, by rw [← ht]; exact hw _ _ _ (by rw [ht]; intro h; injection h with _ h _; omega)⟩
  | write e p cs => exact ⟨_, .write s j u v e p cs hbj ht, by rw [← ht]; exact hw _ _ _ (by rw [ht]; exact Tk.noConfusion)⟩
  | resize e p cs =>
    by_cases hp : p < (s.h.pins e).length ∧ s.h.bi ((s.h.pins e).getD p 0) = s.h.bi (b.getD 0 (0, 0)).2
    · exact ⟨_, .grow s j e p cs ht hp.1 hp.2, by rw [← ht]; exact hw _ _ _ (by rw [ht]; intro h; injection h with _ h _; omega)⟩
    · refine ⟨_, .grown s j e p cs ht ?_, by rw [← ht]; exact hw _ _ _ (by rw [ht]; exact Tk.noConfusion)⟩
      by_cases h : p < (s.h.pins e).length
      · exact Or.inr (fun h' => hp ⟨h, h'⟩)
      · exact Or.inl (by omega)
  | lost => exact (hI.at hbj ht).elim
  | done => exact absurd ht hd

end Dyn
end Verif
