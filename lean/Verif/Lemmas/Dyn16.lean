import Verif.Lemmas.Dyn15
/-!
# Preservation of the invariant: performing contractions
-/
namespace Verif
namespace Dyn
open SMap (wr)

variable {s0 : DH} {mx : Int} {s : St} {G : Gh}

/-- the contraction is started -/
theorem Inv.start (hI : Inv s0 mx s G) {i u v : Nat} (hi : s.thr i = .tryC u v) (ev : s.h.en v = true) (h0 : s.h.pend v = 0)
    (hw : s.h.wt u + s.h.wt v ≤ mx) (hf : s.ref u v = false) :
    Inv s0 mx { s with h := s.h.disable u v, thr := wr s.thr i (.load u v) } G := by
  have P := hI.p
  have hfv := hI.fin_false ev
  have hok := hI.thr i
  rw [hi] at hok
  obtain ⟨hlu, hlv, huv, hor⟩ := hok
  have hp : s.h.par v = u := by
    rcases hor with h | h | h | h
    · exact h
    · rw [ev] at h; cases h
    · omega
    · rw [hf] at h; cases h
  have hpv : s.h.par v ≠ v := by rw [hp]; exact huv
  have eu : s.h.en u = true := by have := (P.unf v hpv hfv).1; rwa [hp] at this
  have hen : ∀ x, x ≠ v → (s.h.disable u v).en x = s.h.en x := fun x hx => wr_other _ _ hx
  have henv : (s.h.disable u v).en v = false := wr_same _ _ _
  have hmono : ∀ x, s.h.en x = false → (s.h.disable u v).en x = false := by
    intro x hx
    by_cases h : x = v
    · subst h; exact henv
    · rw [hen x h]; exact hx
  have hback : ∀ x, (s.h.disable u v).en x = true → s.h.en x = true ∧ x ≠ v := by
    intro x hx
    have hxv : x ≠ v := by rintro rfl; rw [henv] at hx; cases hx
    exact ⟨by rw [← hen x hxv]; exact hx, hxv⟩
  have hwt : ∀ x, x ≠ u → (s.h.disable u v).wt x = s.h.wt x := fun x hx => wr_other _ _ hx
  have hwtu : (s.h.disable u v).wt u = s.h.wt u + s.h.wt v := wr_same _ _ _
  have hoff : ∀ j, (s.thr j).on ≠ none → j ≠ i := by
    rintro j hj rfl; rw [hi] at hj; exact hj rfl
  have hne : ∀ x, s.h.en x = false → x ≠ v := by rintro x hx rfl; rw [ev] at hx; cases hx
  refine ⟨hI.t.par rfl rfl rfl rfl (fun _ _ => ⟨rfl, rfl⟩), hI.e.par rfl rfl hmono (fun _ _ => ⟨rfl, rfl⟩) P.mgD, ?_, hI.n.same rfl rfl rfl rfl, ?_⟩
  · refine ⟨P.root, fun x hx => P.enLe x (hback x hx).1, ?_, ?_, ?_, fun x hx => hmono x (P.mgD x hx), ?_, P.pend, ?_, P.verR, P.verM, ?_, ?_, P.gst, ?_⟩
    · intro x hx he
      by_cases hxv : x = v
      · subst hxv
        refine ⟨hpv, Or.inr ⟨i, u, ?_⟩⟩
        show (wr s.thr i (.load u x) i).on = _
        rw [wr_same]; rfl
      · change (s.h.disable u v).en x = false at he
        rw [hen x hxv] at he
        obtain ⟨h1, h2⟩ := P.dis x hx he
        refine ⟨h1, ?_⟩
        rcases h2 with h2 | ⟨j, a, h2⟩
        · exact Or.inl h2
        · refine Or.inr ⟨j, a, ?_⟩
          show (wr s.thr i (.load u v) j).on = _
          rw [wr_other _ _ (hoff j (by rw [h2]; simp))]; exact h2
    · intro j k a a' x h1 h2
      change (wr s.thr i (.load u v) j).on = _ at h1
      change (wr s.thr i (.load u v) k).on = _ at h2
      rcases wr_cases s.thr i (.load u v) j with ⟨a1, a2⟩ | ⟨a1, a2⟩ <;> rcases wr_cases s.thr i (.load u v) k with ⟨b1, b2⟩ | ⟨b1, b2⟩
      · rw [a1, b1]
      · rw [a2] at h1; rw [b2] at h2
        have : v = x := by simpa [Pc.on] using (congrArg (Option.map Prod.snd) h1)
        subst this
        have := ((hI.thr k).run h2).en
        rw [ev] at this; cases this
      · rw [a2] at h1; rw [b2] at h2
        have : v = x := by simpa [Pc.on] using (congrArg (Option.map Prod.snd) h2)
        subst this
        have := ((hI.thr j).run h1).en
        rw [ev] at this; cases this
      · rw [a2] at h1; rw [b2] at h2
        exact P.uniq j k a a' x h1 h2
    · intro x hx
      obtain ⟨h1, h2⟩ := P.finD x hx
      exact ⟨hmono x h1, h2⟩
    · intro x hx hfx
      obtain ⟨h1, h2⟩ := P.unf x hx hfx
      refine ⟨?_, h2⟩
      show (s.h.disable u v).en (s.h.par x) = true
      by_cases hpx : s.h.par x = v
      · have := RunOK.kids_fin P h0 hpx (by rintro rfl; exact hx hpx)
        rw [hfx] at this; cases this
      · rw [hen _ hpx]; exact h1
    · intro x hx hpx
      obtain ⟨h1, hxv⟩ := hback x hx
      rcases P.owed x h1 hpx with h | ⟨j, h⟩
      · exact Or.inl h
      · refine Or.inr ⟨j, ?_⟩
        have hji : j ≠ i := by
          rintro rfl
          rw [hi] at h
          rcases h with h | h
          · cases h
          · injection h with _ h; exact hxv h.symm
        show wr s.thr i (.load u v) j = _ ∨ wr s.thr i (.load u v) j = .tryC (s.h.par x) x
        rw [wr_other _ _ hji]; exact h
    · intro x
      show 0 ≤ (s.h.disable u v).wt x
      by_cases hxu : x = u
      · subst hxu; rw [hwtu]; have := P.wt0 x; have := P.wt0 v; omega
      · rw [hwt x hxu]; exact P.wt0 x
    · intro a
      show (s.h.disable u v).wt a = s0.wt a + ∑ x ∈ inside s0 s.h.par (s.h.disable u v).en a, (s.h.disable u v).wt x
      have hsum : ∀ S : Finset Nat, (∀ x ∈ S, x ≠ u) → ∑ x ∈ S, (s.h.disable u v).wt x = ∑ x ∈ S, s.h.wt x := by
        intro S hS
        exact Finset.sum_congr rfl (fun x hx => hwt x (hS x hx))
      have hold : ∀ b, ∀ x ∈ inside s0 s.h.par s.h.en b, x ≠ u := by
        intro b x hx
        rw [inside, Finset.mem_filter] at hx
        rintro rfl
        rw [eu] at hx; cases hx.2.2.2
      by_cases hau : a = u
      · subst hau
        have hnot : v ∉ inside s0 s.h.par s.h.en a := by
          rw [inside, Finset.mem_filter]; rintro ⟨_, _, _, h⟩; rw [ev] at h; cases h
        have heq : inside s0 s.h.par (s.h.disable a v).en a = insert v (inside s0 s.h.par s.h.en a) := by
          ext x
          rw [Finset.mem_insert, inside, inside, Finset.mem_filter, Finset.mem_filter]
          by_cases hxv : x = v
          · subst hxv
            simp [henv, hp, hlv.1, hlv.2]
          · rw [hen x hxv]; simp [hxv]
        rw [heq, hsum, Finset.sum_insert hnot, hwtu, P.wtS a]
        · omega
        · intro x hx
          rw [Finset.mem_insert] at hx
          rcases hx with rfl | hx
          · exact Ne.symm huv
          · exact hold _ x hx
      · have heq : inside s0 s.h.par (s.h.disable u v).en a = inside s0 s.h.par s.h.en a := by
          ext x
          rw [inside, inside, Finset.mem_filter, Finset.mem_filter]
          by_cases hxv : x = v
          · subst hxv
            rw [hp]
            constructor
            · rintro ⟨_, h, _⟩; exact absurd h.symm hau
            · rintro ⟨_, h, _⟩; exact absurd h.symm hau
          · rw [hen x hxv]
        rw [heq, hsum _ (hold a), hwt a hau]; exact P.wtS a
    · intro x hx
      obtain ⟨h1, h2, h3⟩ := P.tk x hx
      exact ⟨h1, h2, hmono x h3⟩
  · intro j
    show ThrOK s0 mx (s.h.disable u v) s.ref G (wr s.thr i (.load u v) j)
    rcases wr_cases s.thr i (.load u v) j with ⟨h1, h2⟩ | ⟨h1, h2⟩
    · rw [h2]
      refine ⟨⟨hp, huv, henv, hfv, h0⟩, hI.mg_false ev, ?_, hI.log_false ev⟩
      rw [bool_false_iff]; intro h
      have := (P.tk v h).2.2
      rw [ev] at this; cases this
    · rw [h2]
      refine (hI.thr j).stable ?_ ?_
      · intro a x hx
        have hr := (hI.thr j).run hx
        exact ⟨rfl, hen x (hne x hr.en), rfl, rfl, rfl, rfl, rfl, rfl, fun _ => ⟨rfl, rfl⟩, fun _ => rfl⟩
      · intro a x _ hux hor
        rcases hor with h | h | h | h
        · exact Or.inl h
        · exact Or.inr (Or.inl (hmono x h))
        · refine Or.inr (Or.inr (Or.inl ?_))
          have hge : ∀ y, s.h.wt y ≤ (s.h.disable u v).wt y := by
            intro y
            by_cases hy : y = u
            · subst hy; rw [hwtu]; have := P.wt0 v; omega
            · rw [hwt y hy]
          have := hge a; have := hge x; omega
        · exact Or.inr (Or.inr (Or.inr h))

/-- `v` of a running contraction is live, and `u` is enabled -/
theorem Inv.runs (hI : Inv s0 mx s G) {u v : Nat} (hr : RunOK s.h G u v) : s0.live v ∧ s0.live u ∧ s.h.en u = true ∧ s.h.ver v = s.h.V := by
  have hpv : s.h.par v ≠ v := by rw [hr.par]; exact hr.ne
  have h1 := hI.p.root v hpv
  have h2 := hI.p.unf v hpv hr.fin
  rw [hr.par] at h1 h2
  exact ⟨h1.1, h1.2, h2.1, h2.2⟩

theorem Inv.nets_run (hc : Clean s0) (hI : Inv s0 mx s G) {u v : Nat} (hr : RunOK s.h G u v) (hm : G.mg v = false) :
    (G.nets s.h.ina v).Nodup ∧ (∀ e, e ∈ G.nets s.h.ina v ↔ G.isIn s0 s.h.par v e ∧ ∀ k < s.h.V, G.rem k e = false) ∧
    s.h.ina.incidentEdges v = some (G.nets s.h.ina v) := by
  have hl := (hI.runs hr).1
  have := Inv.nets_of hc hI.t hI.e hI.p hl hm (fun w e hw hne _ => (hI.p.finD w (RunOK.kids_fin hI.p hr.pend hw hne)).2.2.1)
  exact ⟨this.1, this.2, hI.t.ina.incidentEdges hI.t.tree hl hm rfl⟩

/-- the fields of the invariant that depend on the threads, if the running contractions stay -/
theorem InvP.thr {h' : DH} {G' : Gh} {thr' : Nat → Pc} {ref' : Nat → Nat → Bool} (P : InvP s0 s G)
    (hon : ∀ j, (thr' j).on = (s.thr j).on) (hpc : ∀ j x, s.thr j = .look x ∨ s.thr j = .tryC (s.h.par x) x → thr' j = s.thr j)
    (e1 : h'.par = s.h.par) (e2 : h'.en = s.h.en) (e3 : h'.pend = s.h.pend) (e4 : h'.ver = s.h.ver) (e5 : h'.V = s.h.V) (e6 : h'.wt = s.h.wt)
    (e7 : G'.fin = G.fin) (e8 : h'.start = s.h.start) (e9 : h'.stop = s.h.stop)
    (hfin : ∀ v, G.fin v = true → G'.mg v = true ∧ G'.tk v = true ∧ s.h.start v = G'.gst v ∧ s.h.stop v = G'.gsp v)
    (hmg : ∀ v, G'.mg v = true → G.mg v = true ∨ (s.h.en v = false ∧ (s.h.par (s.h.par v) ≠ s.h.par v → s.h.ver v ≤ s.h.ver (s.h.par v))))
    (hgst : ∀ v, G'.gst v ≤ h'.cidx) (htk : ∀ v, G'.tk v = true → G'.gst v < G'.gsp v ∧ G'.gsp v ≤ h'.cidx ∧ s.h.en v = false) :
    InvP s0 ⟨h', thr', ref'⟩ G' := by
  refine ⟨?_, ?_, ?_, ?_, ?_, ?_, ?_, ?_, ?_, ?_, ?_, ?_, ?_, hgst, ?_⟩
  · intro v; show h'.par v ≠ v → _; rw [e1]; exact P.root v
  · intro v; show h'.en v = true → _; rw [e2]; exact P.enLe v
  · intro v hv
    show h'.en v = false → h'.par v ≠ v ∧ (G'.fin v = true ∨ ∃ i u, (thr' i).on = _)
    rw [e1, e2, e7]
    intro he
    obtain ⟨h1, h2⟩ := P.dis v hv he
    refine ⟨h1, ?_⟩
    rcases h2 with h2 | ⟨j, u, h2⟩
    · exact Or.inl h2
    · exact Or.inr ⟨j, u, (hon j).trans h2⟩
  · intro j k u u' v h1 h2
    exact P.uniq j k u u' v ((hon j).symm.trans h1) ((hon k).symm.trans h2)
  · intro v hv
    rw [e7] at hv
    obtain ⟨h1, h2, _⟩ := P.finD v hv
    show h'.en v = false ∧ h'.par v ≠ v ∧ G'.mg v = true ∧ G'.tk v = true ∧ h'.start v = _ ∧ h'.stop v = _
    rw [e1, e2, e8, e9]
    exact ⟨h1, h2, hfin v hv⟩
  · intro v hv
    show h'.en v = false
    rw [e2]
    rcases hmg v hv with h | h
    · exact P.mgD v h
    · exact h.1
  · intro v
    show h'.par v ≠ v → G'.fin v = false → h'.en (h'.par v) = true ∧ h'.ver v = h'.V
    rw [e1, e2, e4, e5, e7]; exact P.unf v
  · intro u
    show h'.pend u = (openKids s0.n h'.par G'.fin u).card
    rw [e1, e3, e7]; exact P.pend u
  · intro v
    show h'.en v = true → h'.par v ≠ v → 0 < h'.pend v ∨ ∃ i, thr' i = .look v ∨ thr' i = .tryC (h'.par v) v
    rw [e1, e2, e3]
    intro h1 h2
    rcases P.owed v h1 h2 with h | ⟨j, h⟩
    · exact Or.inl h
    · exact Or.inr ⟨j, by rw [hpc j v h]; exact h⟩
  · intro v
    show h'.par v = v → h'.ver v = _
    rw [e1, e4]; exact P.verR v
  · intro v hv
    show h'.par (h'.par v) ≠ h'.par v → h'.ver v ≤ h'.ver (h'.par v)
    rw [e1, e4]
    rcases hmg v hv with h | h
    · exact P.verM v h
    · exact h.2
  · intro v; show 0 ≤ h'.wt v; rw [e6]; exact P.wt0 v
  · intro u
    show h'.wt u = s0.wt u + ∑ v ∈ inside s0 h'.par h'.en u, h'.wt v
    rw [e1, e2, e6]; exact P.wtS u
  · intro v hv
    show _ ∧ _ ∧ h'.en v = false
    rw [e2]; exact htk v hv

theorem on_wr {thr : Nat → Pc} {i : Nat} {pc : Pc} (h : pc.on = (thr i).on) (j : Nat) : (wr thr i pc j).on = (thr j).on := by
  rcases wr_cases thr i pc j with ⟨h1, h2⟩ | ⟨h1, h2⟩
  · rw [h2, h1, h]
  · rw [h2]

theorem pc_wr {thr : Nat → Pc} {i : Nat} {pc : Pc} {p : Nat × Nat} (h : (thr i).on = some p) (j x y : Nat) (hj : thr j = .look x ∨ thr j = .tryC y x) :
    wr thr i pc j = thr j := by
  have : j ≠ i := by
    rintro rfl
    rcases hj with hj | hj <;> rw [hj] at h <;> cases h
  rw [wr_other _ _ this]

/-- other threads do not work on the node of thread `i` -/
theorem Inv.other (hI : Inv s0 mx s G) {i j u v u' v' : Nat} (h : (s.thr i).on = some (u, v)) (h' : (s.thr j).on = some (u', v')) (hne : j ≠ i) :
    v' ≠ v := by
  rintro rfl
  exact hne (hI.p.uniq j i u' u v' h' h)

theorem Inv.load (hc : Clean s0) (hI : Inv s0 mx s G) {i u v : Nat} (hi : s.thr i = .load u v) :
    Inv s0 mx { s with thr := wr s.thr i (.iter u v s.h.cidx 0 (fun _ => false) []) } { G with gst := wr G.gst v s.h.cidx } := by
  have P := hI.p
  have hok := hI.thr i
  rw [hi] at hok
  obtain ⟨hr, hm, ht, hlog⟩ := hok
  have hon : (s.thr i).on = some (u, v) := by rw [hi]; rfl
  have hne : ∀ x, x ≠ v → wr G.gst v s.h.cidx x = G.gst x := fun x hx => wr_other _ _ hx
  have hN := hI.n
  have hE := hI.e
  refine ⟨⟨hI.t.nEq, hI.t.mEq, hI.t.tree, hI.t.ina, hI.t.fresh⟩, ⟨hE.log, hE.pins, hE.other, hE.logU, hE.comp, ?_⟩, ?_,
    ⟨hN.rem, hN.remV, hN.once, hN.ew, hN.een, hN.enabled⟩, ?_⟩
  · intro x e hx
    rcases hE.oneIn x e hx with h | ⟨w, a1, a2, a3, a4⟩
    · exact Or.inl h
    · refine Or.inr ⟨w, a1, a2, a3, ?_⟩
      have hwv : w ≠ v := by rintro rfl; have := (hlog e).2; rw [a3] at this; cases this
      show _ ∨ (_ ∧ (G.tk x = true → wr G.gst v s.h.cidx w < _))
      rw [hne w hwv]; exact a4
  · refine P.thr (on_wr (by rw [hon]; rfl)) (fun j x h => pc_wr hon j x _ h) rfl rfl rfl rfl rfl rfl rfl rfl rfl ?_ (fun v h => Or.inl h) ?_ ?_
    · intro x hx
      obtain ⟨_, _, h3, h4, h5, h6⟩ := P.finD x hx
      have hxv : x ≠ v := by rintro rfl; rw [hr.fin] at hx; cases hx
      exact ⟨h3, h4, by show _ = wr G.gst v s.h.cidx x; rw [hne x hxv]; exact h5, h6⟩
    · intro x
      show wr G.gst v s.h.cidx x ≤ s.h.cidx
      rcases wr_cases G.gst v s.h.cidx x with ⟨_, h⟩ | ⟨_, h⟩
      · rw [h]
      · rw [h]; exact P.gst x
    · intro x hx
      have hxv : x ≠ v := by rintro rfl; rw [show G.tk x = true from hx] at ht; cases ht
      show wr G.gst v s.h.cidx x < _ ∧ _
      rw [hne x hxv]; exact P.tk x hx
  · intro j
    show ThrOK s0 mx s.h s.ref _ (wr s.thr i _ j)
    rcases wr_cases s.thr i (.iter u v s.h.cidx 0 (fun _ => false) []) j with ⟨h1, h2⟩ | ⟨h1, h2⟩
    · rw [h2]
      obtain ⟨n1, n2, _⟩ := Inv.nets_run hc hI hr hm
      refine ⟨⟨hr.par, hr.ne, hr.en, hr.fin, hr.pend⟩, hm, ht, (wr_same _ _ _).symm, ⟨?_, ?_, ?_, ?_⟩⟩
      · exact n1
      · intro e he; exact he
      · intro e
        show (G.one v e = true ∨ G.two v e = true) ↔ e ∈ G.nets s.h.ina v ∧ e ∉ G.nets s.h.ina v
        rw [(hlog e).1, (hlog e).2]; simp
      · intro e; exact (hlog e).1.symm
    · rw [h2]
      refine (hI.thr j).stable ?_ ?_
      · intro a x hx
        exact ⟨rfl, rfl, rfl, rfl, rfl, rfl, hne x (hI.other hon hx h1), rfl, fun _ => ⟨rfl, rfl⟩, fun _ => rfl⟩
      · intro a x _ _ h; exact h

/-- history after contracting net `e` -/
def Gh.logged (G : Gh) (v e : Nat) (b : Bool) : Gh :=
  { G with
    one := fun x e' => if e' = e then oneAfter (fun y => G.one y e) v b x else G.one x e'
    two := fun x e' => if e' = e then twoAfter (fun y => G.two y e) v b x else G.two x e' }

theorem Gh.logged_one {G : Gh} {v e : Nat} {b : Bool} (x e' : Nat) :
    (G.logged v e b).one x e' = true ↔ (x = v ∧ e' = e ∧ b = true) ∨ G.one x e' = true := by
  show (if e' = e then _ else _) = true ↔ _
  by_cases h : e' = e
  · subst h; rw [if_pos rfl, oneAfter_eq]; simp
  · rw [if_neg h]; simp [h]

theorem Gh.logged_two {G : Gh} {v e : Nat} {b : Bool} (x e' : Nat) :
    (G.logged v e b).two x e' = true ↔ (x = v ∧ e' = e ∧ b = false) ∨ G.two x e' = true := by
  show (if e' = e then _ else _) = true ↔ _
  by_cases h : e' = e
  · subst h; rw [if_pos rfl, twoAfter_eq]; simp
  · rw [if_neg h]; simp [h]

theorem Gh.logged_other {G : Gh} {v e : Nat} {b : Bool} {x : Nat} (hx : x ≠ v) (e' : Nat) :
    (G.logged v e b).one x e' = G.one x e' ∧ (G.logged v e b).two x e' = G.two x e' := by
  constructor
  · rw [Bool.eq_iff_iff, Gh.logged_one]; simp [hx]
  · rw [Bool.eq_iff_iff, Gh.logged_two]; simp [hx]

/-- contracting one net -/
theorem Inv.edge (hc : Clean s0) (hI : Inv s0 mx s G) {i u v e : Nat} (hon : (s.thr i).on = some (u, v)) (hm : G.mg v = false) (ht : G.tk v = false)
    {sh : Nat → Bool} {todo todo' : List Nat} (htodo : TodoOK s.h G v sh todo) (hperm : todo.Perm (e :: todo')) :
    ∃ l' k b, contractHE u v (s.h.pins e) (s.h.size e) = some (l', k, b) ∧
      ∀ pc, pc.on = some (u, v) → ((RunOK (s.h.setEdge e l' k) (G.logged v e b) u v → TodoOK (s.h.setEdge e l' k) (G.logged v e b) v (flagIf sh e b) todo' →
        ThrOK s0 mx (s.h.setEdge e l' k) s.ref (G.logged v e b) pc)) →
      Inv s0 mx { s with h := s.h.setEdge e l' k, thr := wr s.thr i pc } (G.logged v e b) := by
  have P := hI.p
  have E := hI.e
  have hr := (hI.thr i).run hon
  obtain ⟨hlv, hlu, eu, hver⟩ := hI.runs hr
  obtain ⟨n1, n2, n3⟩ := Inv.nets_run hc hI hr hm
  have hnd := hperm.nodup_iff.1 htodo.nodup
  rw [List.nodup_cons] at hnd
  have hmem : ∀ x, x ∈ todo ↔ x = e ∨ x ∈ todo' := by intro x; rw [hperm.mem_iff, List.mem_cons]
  have hen : e ∈ G.nets s.h.ina v := htodo.sub e ((hmem e).2 (Or.inl rfl))
  obtain ⟨hin, hrem⟩ := (n2 e).1 hen
  have hlogv : ¬ (G.one v e = true ∨ G.two v e = true) := by
    rw [htodo.log e]; rintro ⟨_, h⟩; exact h ((hmem e).2 (Or.inl rfl))
  have h1v : G.one v e = false := by rw [bool_false_iff]; exact fun h => hlogv (Or.inl h)
  have h2v : G.two v e = false := by rw [bool_false_iff]; exact fun h => hlogv (Or.inr h)
  have hused : s0.used e := by
    rcases hin with h | ⟨w, _, _, h⟩
    · exact h.1
    · exact (E.logU w e (Or.inr h)).1
  obtain ⟨l', k, b, hcon, hb, hlog, hpins⟩ := contract_net (E.log e) (E.pins e hused) hr.par hr.ne hin h1v h2v (hI.log_false eu e).1 (hI.log_false eu e).2
  refine ⟨l', k, b, hcon, ?_⟩
  intro pc hpon hpc
  have hone : (fun x => (G.logged v e b).one x e) = oneAfter (fun y => G.one y e) v b := by
    funext x; show (if e = e then _ else _) = _; rw [if_pos rfl]
  have htwo : (fun x => (G.logged v e b).two x e) = twoAfter (fun y => G.two y e) v b := by
    funext x; show (if e = e then _ else _) = _; rw [if_pos rfl]
  have hone' : ∀ e', e' ≠ e → (fun x => (G.logged v e b).one x e') = (fun x => G.one x e') := by
    intro e' h; funext x; show (if e' = e then _ else _) = _; rw [if_neg h]
  have htwo' : ∀ e', e' ≠ e → (fun x => (G.logged v e b).two x e') = (fun x => G.two x e') := by
    intro e' h; funext x; show (if e' = e then _ else _) = _; rw [if_neg h]
  have hisIn : ∀ x e', (G.logged v e b).isIn s0 s.h.par x e' ↔ G.isIn s0 s.h.par x e' ∨ (x = u ∧ e' = e) := by
    intro x e'
    by_cases he : e' = e
    · subst he
      unfold Gh.isIn
      rw [htwo, InN_after hr.par hr.ne b hb.1]; simp
    · unfold Gh.isIn
      rw [htwo' e' he]; simp [he]
  have hT : InvT s0 (s.h.setEdge e l' k) (G.logged v e b) := by
    refine ⟨hI.t.nEq, hI.t.mEq, hI.t.tree, hI.t.ina.keep_congr hI.t.tree ?_, hI.t.fresh⟩
    intro x hx o ho e'
    cases o with
    | ver k => rfl
    | contr z =>
      have hz := ((hI.t.ina.mem x hx z).1 ho).1
      have hzv : z ≠ v := by
        rintro rfl
        rcases hz with h | h
        · rw [hm] at h; cases h
        · cases h
      show (!(G.logged v e b).one z e') = !G.one z e'
      rw [(Gh.logged_other hzv e').1]
  refine ⟨hT, ⟨?_, ?_, ?_, ?_, ?_, ?_⟩, ?_, ?_, ?_⟩
  · intro e'
    by_cases he : e' = e
    · subst he; rw [hone, htwo]; exact hlog
    · rw [hone' e' he, htwo' e' he]; exact E.log e'
  · intro e' hu'
    show PinsOK _ s.h.par _ _ (wr s.h.pins e l' e') (wr s.h.size e k e')
    by_cases he : e' = e
    · subst he; rw [hone, htwo, wr_same, wr_same]; exact hpins
    · rw [hone' e' he, htwo' e' he, wr_other _ _ he, wr_other _ _ he]; exact E.pins e' hu'
  · intro e' hu'
    have he : e' ≠ e := by rintro rfl; exact hu' hused
    show wr s.h.pins e l' e' = _ ∧ wr s.h.size e k e' = _
    rw [wr_other _ _ he, wr_other _ _ he]; exact E.other e' hu'
  · intro x e' hx
    rw [Gh.logged_one, Gh.logged_two] at hx
    show s0.used e' ∧ s0.live x ∧ s.h.en x = false ∧ ∀ k < s.h.ver x, G.rem k e' = false
    have hcase : (x = v ∧ e' = e) ∨ (G.one x e' = true ∨ G.two x e' = true) := by tauto
    rcases hcase with ⟨rfl, rfl⟩ | h
    · exact ⟨hused, hlv, hr.en, by rw [hver]; exact hrem⟩
    · exact E.logU x e' h
  · intro x e' hx hin' hk
    change G.mg x = true at hx
    have : G.isIn s0 s.h.par x e' := by
      rcases (hisIn x e').1 hin' with h | ⟨rfl, _⟩
      · exact h
      · rw [hI.mg_false eu] at hx; cases hx
    rcases E.comp x e' hx this hk with h | h
    · exact Or.inl ((Gh.logged_one x e').2 (Or.inr h))
    · exact Or.inr ((Gh.logged_two x e').2 (Or.inr h))
  · intro x e' hx
    show s0.orig (s.h.par x) e' ∨ ∃ w, s.h.par w = s.h.par x ∧ w ≠ s.h.par w ∧ (G.logged v e b).two w e' = true ∧
      (s.h.ver w < s.h.ver x ∨ (s.h.ver w = s.h.ver x ∧ (G.tk x = true → G.gst w < G.gsp x)))
    rw [Gh.logged_one] at hx
    rcases hx with ⟨rfl, rfl, hbt⟩ | hx
    · rcases hb.1 hbt with h | ⟨w, a1, a2, a3⟩
      · exact Or.inl (by rw [hr.par]; exact h)
      · refine Or.inr ⟨w, by rw [a1, hr.par], by rw [a1]; exact a2, (Gh.logged_two w e').2 (Or.inr a3), ?_⟩
        have hpw : s.h.par w ≠ w := by rw [a1]; exact Ne.symm a2
        have hle : s.h.ver w ≤ s.h.V := by
          by_cases hf : G.fin w = true
          · exact (hI.t.ina.stk w (P.finD w hf).2.2.1).1
          · exact Nat.le_of_eq (P.unf w hpw (by simpa using hf)).2
        rw [hver]
        rcases Nat.lt_or_eq_of_le hle with h | h
        · exact Or.inl h
        · exact Or.inr ⟨h, fun h => by rw [ht] at h; cases h⟩
    · rcases E.oneIn x e' hx with h | ⟨w, a1, a2, a3, a4⟩
      · exact Or.inl h
      · exact Or.inr ⟨w, a1, a2, (Gh.logged_two w e').2 (Or.inr a3), a4⟩
  · refine P.thr (on_wr (by rw [hon]; exact hpon)) (fun j x h => pc_wr hon j x _ h) rfl rfl rfl rfl rfl rfl rfl rfl rfl ?_ (fun v h => Or.inl h) P.gst P.tk
    intro x hx
    obtain ⟨_, _, h3, h4, h5, h6⟩ := P.finD x hx
    exact ⟨h3, h4, h5, h6⟩
  · exact ⟨hI.n.rem, hI.n.remV, hI.n.once, hI.n.ew, hI.n.een, hI.n.enabled⟩
  · intro j
    show ThrOK s0 mx (s.h.setEdge e l' k) s.ref (G.logged v e b) (wr s.thr i pc j)
    rcases wr_cases s.thr i pc j with ⟨h1, h2⟩ | ⟨h1, h2⟩
    · rw [h2]
      refine hpc ⟨hr.par, hr.ne, hr.en, hr.fin, hr.pend⟩ ⟨hnd.2, ?_, ?_, ?_⟩
      · intro x hx; exact htodo.sub x ((hmem x).2 (Or.inr hx))
      · intro x
        show _ ↔ x ∈ G.nets s.h.ina v ∧ x ∉ todo'
        rw [Gh.logged_one, Gh.logged_two]
        by_cases hxe : x = e
        · subst hxe
          constructor
          · intro _; exact ⟨hen, hnd.1⟩
          · intro _
            cases b with
            | true => simp
            | false => simp
        · have := htodo.log x
          rw [hmem] at this
          simp only [hxe, false_or, false_and, and_false] at this ⊢
          exact this
      · intro x
        rw [Bool.eq_iff_iff, Gh.logged_one]
        have hsh := htodo.sh x
        unfold flagIf
        cases b with
        | false => simp [hsh]
        | true =>
          simp only [if_true, true_and, and_true]
          by_cases hxe : x = e
          · subst hxe; rw [wr_same]; simp
          · rw [wr_other _ _ hxe, hsh]; simp [hxe]
    · rw [h2]
      refine (hI.thr j).stable ?_ ?_
      · intro a x hx
        have hxv := hI.other hon hx h1
        exact ⟨rfl, rfl, rfl, rfl, rfl, rfl, rfl, rfl, fun e' => Gh.logged_other hxv e', fun _ => rfl⟩
      · intro a x _ _ h; exact h

/-- contracting the incident nets -/
theorem Inv.merge (hc : Clean s0) (hI : Inv s0 mx s G) {i u v st : Nat} {sh : Nat → Bool} (hi : s.thr i = .late u v st sh []) :
    ∃ a, s.h.ina.contract u v sh = some a ∧
      Inv s0 mx { s with h := { s.h with ina := a }, thr := wr s.thr i (.tick u v st) }
        { G with mg := wr G.mg v true, kids := wr G.kids u (G.kids u ++ [v]), sg := wr G.sg u (G.sg u ++ G.sg v), ops := fun x => if x ∈ G.sg v then Op.contr v :: G.ops x else G.ops x } := by
  have P := hI.p
  have E := hI.e
  have hok := hI.thr i
  rw [hi] at hok
  obtain ⟨hr, hm, ht, hst, htodo⟩ := hok
  have hon : (s.thr i).on = some (u, v) := by rw [hi]; rfl
  obtain ⟨hlv, hlu, eu, hver⟩ := hI.runs hr
  obtain ⟨n1, n2, n3⟩ := Inv.nets_run hc hI hr hm
  have hmu := hI.mg_false eu
  obtain ⟨a, ha, hina, hfr, hact⟩ := hI.t.ina.contract hI.t.tree hI.t.fresh hlu hlv hmu hm hr.ne hr.par hver (flag := sh)
    (fun e _ => by rw [htodo.sh e]; show _ = !(!G.one v e); simp)
  refine ⟨a, ha, ?_⟩
  refine ⟨⟨hI.t.nEq, hI.t.mEq, hI.t.tree.merge hlu.1 hlv.1 hmu hm hr.ne hr.par, hina, hfr⟩, ⟨E.log, E.pins, E.other, E.logU, ?_, E.oneIn⟩, ?_,
    ⟨hI.n.rem, hI.n.remV, hI.n.once, hI.n.ew, hI.n.een, hI.n.enabled⟩, ?_⟩
  · intro x e hx hin hk
    change wr G.mg v true x = true at hx
    change G.isIn s0 s.h.par x e at hin
    change ∀ k < s.h.ver x, G.rem k e = false at hk
    show G.one x e = true ∨ G.two x e = true
    by_cases hxv : x = v
    · subst hxv
      rw [hver] at hk
      have := (htodo.log e).2 ⟨(n2 e).2 ⟨hin, hk⟩, by simp⟩
      exact this
    · rw [wr_other _ _ hxv] at hx
      exact E.comp x e hx hin hk
  · refine P.thr (on_wr (by rw [hon]; rfl)) (fun j x h => pc_wr hon j x _ h) rfl rfl rfl rfl rfl rfl rfl rfl rfl ?_ ?_ P.gst P.tk
    · intro x hx
      obtain ⟨_, _, h3, h4, h5, h6⟩ := P.finD x hx
      refine ⟨?_, h4, h5, h6⟩
      show wr G.mg v true x = true
      rcases wr_cases G.mg v true x with ⟨_, h⟩ | ⟨_, h⟩
      · rw [h]
      · rw [h]; exact h3
    · intro x hx
      change wr G.mg v true x = true at hx
      by_cases hxv : x = v
      · subst hxv
        refine Or.inr ⟨hr.en, ?_⟩
        intro hpp
        rw [hr.par] at hpp ⊢
        rw [hver, (P.unf u hpp (hI.fin_false eu)).2]
      · rw [wr_other _ _ hxv] at hx; exact Or.inl hx
  · intro j
    show ThrOK s0 mx { s.h with ina := a } s.ref _ (wr s.thr i (.tick u v st) j)
    rcases wr_cases s.thr i (.tick u v st) j with ⟨h1, h2⟩ | ⟨h1, h2⟩
    · rw [h2]
      exact ⟨⟨hr.par, hr.ne, hr.en, hr.fin, hr.pend⟩, wr_same _ _ _, ht, hst⟩
    · rw [h2]
      refine (hI.thr j).stable ?_ ?_
      · intro w x hx
        have hxv := hI.other hon hx h1
        have hr' := (hI.thr j).run hx
        have hxu : x ≠ u := by rintro rfl; have := hr'.en; rw [eu] at this; cases this
        refine ⟨rfl, rfl, rfl, rfl, wr_other _ _ hxv, rfl, rfl, rfl, fun _ => ⟨rfl, rfl⟩, fun hmx => ?_⟩
        show (wr G.sg u (G.sg u ++ G.sg v) x).flatMap a.active = (G.sg x).flatMap s.h.ina.active
        rw [wr_other _ _ hxu]
        refine List.flatMap_congr ?_
        intro y hy
        refine hact y ?_
        intro hyv
        exact hxv (hI.t.tree.dis x (hI.runs hr').1.1 v hlv.1 hmx hm y hy hyv)
      · intro a x _ _ h; exact h

theorem Inv.tick (hI : Inv s0 mx s G) {i u v st : Nat} (hi : s.thr i = .tick u v st) :
    Inv s0 mx { s with h := { s.h with cidx := s.h.cidx + 1 }, thr := wr s.thr i (.unreg u v st (s.h.cidx + 1)) }
      { G with gsp := wr G.gsp v (s.h.cidx + 1), tk := wr G.tk v true } := by
  have P := hI.p
  have E := hI.e
  have hok := hI.thr i
  rw [hi] at hok
  obtain ⟨hr, hm, ht, hst⟩ := hok
  have hon : (s.thr i).on = some (u, v) := by rw [hi]; rfl
  refine ⟨⟨hI.t.nEq, hI.t.mEq, hI.t.tree, hI.t.ina, hI.t.fresh⟩, ⟨E.log, E.pins, E.other, E.logU, E.comp, ?_⟩, ?_,
    ⟨hI.n.rem, hI.n.remV, hI.n.once, hI.n.ew, hI.n.een, hI.n.enabled⟩, ?_⟩
  · intro x e hx
    rcases E.oneIn x e hx with h | ⟨w, a1, a2, a3, a4⟩
    · exact Or.inl h
    · refine Or.inr ⟨w, a1, a2, a3, ?_⟩
      show s.h.ver w < s.h.ver x ∨ (s.h.ver w = s.h.ver x ∧ (wr G.tk v true x = true → G.gst w < wr G.gsp v (s.h.cidx + 1) x))
      rcases a4 with h | ⟨h, h'⟩
      · exact Or.inl h
      · refine Or.inr ⟨h, ?_⟩
        by_cases hxv : x = v
        · subst hxv
          intro _
          rw [wr_same]
          have := P.gst w
          omega
        · rw [wr_other _ _ hxv, wr_other _ _ hxv]; exact h'
  · refine P.thr (on_wr (by rw [hon]; rfl)) (fun j x h => pc_wr hon j x _ h) rfl rfl rfl rfl rfl rfl rfl rfl rfl ?_ (fun v h => Or.inl h) ?_ ?_
    · intro x hx
      obtain ⟨_, _, h3, h4, h5, h6⟩ := P.finD x hx
      have hxv : x ≠ v := by rintro rfl; rw [hr.fin] at hx; cases hx
      refine ⟨h3, ?_, h5, ?_⟩
      · show wr G.tk v true x = true
        rw [wr_other _ _ hxv]; exact h4
      · show _ = wr G.gsp v _ x
        rw [wr_other _ _ hxv]; exact h6
    · intro x
      have := P.gst x
      show G.gst x ≤ s.h.cidx + 1
      omega
    · intro x hx
      show G.gst x < wr G.gsp v (s.h.cidx + 1) x ∧ wr G.gsp v (s.h.cidx + 1) x ≤ s.h.cidx + 1 ∧ s.h.en x = false
      by_cases hxv : x = v
      · subst hxv
        rw [wr_same]
        have := P.gst x
        exact ⟨by omega, Nat.le_refl _, hr.en⟩
      · rw [wr_other _ _ hxv]
        change wr G.tk v true x = true at hx
        rw [wr_other _ _ hxv] at hx
        obtain ⟨h1, h2, h3⟩ := P.tk x hx
        exact ⟨h1, by omega, h3⟩
  · intro j
    show ThrOK s0 mx _ s.ref _ (wr s.thr i _ j)
    rcases wr_cases s.thr i (.unreg u v st (s.h.cidx + 1)) j with ⟨h1, h2⟩ | ⟨h1, h2⟩
    · rw [h2]
      exact ⟨⟨hr.par, hr.ne, hr.en, hr.fin, hr.pend⟩, hm, wr_same _ _ _, hst, (wr_same _ _ _).symm⟩
    · rw [h2]
      refine (hI.thr j).stable ?_ ?_
      · intro a x hx
        have hxv := hI.other hon hx h1
        exact ⟨rfl, rfl, rfl, rfl, rfl, wr_other _ _ hxv, rfl, wr_other _ _ hxv, fun _ => ⟨rfl, rfl⟩, fun _ => rfl⟩
      · intro a x _ _ h; exact h

theorem Inv.unreg (hI : Inv s0 mx s G) {i u v st sp : Nat} (hi : s.thr i = .unreg u v st sp) :
    Inv s0 mx { s with h := s.h.unregister u v st sp, thr := wr s.thr i (.look u) } { G with fin := wr G.fin v true } := by
  have P := hI.p
  have E := hI.e
  have hok := hI.thr i
  rw [hi] at hok
  obtain ⟨hr, hm, ht, hst, hsp⟩ := hok
  have hon : (s.thr i).on = some (u, v) := by rw [hi]; rfl
  obtain ⟨hlv, hlu, eu, hver⟩ := hI.runs hr
  have hvin : v ∈ openKids s0.n s.h.par G.fin u := by
    rw [openKids, Finset.mem_filter, Finset.mem_range]; exact ⟨hlv.1, hr.par, Ne.symm hr.ne, hr.fin⟩
  have honj : ∀ j p, (wr s.thr i (.look u) j).on = some p → j ≠ i ∧ (s.thr j).on = some p := by
    intro j p h
    rcases wr_cases s.thr i (.look u) j with ⟨h1, h2⟩ | ⟨h1, h2⟩
    · rw [h2] at h; cases h
    · rw [h2] at h; exact ⟨h1, h⟩
  refine ⟨⟨hI.t.nEq, hI.t.mEq, hI.t.tree, hI.t.ina, hI.t.fresh⟩, ⟨E.log, E.pins, E.other, E.logU, E.comp, E.oneIn⟩, ?_,
    ⟨hI.n.rem, hI.n.remV, hI.n.once, hI.n.ew, hI.n.een, hI.n.enabled⟩, ?_⟩
  · refine ⟨P.root, P.enLe, ?_, ?_, ?_, P.mgD, ?_, ?_, ?_, P.verR, P.verM, P.wt0, P.wtS, P.gst, P.tk⟩
    · intro x hx he
      obtain ⟨h1, h2⟩ := P.dis x hx he
      refine ⟨h1, ?_⟩
      show wr G.fin v true x = true ∨ _
      by_cases hxv : x = v
      · subst hxv; exact Or.inl (wr_same _ _ _)
      · rw [wr_other _ _ hxv]
        rcases h2 with h2 | ⟨j, a, h2⟩
        · exact Or.inl h2
        · refine Or.inr ⟨j, a, ?_⟩
          have hji : j ≠ i := by
            rintro rfl
            rw [hon] at h2
            injection h2 with h2
            exact hxv (congrArg Prod.snd h2).symm
          show (wr s.thr i (.look u) j).on = _
          rw [wr_other _ _ hji]; exact h2
    · intro j k a a' x h1 h2
      exact P.uniq j k a a' x (honj j _ h1).2 (honj k _ h2).2
    · intro x hx
      change wr G.fin v true x = true at hx
      show s.h.en x = false ∧ s.h.par x ≠ x ∧ G.mg x = true ∧ G.tk x = true ∧ wr s.h.start v st x = G.gst x ∧ wr s.h.stop v sp x = G.gsp x
      by_cases hxv : x = v
      · subst hxv
        rw [wr_same, wr_same]
        exact ⟨hr.en, by rw [hr.par]; exact hr.ne, hm, ht, hst, hsp⟩
      · rw [wr_other _ _ hxv] at hx
        rw [wr_other _ _ hxv, wr_other _ _ hxv]; exact P.finD x hx
    · intro x hx hf
      change wr G.fin v true x = false at hf
      have hxv : x ≠ v := by rintro rfl; rw [wr_same] at hf; cases hf
      rw [wr_other _ _ hxv] at hf
      exact P.unf x hx hf
    · intro a
      show wr s.h.pend u (s.h.pend u - 1) a = (openKids s0.n s.h.par (wr G.fin v true) a).card
      by_cases hu : a = u
      · subst hu
        rw [wr_same, P.pend a]
        have heq : openKids s0.n s.h.par (wr G.fin v true) a = (openKids s0.n s.h.par G.fin a).erase v := by
          ext x
          rw [Finset.mem_erase, openKids, openKids, Finset.mem_filter, Finset.mem_filter]
          by_cases hxv : x = v
          · subst hxv; rw [wr_same]; simp
          · rw [wr_other _ _ hxv]; simp [hxv]
        rw [heq, Finset.card_erase_of_mem hvin]
      · rw [wr_other _ _ hu, P.pend a]
        congr 1
        ext x
        rw [openKids, openKids, Finset.mem_filter, Finset.mem_filter]
        by_cases hxv : x = v
        · subst hxv
          rw [hr.par]
          constructor
          · rintro ⟨_, h1, _⟩; exact absurd h1.symm hu
          · rintro ⟨_, h1, _⟩; exact absurd h1.symm hu
        · rw [wr_other _ _ hxv]
    · intro x hx hpx
      by_cases hxu : x = u
      · subst hxu
        refine Or.inr ⟨i, Or.inl ?_⟩
        show wr s.thr i (.look x) i = _
        rw [wr_same]
      · rcases P.owed x hx hpx with h | ⟨j, h⟩
        · refine Or.inl ?_
          show 0 < wr s.h.pend u (s.h.pend u - 1) x
          rw [wr_other _ _ hxu]; exact h
        · refine Or.inr ⟨j, ?_⟩
          show wr s.thr i (.look u) j = _ ∨ wr s.thr i (.look u) j = .tryC (s.h.par x) x
          rw [pc_wr hon j x _ h]; exact h
  · intro j
    show ThrOK s0 mx (s.h.unregister u v st sp) s.ref _ (wr s.thr i (.look u) j)
    rcases wr_cases s.thr i (.look u) j with ⟨h1, h2⟩ | ⟨h1, h2⟩
    · rw [h2]; exact hlu
    · rw [h2]
      refine (hI.thr j).stable ?_ ?_
      · intro a x hx
        have hxv := hI.other hon hx h1
        have hr' := (hI.thr j).run hx
        have hxu : x ≠ u := by rintro rfl; have := hr'.en; rw [eu] at this; cases this
        exact ⟨rfl, rfl, wr_other _ _ hxv, wr_other _ _ hxu, rfl, rfl, rfl, rfl, fun _ => ⟨rfl, rfl⟩, fun _ => rfl⟩
      · intro a x _ _ h; exact h

end Dyn
end Verif
