import Verif.Lemmas.Dyn4
/-! Lemmas: `restoreIncidentNets`, `contract`, `uncontract` -/
namespace Verif
namespace Dyn
open SMap (wr)

variable {nx pv nx' pv' : Nat → Nat} {s s' : INA} {u v : Nat} {r t : List Nat}

/-- What `restoreIncidentNets` changes: size and version of the arrays of the nodes in the list and
the degree of its head, apart from the links between non-empty lists. -/
structure Restored (s : INA) (u : Nat) (l : List Nat) (s' : INA) : Prop where
  nEq : s'.n = s.n
  nx : s'.nx = s.nx
  pv : s'.pv = s.pv
  tl : s'.tl = s.tl
  hd : s'.hd = s.hd
  ent : s'.ent = s.ent
  szIn : ∀ x ∈ l, s'.sz x = s.sz x + (s.again x).length
  vrIn : ∀ x ∈ l, s'.vr x = s.vr x - 1
  szOut : ∀ x, x ∉ l → s'.sz x = s.sz x
  vrOut : ∀ x, x ∉ l → s'.vr x = s.vr x
  dgIn : s'.dg u = s.dg u + ((l.map (fun x => ((s.again x).length : Int))).sum)
  dgOut : ∀ x, x ≠ u → s'.dg x = s.dg x

/-- a path without its last link -/
def Chain (nx pv : Nat → Nat) (a : Nat) (l : List Nat) : Prop := ∀ l' x, l = l' ++ [x] → Path nx pv a l' x

theorem Chain.nil (a : Nat) : Chain nx pv a [] := by
  intro l' x h; simp at h

theorem Chain.path {a c : Nat} {l : List Nat} (h : Chain nx pv a l) (h1 : nx (lastOf a l) = c) (h2 : pv c = lastOf a l) :
    Path nx pv a l c := by
  rcases List.eq_nil_or_concat l with h0 | ⟨l', x, h0⟩
  · subst h0; exact ⟨h1, h2⟩
  · have h0' : l = l' ++ [x] := by simpa using h0
    subst h0'
    rw [lastOf_append] at h1 h2
    rw [Path.snoc_iff]
    exact ⟨h l' x rfl, h1, h2⟩

theorem Path.chain {a c : Nat} {l : List Nat} (h : Path nx pv a l c) : Chain nx pv a (l ++ [c]) := by
  intro l' x he
  have := List.append_inj' he rfl
  obtain ⟨rfl, h2⟩ := this
  simp only [List.cons.injEq, and_true] at h2
  rw [← h2]; exact h

theorem Chain.congr {a : Nat} {l : List Nat} (h : Chain nx pv a l) (h1 : ∀ x ∈ a :: l, x ≠ lastOf a l → nx' x = nx x)
    (h2 : ∀ x ∈ l, pv' x = pv x) (hnd : (a :: l).Nodup) : Chain nx' pv' a l := by
  intro l' x he
  subst he
  rw [lastOf_append] at h1
  refine (h l' x rfl).congr ?_ h2
  intro y hy
  refine h1 y ?_ ?_
  · rw [← List.cons_append]; exact List.mem_append_left _ hy
  · rintro rfl
    rw [← List.cons_append, List.nodup_append] at hnd
    exact hnd.2.2 y hy y (by simp [lastOf_nil]) rfl

/-- state of the loop of `restoreIncidentNets` after the nodes `u :: p` were processed -/
structure RestInv (s : INA) (u : Nat) (p : List Nat) (s0 : INA) : Prop where
  res : Restored s u (u :: p) s0
  chain : Chain s0.inx s0.ipv u (p.filter (fun x => decide (s0.sz x ≠ 0)))
  inxSame : ∀ x, x ∉ u :: p ∨ x = lastOf u (p.filter (fun x => decide (s0.sz x ≠ 0))) ∨ (s0.sz x = 0 ∧ x ≠ u) → s0.inx x = s.inx x
  ipvSame : ∀ x, x ∉ p ∨ s0.sz x = 0 → s0.ipv x = s.ipv x

theorem restArr_again (s0 : INA) (u c : Nat) : (s0.restArr u c).sz c = s0.sz c + (s0.again c).length := by
  show wr s0.sz c _ c = _
  rw [wr_same]

/-- one more node -/
theorem RestInv.step {p q : List Nat} {c : Nat} {s0 : INA} (hP : Part s u r) (hr : r = p ++ c :: q) (h : RestInv s u p s0) :
    ∃ l, RestInv s u (p ++ [c]) ((s0.restArr u c).relink u c (some (lastOf u (p.filter (fun x => decide (s0.sz x ≠ 0)))))).1 ∧
    ((s0.restArr u c).relink u c (some (lastOf u (p.filter (fun x => decide (s0.sz x ≠ 0)))))).2 = some l ∧
    l = lastOf u ((p ++ [c]).filter (fun x => decide
      (((s0.restArr u c).relink u c (some (lastOf u (p.filter (fun x => decide (s0.sz x ≠ 0)))))).1.sz x ≠ 0))) := by
  have hnd := hP.nodup
  rw [hr] at hnd
  have hcp : c ∉ u :: p := by
    intro hh
    rw [← List.cons_append, List.nodup_append] at hnd
    exact hnd.2.2 c hh c (by simp) rfl
  have hcu : c ≠ u := by rintro rfl; exact hcp (by simp)
  have hcp' : c ∉ p := fun hh => hcp (List.mem_cons_of_mem _ hh)
  have hupn : (u :: p).Nodup := by
    rw [← List.cons_append] at hnd
    exact (List.nodup_append.1 hnd).1
  have hR := h.res
  have hag : s0.again c = s.again c := by
    unfold INA.again; rw [hR.ent, hR.szOut c hcp, hR.vrOut c hcp]
  set l := lastOf u (p.filter (fun x => decide (s0.sz x ≠ 0))) with hl
  -- fields
  have key : ∀ s1 : INA, s1.n = s0.n → s1.nx = s0.nx → s1.pv = s0.pv → s1.tl = s0.tl → s1.hd = s0.hd → s1.ent = s0.ent →
      s1.sz = wr s0.sz c (s0.sz c + (s0.again c).length) → s1.vr = wr s0.vr c (s0.vr c - 1) →
      s1.dg = wr s0.dg u (s0.dg u + (s0.again c).length) → Restored s u (u :: (p ++ [c])) s1 := by
    intro s1 e1 e2 e3 e4 e5 e6 e7 e8 e9
    refine ⟨by rw [e1, hR.nEq], by rw [e2, hR.nx], by rw [e3, hR.pv], by rw [e4, hR.tl], by rw [e5, hR.hd], by rw [e6, hR.ent], ?_, ?_, ?_, ?_, ?_, ?_⟩
    · intro x hx
      rw [e7]
      by_cases hxc : x = c
      · rw [hxc, wr_same, hag, hR.szOut c hcp]
      · rw [wr_other _ _ hxc]
        refine hR.szIn x ?_
        rw [← List.cons_append, List.mem_append, List.mem_singleton] at hx
        exact hx.resolve_right hxc
    · intro x hx
      rw [e8]
      by_cases hxc : x = c
      · rw [hxc, wr_same, hR.vrOut c hcp]
      · rw [wr_other _ _ hxc]
        refine hR.vrIn x ?_
        rw [← List.cons_append, List.mem_append, List.mem_singleton] at hx
        exact hx.resolve_right hxc
    · intro x hx
      rw [← List.cons_append, List.mem_append, List.mem_singleton] at hx
      push Not at hx
      rw [e7, wr_other _ _ hx.2]; exact hR.szOut x hx.1
    · intro x hx
      rw [← List.cons_append, List.mem_append, List.mem_singleton] at hx
      push Not at hx
      rw [e8, wr_other _ _ hx.2]; exact hR.vrOut x hx.1
    · rw [e9, wr_same, hR.dgIn, hag, ← List.cons_append, List.map_append, List.sum_append]
      simp only [List.map_cons, List.map_nil, List.sum_cons, List.sum_nil]
      omega
    · intro x hx
      rw [e9, wr_other _ _ hx]; exact hR.dgOut x hx
  have filtp : ∀ g : Nat → Nat, (∀ x, x ≠ c → g x = s0.sz x) →
      p.filter (fun x => decide (g x ≠ 0)) = p.filter (fun x => decide (s0.sz x ≠ 0)) := by
    intro g hg
    refine List.filter_congr ?_
    intro x hx
    rw [hg x (by rintro rfl; exact hcp' hx)]
  have hlm : l ∈ u :: p := (List.filter_sublist.cons_cons u).subset (lastOf_mem u (p.filter (fun x => decide (s0.sz x ≠ 0))))
  have hlc : l ≠ c := by intro hh; rw [hh] at hlm; exact hcp hlm
  have hlnz : l = u ∨ s0.sz l ≠ 0 := by
    have := lastOf_mem u (p.filter (fun x => decide (s0.sz x ≠ 0)))
    rw [← hl, List.mem_cons, List.mem_filter] at this
    rcases this with h | ⟨_, h⟩
    · exact Or.inl h
    · right; simpa using h
  by_cases hz : s0.sz c + (s0.again c).length > 0
  · -- the list of `c` is not empty
    have hrel : ∃ s1 : INA, (s0.restArr u c).relink u c (some l) = (s1, some c) ∧
        s1.n = s0.n ∧ s1.nx = s0.nx ∧ s1.pv = s0.pv ∧ s1.tl = s0.tl ∧ s1.hd = s0.hd ∧ s1.ent = s0.ent ∧
        s1.sz = wr s0.sz c (s0.sz c + (s0.again c).length) ∧ s1.vr = wr s0.vr c (s0.vr c - 1) ∧
        s1.dg = wr s0.dg u (s0.dg u + (s0.again c).length) ∧ s1.inx = wr s0.inx l c ∧ s1.ipv = wr s0.ipv c l := by
      unfold INA.relink
      rw [if_pos (Or.inl (by rw [restArr_again]; exact hz))]
      by_cases hip : s0.ipv c = l
      · refine ⟨s0.restArr u c, ?_, rfl, rfl, rfl, rfl, rfl, rfl, rfl, rfl, rfl, ?_, ?_⟩
        · simp only []
          rw [if_neg]
          show ¬ (s0.ipv c ≠ l)
          simpa using hip
        · funext x
          show s0.inx x = _
          by_cases hx : x = l
          · rw [hx, wr_same, h.inxSame l (Or.inr (Or.inl hl))]
            refine hP.link c (by rw [hr]; simp) l ?_ ?_
            · rw [hr, ← List.cons_append]; exact List.mem_append_left _ hlm
            · rw [← h.ipvSame c (Or.inl hcp')]; exact hip
          · rw [wr_other _ _ hx]
        · funext x
          show s0.ipv x = _
          by_cases hx : x = c
          · rw [hx, wr_same]; exact hip
          · rw [wr_other _ _ hx]
      · refine ⟨{ s0.restArr u c with inx := wr (s0.restArr u c).inx l c, ipv := wr (s0.restArr u c).ipv c l }, ?_,
          rfl, rfl, rfl, rfl, rfl, rfl, rfl, rfl, rfl, rfl, rfl⟩
        simp only []
        rw [if_pos (show (s0.restArr u c).ipv c ≠ l from hip)]
    obtain ⟨s1, e0, e1, e2, e3, e4, e5, e6, e7, e8, e9, e10, e11⟩ := hrel
    rw [e0]
    have hszo : ∀ x, x ≠ c → s1.sz x = s0.sz x := by intro x hx; rw [e7, wr_other _ _ hx]
    have hszc : s1.sz c ≠ 0 := by rw [e7, wr_same]; omega
    have hfil : (p ++ [c]).filter (fun x => decide (s1.sz x ≠ 0)) = p.filter (fun x => decide (s0.sz x ≠ 0)) ++ [c] := by
      rw [List.filter_append, filtp s1.sz hszo, List.filter_singleton]
      simp [hszc]
    refine ⟨c, ⟨key s1 e1 e2 e3 e4 e5 e6 e7 e8 e9, ?_, ?_, ?_⟩, rfl, ?_⟩
    · rw [hfil]
      refine Path.chain (Chain.path ?_ ?_ ?_)
      · refine h.chain.congr ?_ ?_ ?_
        · intro x _ hxl
          rw [e10, wr_other _ _ hxl]
        · intro x hx
          rw [e11, wr_other]
          rintro rfl
          exact hcp' (List.mem_filter.1 hx).1
        · exact (List.filter_sublist.cons_cons u).nodup hupn
      · rw [e10, ← hl, wr_same]
      · rw [e11, ← hl, wr_same]
    · intro x hx
      rw [hfil, lastOf_append, lastOf_nil] at hx
      have hxl : x ≠ l := by
        rintro hxl
        rcases hx with hx | hx | hx
        · rw [hxl] at hx
          exact hx (by rw [← List.cons_append]; exact List.mem_append_left _ hlm)
        · exact hlc (hxl ▸ hx)
        · rw [hxl] at hx
          rw [hszo l hlc] at hx
          rcases hlnz with h' | h'
          · exact hx.2 h'
          · exact h' hx.1
      rw [e10, wr_other _ _ hxl]
      refine h.inxSame x ?_
      rcases hx with hx | hx | hx
      · left
        intro hh
        exact hx (by rw [← List.cons_append]; exact List.mem_append_left _ hh)
      · left
        rw [hx]; exact hcp
      · by_cases hxc : x = c
        · left; rw [hxc]; exact hcp
        · rw [hszo x hxc] at hx
          exact Or.inr (Or.inr hx)
    · intro x hx
      have hxc : x ≠ c := by
        rintro rfl
        rcases hx with hx | hx
        · exact hx (by simp)
        · exact hszc hx
      rw [e11, wr_other _ _ hxc]
      refine h.ipvSame x ?_
      rcases hx with hx | hx
      · left
        intro hh; exact hx (by simp [hh])
      · right; rw [← hszo x hxc]; exact hx
    · rw [hfil, lastOf_append, lastOf_nil]
  · -- the list of `c` stays empty
    have hz0 : s0.sz c + (s0.again c).length = 0 := by omega
    have e0 : (s0.restArr u c).relink u c (some l) = (s0.restArr u c, some l) := by
      unfold INA.relink
      rw [if_neg]
      rw [restArr_again]
      simp [hz0, hcu]
    rw [e0]
    have e7 : (s0.restArr u c).sz = wr s0.sz c (s0.sz c + (s0.again c).length) := rfl
    have hszo : ∀ x, x ≠ c → (s0.restArr u c).sz x = s0.sz x := by intro x hx; rw [e7, wr_other _ _ hx]
    have hszc : (s0.restArr u c).sz c = 0 := by rw [e7, wr_same]; exact hz0
    have hfil : (p ++ [c]).filter (fun x => decide ((s0.restArr u c).sz x ≠ 0)) = p.filter (fun x => decide (s0.sz x ≠ 0)) := by
      rw [List.filter_append, filtp _ hszo, List.filter_singleton]
      simp [hszc]
    refine ⟨l, ⟨key _ rfl rfl rfl rfl rfl rfl rfl rfl rfl, ?_, ?_, ?_⟩, rfl, ?_⟩
    · rw [hfil]; exact h.chain
    · intro x hx
      rw [hfil] at hx
      show s0.inx x = _
      refine h.inxSame x ?_
      rcases hx with hx | hx | hx
      · left
        intro hh
        exact hx (by rw [← List.cons_append]; exact List.mem_append_left _ hh)
      · exact Or.inr (Or.inl hx)
      · by_cases hxc : x = c
        · left; rw [hxc]; exact hcp
        · rw [hszo x hxc] at hx
          exact Or.inr (Or.inr hx)
    · intro x hx
      show s0.ipv x = _
      refine h.ipvSame x ?_
      by_cases hxc : x = c
      · left; rw [hxc]; exact hcp'
      · rcases hx with hx | hx
        · left
          intro hh; exact hx (by simp [hh])
        · right; rw [← hszo x hxc]; exact hx
    · rw [hfil]

theorem relink_fields (s0 : INA) (u c : Nat) (l : Option Nat) :
    (s0.relink u c l).1.nx = s0.nx ∧ (s0.relink u c l).1.sz = s0.sz := by
  unfold INA.relink
  split
  · split
    · exact ⟨rfl, rfl⟩
    · split <;> exact ⟨rfl, rfl⟩
  · exact ⟨rfl, rfl⟩

theorem restLoop_spec (hP : Part s u r) : ∀ (q : List Nat) (k c : Nat) (p : List Nat) (s0 : INA),
    r = p ++ c :: q → q.length < k → RestInv s u p s0 →
    ∃ s' l, INA.restLoop u k c (some (lastOf u (p.filter (fun x => decide (s0.sz x ≠ 0))))) s0 =
      some (s', some l, (c :: q).flatMap s.calls) ∧ RestInv s u r s' ∧ l = lastOf u (r.filter (fun x => decide (s'.sz x ≠ 0))) := by
  intro q
  induction q with
  | nil =>
    intro k c p s0 hr hk h
    match k, hk with
    | k + 1, _ =>
      obtain ⟨l, h1, h2, h3⟩ := h.step hP hr
      have hcp : c ∉ u :: p := by
        have hnd := hP.nodup
        intro hh
        rw [hr, ← List.cons_append, List.nodup_append] at hnd
        exact hnd.2.2 c hh c (by simp) rfl
      have hcalls : s0.calls c = s.calls c := by
        unfold INA.calls INA.active INA.again
        rw [h.res.ent, h.res.szOut c hcp, h.res.vrOut c hcp]
      rw [← hr] at h1 h3
      refine ⟨_, l, ?_, h1, h3⟩
      unfold INA.restLoop
      dsimp only
      rw [if_pos, h2, hcalls]
      · simp
      · rw [(relink_fields _ _ _ _).1]
        show s0.nx c = u
        rw [h.res.nx]
        have := hP.ring.last.1
        rwa [hr, lastOf_append, lastOf_nil] at this
  | cons d q ih =>
    intro k c p s0 hr hk h
    match k, hk with
    | k + 1, hk =>
      obtain ⟨l, h1, h2, h3⟩ := h.step hP hr
      have hnd := hP.nodup
      have hcp : c ∉ u :: p := by
        intro hh
        rw [hr, ← List.cons_append, List.nodup_append] at hnd
        exact hnd.2.2 c hh c (by simp) rfl
      have hcalls : s0.calls c = s.calls c := by
        unfold INA.calls INA.active INA.again
        rw [h.res.ent, h.res.szOut c hcp, h.res.vrOut c hcp]
      have hr' : r = (p ++ [c]) ++ d :: q := by rw [hr]; simp
      obtain ⟨s', l', g1, g2, g3⟩ := ih k d (p ++ [c]) _ hr' (by simp at hk; omega) h1
      refine ⟨s', l', ?_, g2, g3⟩
      have hnx : s0.nx c = d := by
        rw [h.res.nx]
        have hring := hP.ring
        rw [hr, Path.append_iff] at hring
        exact hring.2.1
      have hdu : d ≠ u := by
        rintro rfl
        rw [hr] at hnd
        exact (List.nodup_cons.1 hnd).1 (by simp)
      rw [← h3] at g1
      unfold INA.restLoop
      dsimp only
      rw [if_neg, h2]
      · rw [(relink_fields _ _ _ _).1]
        show (match INA.restLoop u k (s0.nx c) (some l) _ with
          | none => none
          | some q => some (q.1, q.2.1, s0.calls c ++ q.2.2)) = _
        rw [hnx, g1, hcalls]
        rfl
      · rw [(relink_fields _ _ _ _).1]
        show ¬ s0.nx c = u
        rw [hnx]; exact hdu

/-- `restoreIncidentNets` -/
theorem Part.restoreNets (hP : Part s u r) (hn : r.length ≤ s.n) :
    ∃ s', s.restoreNets u = some (s', (u :: r).flatMap s.calls) ∧ RingRep s' u r ∧ Restored s u (u :: r) s' ∧
      ∀ x, x ∉ u :: r → s'.inx x = s.inx x ∧ s'.ipv x = s.ipv x := by
  have hur : u ∉ r := (List.nodup_cons.1 hP.nodup).1
  -- after the first node
  have h0 : RestInv s u [] (s.restArr u u) := by
    have e7 : (s.restArr u u).sz = wr s.sz u (s.sz u + (s.again u).length) := rfl
    refine ⟨⟨rfl, rfl, rfl, rfl, rfl, rfl, ?_, ?_, ?_, ?_, ?_, ?_⟩, Chain.nil _, fun _ _ => rfl, fun _ _ => rfl⟩
    · intro x hx
      rw [List.mem_singleton] at hx
      rw [hx]; exact restArr_again s u u
    · intro x hx
      rw [List.mem_singleton] at hx
      rw [hx]
      show wr s.vr u (s.vr u - 1) u = _
      rw [wr_same]
    · intro x hx
      rw [List.mem_singleton] at hx
      rw [e7, wr_other _ _ hx]
    · intro x hx
      rw [List.mem_singleton] at hx
      show wr s.vr u (s.vr u - 1) x = _
      rw [wr_other _ _ hx]
    · show wr s.dg u (s.dg u + (s.again u).length) u = _
      rw [wr_same]; simp
    · intro x hx
      show wr s.dg u (s.dg u + (s.again u).length) x = _
      rw [wr_other _ _ hx]
  have hrel : (s.restArr u u).relink u u none = (s.restArr u u, some u) := by
    unfold INA.relink
    rw [if_pos (Or.inr rfl)]
  have hloop : ∃ s1 l, INA.restLoop u (s.n + 1) u none s = some (s1, some l, (u :: r).flatMap s.calls) ∧ RestInv s u r s1 ∧
      l = lastOf u (r.filter (fun x => decide (s1.sz x ≠ 0))) := by
    cases r with
    | nil =>
      refine ⟨s.restArr u u, u, ?_, h0, rfl⟩
      unfold INA.restLoop
      dsimp only
      rw [hrel, if_pos]
      · simp
      · exact hP.ring.1
    | cons c q =>
      obtain ⟨s1, l, g1, g2, g3⟩ := restLoop_spec hP q s.n c [] (s.restArr u u) rfl (by simp at hn; omega) h0
      refine ⟨s1, l, ?_, g2, g3⟩
      have hcu : c ≠ u := by rintro rfl; exact hur (by simp)
      have hnx : s.nx u = c := hP.ring.1
      unfold INA.restLoop
      dsimp only
      rw [hrel, if_neg]
      · show (match INA.restLoop u s.n (s.nx u) (some u) (s.restArr u u) with
          | none => none
          | some q => some (q.1, q.2.1, s.calls u ++ q.2.2)) = _
        rw [hnx]
        rw [show (some (lastOf u (List.filter (fun x => decide ((s.restArr u u).sz x ≠ 0)) []))) = some u from rfl] at g1
        rw [g1]
        rfl
      · show ¬ s.nx u = u
        rw [hnx]; exact hcu
  obtain ⟨s1, l, g1, g2, g3⟩ := hloop
  have hR := g2.res
  have hlm : l ∈ u :: r := by
    rw [g3]; exact (List.filter_sublist.cons_cons u).subset (lastOf_mem u _)
  have hndf : (u :: r.filter (fun x => decide (s1.sz x ≠ 0))).Nodup := (List.filter_sublist.cons_cons u).nodup hP.nodup
  refine ⟨{ s1 with ipv := wr s1.ipv u l, inx := wr s1.inx l u }, ?_, ?_, ?_, ?_⟩
  · unfold INA.restoreNets
    rw [g1]
  · refine ⟨hP.nodup, ?_, ?_, ?_, ?_, ?_⟩
    · show Path s1.nx s1.pv u r u
      rw [hR.nx, hR.pv]; exact hP.ring
    · show Path (wr s1.inx l u) (wr s1.ipv u l) u (r.filter (fun x => decide (s1.sz x ≠ 0))) u
      refine Chain.path (g2.chain.congr ?_ ?_ hndf) ?_ ?_
      · intro x _ hx
        rw [wr_other]
        rw [g3]; exact hx
      · intro x hx
        rw [wr_other]
        rintro rfl
        exact (List.nodup_cons.1 hndf).1 hx
      · rw [← g3, wr_same]
      · rw [← g3, wr_same]
    · show s1.hd u = true
      rw [hR.hd]; exact hP.head
    · show ∀ x ∈ r, s1.hd x = false
      rw [hR.hd]; exact hP.inner
    · intro x hx hx0
      have hx0' : s1.sz x = 0 := hx0
      have hxu : x ≠ u := by rintro rfl; exact hur hx
      have hxl : x ≠ l := by
        intro hh
        have := lastOf_mem u (r.filter (fun x => decide (s1.sz x ≠ 0)))
        rw [← g3, ← hh, List.mem_cons, List.mem_filter] at this
        rcases this with h | ⟨_, h⟩
        · exact hxu h
        · simp [hx0'] at h
      show wr s1.inx l u x = x ∧ wr s1.ipv u l x = x
      rw [wr_other _ _ hxl, wr_other _ _ hxu, g2.inxSame x (Or.inr (Or.inr ⟨hx0', hxu⟩)), g2.ipvSame x (Or.inr hx0')]
      refine hP.empty x hx ?_
      have := hR.szIn x (List.mem_cons_of_mem _ hx)
      omega
  · exact ⟨hR.nEq, hR.nx, hR.pv, hR.tl, hR.hd, hR.ent, hR.szIn, hR.vrIn, hR.szOut, hR.vrOut, hR.dgIn, hR.dgOut⟩
  · intro x hx
    have hxu : x ≠ u := fun h => hx (by rw [h]; simp)
    have hxl : x ≠ l := fun h => hx (by rw [h]; exact hlm)
    show wr s1.inx l u x = _ ∧ wr s1.ipv u l x = _
    rw [wr_other _ _ hxl, wr_other _ _ hxu]
    exact ⟨g2.inxSame x (Or.inl hx), g2.ipvSame x (Or.inl (fun h => hx (List.mem_cons_of_mem _ h)))⟩

end Dyn
end Verif
