import Verif.Lemmas.TW3
/-! # 2-way FM: neighbours after a move -/
namespace Verif
namespace TwoWay
open DFlow (set set_same set_other set_apply)

variable {ι : Type} {c : Cfg ι}

/-- loose and locked hyperedges have moved pins -/
structure HsOK (H : HG) (Φ : Assign) (vs : Nat → VS) (hs : Nat → HS) (P : Nat → Prop) : Prop where
  loose : ∀ e ∈ H.edges, ∀ b, hs e = .loose b → ∃ x ∈ H.pins e, P x ∧ vs x = .moved ∧ Φ x = some b
  locked : ∀ e ∈ H.edges, hs e = .locked → ∀ b < 2, ∃ x ∈ H.pins e, P x ∧ vs x = .moved ∧ Φ x = some b

/-- invariant of `updateNeighbors` -/
structure KInv (H : HG) (Φ Φ' : Assign) (s : St) (D : List Nat) (t : St) : Prop where
  part : t.Φ = Φ'
  vs : t.vs = s.vs
  nc : t.nc = s.nc
  en : t.en = s.en
  act : t.act = s.act
  rem : t.rem = s.rem
  yes : ∀ v ∈ H.nodes, s.vs v = .active → ∀ b, Φ v = some b → t.pq (1 - b) v = some (gsum H (mix Φ Φ' D) v b)
  no : ∀ v p, ¬ (v ∈ H.nodes ∧ s.vs v = .active ∧ Φ v = some (1 - p) ∧ p < 2) → t.pq p v = none
  hsD : ∀ e, e ∉ D → t.hs e = s.hs e
  hs : HsOK H Φ' s.vs t.hs (fun _ => True)

theorem HsOK.put {H : HG} {Φ : Assign} {vs : Nat → VS} {hs : Nat → HS} {hn b : Nat} (h : HsOK H Φ vs hs (fun x => x ≠ hn)) :
    HsOK H (Φ.put hn b) vs hs (fun _ => True) where
  loose := by
    intro e he a ha
    obtain ⟨x, h1, h2, h3, h4⟩ := h.loose e he a ha
    exact ⟨x, h1, trivial, h3, by rw [Assign.put_other _ h2]; exact h4⟩
  locked := by
    intro e he ha b hb
    obtain ⟨x, h1, h2, h3, h4⟩ := h.locked e he ha b hb
    exact ⟨x, h1, trivial, h3, by rw [Assign.put_other _ h2]; exact h4⟩

theorem edge_step {Φ : Assign} {hn src : Nat} (hM : Mov c.H Φ hn src) {s t : St} {D : List Nat} (hsv : s.vs hn = .moved)
    (hH : HsOK c.H Φ s.vs s.hs (fun x => x ≠ hn)) (h : KInv c.H Φ (Φ.put hn (1 - src)) s D t) {e : Nat} (he : e ∈ c.H.inc hn) (hD : e ∉ D) :
    KInv c.H Φ (Φ.put hn (1 - src)) s (D ++ [e]) (updateEdge c src (1 - src) t e) := by
  obtain ⟨he', hp⟩ := (hM.wf.inc_iff hn hM.mem e).1 he
  have hlt := hM.lt
  have hgs := fun v b (hv : v ∈ c.H.nodes) => gsum_snoc (b := b) (Φ := Φ) (Φ' := Φ.put hn (1 - src)) hM.wf hv he' hD
  have hhs := h.hsD e hD
  -- nothing changes
  have same : (∀ v ∈ c.H.pins e, s.vs v = .active → ∀ b, Φ v = some b → contrib c.H (Φ.put hn (1 - src)) b (1 - b) e = contrib c.H Φ b (1 - b) e) →
      KInv c.H Φ (Φ.put hn (1 - src)) s (D ++ [e]) t := by
    intro hh
    refine ⟨h.part, h.vs, h.nc, h.en, h.act, h.rem, ?_, h.no, fun x hx => h.hsD x (fun y => hx (List.mem_append_left _ y)), h.hs⟩
    intro v hv ha b hb
    rw [h.yes v hv ha b hb, hgs v b hv]
    by_cases hve : v ∈ c.H.pins e
    · rw [if_pos hve, hh v hve ha b hb]; simp
    · rw [if_neg hve]; simp
  unfold updateEdge
  by_cases hl : (c.H.pins e).length > 1 ∧ t.hs e ≠ .locked
  swap
  · rw [if_neg hl]
    apply same
    intro v hve ha b hb
    by_cases hlen : (c.H.pins e).length > 1
    · have hlk : t.hs e = .locked := by
        by_contra hh; exact hl ⟨hlen, hh⟩
      rw [hhs] at hlk
      have hb2 : b < 2 := hM.two.lt (hM.wf.pins_mem e he' v hve) hb
      obtain ⟨x, x1, x2, x3, x4⟩ := hH.locked e he' hlk b hb2
      obtain ⟨y, y1, y2, y3, y4⟩ := hH.locked e he' hlk (1 - b) (by omega)
      have hvx : v ≠ x := by rintro rfl; rw [x3] at ha; cases ha
      have hvn : v ≠ hn := by rintro rfl; rw [hsv] at ha; cases ha
      rw [contrib_zero hve x1 y1 hvx hb x4 y4, contrib_zero hve x1 y1 hvx (by rw [Assign.put_other _ hvn]; exact hb)
        (by rw [Assign.put_other _ x2]; exact x4) (by rw [Assign.put_other _ y2]; exact y4)]
    · unfold contrib; rw [if_neg hlen, if_neg hlen]
  rw [if_pos hl]
  obtain ⟨δ, hB, hδ⟩ := delta_spec hM h.part he hl.1
  -- the keys
  have key : ∀ hs' : Nat → HS, (∀ x, x ≠ e → hs' x = t.hs x) → HsOK c.H (Φ.put hn (1 - src)) s.vs hs' (fun _ => True) →
      KInv c.H Φ (Φ.put hn (1 - src)) s (D ++ [e]) { deltaGainUpdate c t e src (1 - src) with hs := hs' } := by
    intro hs' h1 h2
    refine ⟨hB.Φ.trans h.part, hB.vs.trans h.vs, hB.nc.trans h.nc, hB.en.trans h.en, hB.act.trans h.act, hB.rem.trans h.rem, ?_, ?_, ?_, h2⟩
    · intro v hv ha b hb
      have hvn : v ≠ hn := by rintro rfl; rw [hsv] at ha; cases ha
      rw [hgs v b hv]
      show (deltaGainUpdate c t e src (1 - src)).pq (1 - b) v = _
      by_cases hve : v ∈ c.H.pins e
      · rw [hB.yes (1 - b) v hve (by rw [h.vs]; exact ha) (by rw [h.part, Assign.put_other _ hvn, hb]; rfl), h.yes v hv ha b hb, if_pos hve, ← hδ v hve hvn b hb]
        rfl
      · rw [hB.no (1 - b) v (fun x => hve x.1), h.yes v hv ha b hb, if_neg hve]; simp
    · intro v p hno
      show (deltaGainUpdate c t e src (1 - src)).pq p v = _
      by_cases hx : v ∈ c.H.pins e ∧ t.vs v = .active ∧ (t.Φ v).map (1 - ·) = some p
      · rw [hB.yes p v hx.1 hx.2.1 hx.2.2, h.no v p hno]; rfl
      · rw [hB.no p v hx]; exact h.no v p hno
    · intro x hx
      have hxe : x ≠ e := fun y => hx (by simp [y])
      show hs' x = _
      rw [h1 x hxe]; exact h.hsD x (fun y => hx (List.mem_append_left _ y))
  have hme : (Φ.put hn (1 - src)) hn = some (1 - src) := Assign.put_same _ _ _
  dsimp only
  rw [hB.hs]
  by_cases h1 : t.hs e = .free
  · rw [if_pos h1]
    refine key _ (fun x hx => set_other _ _ hx) ⟨?_, ?_⟩
    · intro x hx b hb
      rw [set_apply] at hb
      by_cases hxe : x = e
      · rw [if_pos hxe] at hb
        cases hb
        subst hxe
        exact ⟨hn, hp, trivial, hsv, hme⟩
      · rw [if_neg hxe] at hb; exact h.hs.loose x hx b hb
    · intro x hx hb
      rw [set_apply] at hb
      by_cases hxe : x = e
      · rw [if_pos hxe] at hb; cases hb
      · rw [if_neg hxe] at hb; exact h.hs.locked x hx hb
  rw [if_neg h1]
  by_cases h2 : t.hs e = .loose src
  · rw [if_pos h2]
    refine key _ (fun x hx => set_other _ _ hx) ⟨?_, ?_⟩
    · intro x hx b hb
      rw [set_apply] at hb
      by_cases hxe : x = e
      · rw [if_pos hxe] at hb; cases hb
      · rw [if_neg hxe] at hb; exact h.hs.loose x hx b hb
    · intro x hx hb b hb2
      rw [set_apply] at hb
      by_cases hxe : x = e
      · subst hxe
        by_cases hbs : b = src
        · obtain ⟨y, y1, y2⟩ := h.hs.loose x hx src h2
          exact ⟨y, y1, by rw [hbs]; exact y2⟩
        · have : b = 1 - src := by omega
          exact ⟨hn, hp, trivial, hsv, by rw [this]; exact hme⟩
      · rw [if_neg hxe] at hb; exact h.hs.locked x hx hb b hb2
  · rw [if_neg h2]
    exact key t.hs (fun _ _ => rfl) h.hs |> fun k => by
      have : ({ deltaGainUpdate c t e src (1 - src) with hs := t.hs } : St) = deltaGainUpdate c t e src (1 - src) := by
        rw [← hB.hs]
      rw [this] at k; exact k

theorem edge_fold {Φ : Assign} {hn src : Nat} (hM : Mov c.H Φ hn src) {s : St} (hsv : s.vs hn = .moved) (hH : HsOK c.H Φ s.vs s.hs (fun x => x ≠ hn)) :
    ∀ (l : List Nat) (D : List Nat) (t : St), (D ++ l).Nodup → (∀ e ∈ l, e ∈ c.H.inc hn) → KInv c.H Φ (Φ.put hn (1 - src)) s D t →
    KInv c.H Φ (Φ.put hn (1 - src)) s (D ++ l) (l.foldl (updateEdge c src (1 - src)) t) := by
  intro l
  induction l with
  | nil => intro D t _ _ h; simpa using h
  | cons e l ih =>
    intro D t hnd hl h
    have hD : e ∉ D := by
      intro hh
      exact (List.disjoint_of_nodup_append hnd) hh (by simp)
    have := ih (D ++ [e]) _ (by simpa using hnd) (fun x hx => hl x (List.mem_cons_of_mem _ hx)) (edge_step hM hsv hH h (hl e (by simp)) hD)
    rw [List.foldl_cons]
    simpa using this

/-! ### The queue -/

/-- the queue contains exactly the active nodes of `D`, with their gains -/
structure PQok (H : HG) (D : Nat → Prop) (s : St) : Prop where
  yes : ∀ v p, D v → s.vs v = .active → s.Φ v = some (1 - p) → p < 2 → s.pq p v = some (computeGain H s.Φ v (1 - p) p)
  no : ∀ v p, ¬ (D v ∧ s.vs v = .active ∧ s.Φ v = some (1 - p) ∧ p < 2) → s.pq p v = none

/-- the enabled blocks are those that have entries and are not full -/
def ENok (c : Cfg ι) (s : St) : Prop := ∀ p, s.en p = true ↔ p < 2 ∧ nonempty c s p = true ∧ wt c s p < c.mx p

theorem nonempty_congr {s t : St} {p : Nat} (h : s.pq p = t.pq p) : nonempty c s p = nonempty c t p := by unfold nonempty; rw [h]

theorem pqRemove_spec (s : St) {p v : Nat} (hE : ENok c s) (hp : p < 2) : ENok c (pqRemove c s p v) ∧ (pqRemove c s p v).Φ = s.Φ ∧ (pqRemove c s p v).vs = s.vs ∧
    (pqRemove c s p v).hs = s.hs ∧ (pqRemove c s p v).nc = s.nc ∧ (pqRemove c s p v).act = s.act ∧ (pqRemove c s p v).rem = s.rem ∧
    ∀ q u, (pqRemove c s p v).pq q u = if q = p ∧ u = v then none else s.pq q u := by
  have hpq : ∀ q u, set s.pq p (set (s.pq p) v none) q u = if q = p ∧ u = v then none else s.pq q u := by
    intro q u
    rw [set_apply]
    by_cases hq : q = p
    · rw [if_pos hq, set_apply]
      by_cases hu : u = v
      · rw [if_pos hu, if_pos ⟨hq, hu⟩]
      · rw [if_neg hu, if_neg (fun x => hu x.2), hq]
    · rw [if_neg hq, if_neg (fun x => hq x.1)]
  have hq' : ∀ q, q ≠ p → nonempty c { s with pq := set s.pq p (set (s.pq p) v none) } q = nonempty c s q := by
    intro q hq
    exact nonempty_congr (show set s.pq p _ q = s.pq q by rw [set_other _ _ hq])
  have hmono : nonempty c { s with pq := set s.pq p (set (s.pq p) v none) } p = true → nonempty c s p = true := by
    unfold nonempty
    rw [List.any_eq_true, List.any_eq_true]
    rintro ⟨u, hu, h⟩
    refine ⟨u, hu, ?_⟩
    dsimp only at h
    rw [hpq] at h
    by_cases hx : p = p ∧ u = v
    · rw [if_pos hx] at h; simp at h
    · rw [if_neg hx] at h; exact h
  unfold pqRemove
  dsimp only
  by_cases hn : nonempty c { s with pq := set s.pq p (set (s.pq p) v none) } p = true
  · rw [if_pos hn]
    refine ⟨?_, rfl, rfl, rfl, rfl, rfl, rfl, hpq⟩
    intro q
    show s.en q = true ↔ q < 2 ∧ _ ∧ wt c s q < c.mx q
    rw [hE q]
    by_cases hq : q = p
    · subst hq
      simp only [hn, hmono hn]
    · rw [hq' q hq]
  · rw [if_neg hn]
    refine ⟨?_, rfl, rfl, rfl, rfl, rfl, rfl, hpq⟩
    intro q
    show set s.en p false q = true ↔ q < 2 ∧ nonempty c { s with pq := set s.pq p (set (s.pq p) v none) } q = true ∧ wt c s q < c.mx q
    by_cases hq : q = p
    · subst hq
      rw [set_same]; simp [hn]
    · rw [set_other _ _ hq, hE q, hq' q hq]

theorem PQok.remove {H : HG} {D : Nat → Prop} {s t : St} (h : PQok H D s) {v b : Nat} {x : VS} (hx : x ≠ .active) (hb : s.Φ v = some b) (hb2 : b < 2)
    (h1 : t.Φ = s.Φ) (h2 : t.vs = set s.vs v x) (h3 : ∀ q u, t.pq q u = if q = 1 - b ∧ u = v then none else s.pq q u) : PQok H D t where
  yes := by
    intro u p hD ha hΦ hp
    rw [h2, set_apply] at ha
    by_cases hu : u = v
    · rw [if_pos hu] at ha; exact absurd ha hx
    · rw [if_neg hu] at ha
      rw [h3, if_neg (fun y => hu y.2), h1]
      rw [h1] at hΦ
      exact h.yes u p hD ha hΦ hp
  no := by
    intro u p hno
    rw [h3]
    by_cases hc : p = 1 - b ∧ u = v
    · rw [if_pos hc]
    · rw [if_neg hc]
      apply h.no
      rintro ⟨hD, ha, hΦ, hp⟩
      by_cases hu : u = v
      · subst hu
        rw [hb] at hΦ
        simp only [Option.some.injEq] at hΦ
        exact hc ⟨by omega, rfl⟩
      · exact hno ⟨hD, by rw [h2, set_other _ _ hu]; exact ha, by rw [h1]; exact hΦ, hp⟩

/-- `activate` for a node that is not in the queue -/
theorem activate_spec {s : St} {D : Nat → Prop} (hE : ENok c s) (hP : PQok c.H D s) {v b : Nat} (hv : v ∈ c.H.nodes) (hb : s.Φ v = some b) (hb2 : b < 2)
    (hnew : s.vs v = .inactive) :
    ENok c (activate c s v) ∧ PQok c.H (fun u => D u ∨ u = v) (activate c s v) ∧ (activate c s v).Φ = s.Φ ∧ (activate c s v).hs = s.hs ∧
    (activate c s v).nc = s.nc ∧ (activate c s v).act = s.act ∧ (activate c s v).rem = s.rem ∧
    (activate c s v).vs = set s.vs v (if 0 < s.nc v then .active else .inactive) := by
  unfold activate
  by_cases hnc : 0 < s.nc v
  swap
  · rw [if_neg hnc]
    refine ⟨hE, ⟨?_, ?_⟩, rfl, rfl, rfl, rfl, rfl, ?_⟩
    · intro u p hD ha hΦ hp
      rcases hD with hD | hD
      · exact hP.yes u p hD ha hΦ hp
      · subst hD; rw [hnew] at ha; cases ha
    · intro u p hno
      apply hP.no
      rintro ⟨hD, h⟩
      exact hno ⟨Or.inl hD, h⟩
    · rw [if_neg hnc]
      funext u
      rw [set_apply]
      by_cases hu : u = v
      · rw [if_pos hu, hu, hnew]
      · rw [if_neg hu]
  rw [if_pos hnc, hb, if_pos hnc]
  dsimp only
  set s1 : St := pqInsert { s with vs := set s.vs v .active } (1 - b) v (computeGain c.H s.Φ v b (1 - b)) with hs1
  have hpq : ∀ q u, s1.pq q u = if q = 1 - b ∧ u = v then some (computeGain c.H s.Φ v b (1 - b)) else s.pq q u := by
    intro q u
    show set s.pq (1 - b) (set (s.pq (1 - b)) v _) q u = _
    rw [set_apply]
    by_cases hq : q = 1 - b
    · rw [if_pos hq, set_apply]
      by_cases hu : u = v
      · rw [if_pos hu, if_pos ⟨hq, hu⟩]
      · rw [if_neg hu, if_neg (fun x => hu x.2), hq]
    · rw [if_neg hq, if_neg (fun x => hq x.1)]
  have hne : nonempty c s1 (1 - b) = true := by
    unfold nonempty
    rw [List.any_eq_true]
    exact ⟨v, hv, by rw [hpq, if_pos ⟨rfl, rfl⟩]; rfl⟩
  have hno : ∀ q, q ≠ 1 - b → nonempty c s1 q = nonempty c s q := by
    intro q hq
    exact nonempty_congr (show set s.pq (1 - b) _ q = s.pq q by rw [set_other _ _ hq])
  have hP1 : PQok c.H (fun u => D u ∨ u = v) s1 := by
    refine ⟨?_, ?_⟩
    · intro u p hD ha hΦ hp
      have hΦ' : s.Φ u = some (1 - p) := hΦ
      show s1.pq p u = some (computeGain c.H s.Φ u (1 - p) p)
      rw [hpq]
      by_cases hu : u = v
      · subst hu
        rw [hb] at hΦ'
        simp only [Option.some.injEq] at hΦ'
        have hp' : p = 1 - b := by omega
        rw [if_pos ⟨hp', rfl⟩, ← hΦ', hp']
      · rw [if_neg (fun x => hu x.2)]
        have ha' : s.vs u = .active := by
          have : set s.vs v .active u = .active := ha
          rw [set_other _ _ hu] at this; exact this
        exact hP.yes u p (hD.resolve_right hu) ha' hΦ' hp
    · intro u p hno
      rw [hpq]
      by_cases hc : p = 1 - b ∧ u = v
      · exfalso
        obtain ⟨h1, h2⟩ := hc
        subst h2
        exact hno ⟨Or.inr rfl, set_same _ _ _, by show s.Φ u = _; rw [hb, h1]; congr 1; omega, by omega⟩
      · rw [if_neg hc]
        apply hP.no
        rintro ⟨hD, ha, hΦ, hp⟩
        have hu : u ≠ v := by rintro rfl; rw [hnew] at ha; cases ha
        exact hno ⟨Or.inl hD, by show set s.vs v .active u = _; rw [set_other _ _ hu]; exact ha, hΦ, hp⟩
  have hw : ∀ q, wt c s1 q = wt c s q := fun _ => rfl
  have hE1 : ∀ q, q ≠ 1 - b → (s1.en q = true ↔ q < 2 ∧ nonempty c s1 q = true ∧ wt c s1 q < c.mx q) := by
    intro q hq
    rw [hno q hq, hw]; exact hE q
  by_cases hwt : wt c s1 (1 - b) < c.mx (1 - b)
  · rw [if_pos hwt]
    unfold pqEnable
    rw [if_pos hne]
    refine ⟨?_, ⟨hP1.yes, hP1.no⟩, rfl, rfl, rfl, rfl, rfl, rfl⟩
    intro q
    show set s1.en (1 - b) true q = true ↔ q < 2 ∧ nonempty c s1 q = true ∧ wt c s1 q < c.mx q
    by_cases hq : q = 1 - b
    · subst hq
      rw [set_same]
      exact ⟨fun _ => ⟨by omega, hne, hwt⟩, fun _ => rfl⟩
    · rw [set_other _ _ hq]; exact hE1 q hq
  · rw [if_neg hwt]
    refine ⟨?_, hP1, rfl, rfl, rfl, rfl, rfl, rfl⟩
    intro q
    by_cases hq : q = 1 - b
    · subst hq
      constructor
      · intro h
        exact absurd ((hE (1 - b)).1 h).2.2 hwt
      · rintro ⟨_, _, h⟩; exact absurd h hwt
    · exact hE1 q hq

end TwoWay
end Verif
