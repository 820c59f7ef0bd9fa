import Verif.Lemmas.TW4
/-! # 2-way FM: invariant of the search -/
namespace Verif
namespace TwoWay
open DFlow (set set_same set_other set_apply)

variable {ι : Type} {c : Cfg ι}

/-- The invariant: exact numbers of cut hyperedges; the active nodes are the unmoved border nodes; they are in the queue with exact gains. -/
structure Inv (c : Cfg ι) (s : St) : Prop where
  two : Two c.H s.Φ
  nc : ∀ v ∈ c.H.nodes, s.nc v = ncut c.H (fun _ => s.Φ) v
  fix : ∀ v ∈ c.H.nodes, c.fixed v = true → s.vs v = .moved
  vst : ∀ v ∈ c.H.nodes, s.vs v ≠ .moved → (s.vs v = .active ↔ 0 < s.nc v)
  pq : PQok c.H (· ∈ c.H.nodes) s
  hs : HsOK c.H s.Φ s.vs s.hs (fun _ => True)
  en : ENok c s
  act : s.act = []
  rem : s.rem = []

/-- an entry of the queue -/
theorem Inv.entry {s : St} (h : Inv c s) {v p : Nat} {key : Int} (hk : s.pq p v = some key) :
    v ∈ c.H.nodes ∧ s.vs v = .active ∧ s.Φ v = some (1 - p) ∧ p < 2 ∧ key = computeGain c.H s.Φ v (1 - p) p := by
  by_cases hc : v ∈ c.H.nodes ∧ s.vs v = .active ∧ s.Φ v = some (1 - p) ∧ p < 2
  · refine ⟨hc.1, hc.2.1, hc.2.2.1, hc.2.2.2, ?_⟩
    have := h.pq.yes v p hc.1 hc.2.1 hc.2.2.1 hc.2.2.2
    rw [hk] at this
    exact Option.some.inj this
  · rw [h.pq.no v p hc] at hk; cases hk

/-- the state after `deleteMax` -/
def popped (c : Cfg ι) (s : St) (v p : Nat) : St := { pqRemove c s p v with vs := set (pqRemove c s p v).vs v .moved }

theorem pop_inv {s : St} (h : Inv c s) {v p : Nat} {key : Int} (hk : s.pq p v = some key) : Inv c (popped c s v p) ∧ (popped c s v p).Φ = s.Φ ∧
    (popped c s v p).vs = set s.vs v .moved ∧ HsOK c.H s.Φ (popped c s v p).vs (popped c s v p).hs (fun x => x ≠ v) := by
  obtain ⟨hv, ha, hΦ, hp, _⟩ := h.entry hk
  obtain ⟨r1, r2, r3, r4, r5, r6, r7, r8⟩ := pqRemove_spec (v := v) s h.en hp
  have hvs : (popped c s v p).vs = set s.vs v .moved := by unfold popped; rw [r3]
  have hb : p = 1 - (1 - p) := by omega
  have hmv : ∀ x, s.vs x = .moved → (popped c s v p).vs x = .moved := by
    intro x hx
    rw [hvs, set_apply]
    by_cases hxv : x = v
    · rw [if_pos hxv]
    · rw [if_neg hxv]; exact hx
  have hne : ∀ x, s.vs x = .moved → x ≠ v := by rintro x hx rfl; rw [ha] at hx; cases hx
  have hH : HsOK c.H s.Φ (popped c s v p).vs (popped c s v p).hs (fun x => x ≠ v) := by
    have e : (popped c s v p).hs = s.hs := r4
    rw [e]
    refine ⟨?_, ?_⟩
    · intro e he b hb
      obtain ⟨x, x1, _, x3, x4⟩ := h.hs.loose e he b hb
      exact ⟨x, x1, hne x x3, hmv x x3, x4⟩
    · intro e he hl b hb
      obtain ⟨x, x1, _, x3, x4⟩ := h.hs.locked e he hl b hb
      exact ⟨x, x1, hne x x3, hmv x x3, x4⟩
  refine ⟨⟨?_, ?_, ?_, ?_, ?_, ?_, r1, r6.trans h.act, r7.trans h.rem⟩, r2, hvs, hH⟩
  · show Two c.H (pqRemove c s p v).Φ
    rw [r2]; exact h.two
  · intro u hu
    show (pqRemove c s p v).nc u = ncut c.H (fun _ => (pqRemove c s p v).Φ) u
    rw [r5, r2]; exact h.nc u hu
  · intro u hu hf
    exact hmv u (h.fix u hu hf)
  · intro u hu hm
    rw [hvs, set_apply] at hm ⊢
    have : (popped c s v p).nc = s.nc := r5
    rw [this]
    by_cases huv : u = v
    · rw [if_pos huv] at hm; exact absurd rfl hm
    · rw [if_neg huv] at hm ⊢; exact h.vst u hu hm
  · exact h.pq.remove (x := .moved) (by decide) hΦ (by omega) r2 hvs (fun q u => by rw [← hb]; exact r8 q u)
  · have e : (popped c s v p).Φ = s.Φ := r2
    rw [e]
    exact ⟨fun e he b hb => by obtain ⟨x, x1, _, x3⟩ := hH.loose e he b hb; exact ⟨x, x1, trivial, x3⟩,
      fun e he hl b hb => by obtain ⟨x, x1, _, x3⟩ := hH.locked e he hl b hb; exact ⟨x, x1, trivial, x3⟩⟩

/-! ### Removal and activation -/

theorem removes (H0 : c.H.WF) : ∀ (l : List Nat) (s : St), l.Nodup → (∀ v ∈ l, v ∈ c.H.nodes ∧ s.nc v = 0) → Two c.H s.Φ → ENok c s → PQok c.H (· ∈ c.H.nodes) s →
    ENok c (l.foldl (removeInternal c) s) ∧ PQok c.H (· ∈ c.H.nodes) (l.foldl (removeInternal c) s) ∧ (l.foldl (removeInternal c) s).Φ = s.Φ ∧
    (l.foldl (removeInternal c) s).hs = s.hs ∧ (l.foldl (removeInternal c) s).nc = s.nc ∧ (l.foldl (removeInternal c) s).act = s.act ∧
    (l.foldl (removeInternal c) s).vs = fun u => if u ∈ l then .inactive else s.vs u := by
  intro l
  induction l with
  | nil => intro s _ _ _ hE hP; exact ⟨hE, hP, rfl, rfl, rfl, rfl, by simp⟩
  | cons v l ih =>
    intro s hn hl hT hE hP
    obtain ⟨ha, hn'⟩ := List.nodup_cons.1 hn
    obtain ⟨hv, hz⟩ := hl v (by simp)
    have hb : ∃ b, s.Φ v = some b := by rcases hT v hv with h | h <;> exact ⟨_, h⟩
    obtain ⟨b, hb⟩ := hb
    have hb2 := hT.lt hv hb
    obtain ⟨r1, r2, r3, r4, r5, r6, r7, r8⟩ := pqRemove_spec (c := c) (v := v) s hE (show 1 - b < 2 by omega)
    have hr : removeInternal c s v = { pqRemove c s (1 - b) v with vs := set s.vs v .inactive } := by
      unfold removeInternal; rw [if_pos hz, hb]
    have hP' : PQok c.H (· ∈ c.H.nodes) (removeInternal c s v) := by
      rw [hr]; exact hP.remove (x := .inactive) (by decide) hb hb2 r2 rfl r8
    have hE' : ENok c (removeInternal c s v) := by rw [hr]; exact r1
    have hΦ' : (removeInternal c s v).Φ = s.Φ := by rw [hr]; exact r2
    have hnc' : (removeInternal c s v).nc = s.nc := by rw [hr]; exact r5
    obtain ⟨i1, i2, i3, i4, i5, i6, i7⟩ := ih (removeInternal c s v) hn' (fun u hu => by rw [hnc']; exact hl u (List.mem_cons_of_mem _ hu))
      (by rw [hΦ']; exact hT) hE' hP'
    rw [List.foldl_cons]
    refine ⟨i1, i2, i3.trans hΦ', i4.trans (by rw [hr]; exact r4), i5.trans hnc', i6.trans (by rw [hr]; exact r6), i7.trans ?_⟩
    funext u
    have hvs : (removeInternal c s v).vs u = if u = v then .inactive else s.vs u := by rw [hr]; rfl
    rw [hvs]
    by_cases huv : u = v
    · subst huv; rw [if_neg ha, if_pos rfl, if_pos (by simp)]
    · rw [if_neg huv]; simp only [List.mem_cons, huv, false_or]

theorem activates (H0 : c.H.WF) : ∀ (l : List Nat) (s : St), l.Nodup → (∀ v ∈ l, v ∈ c.H.nodes ∧ s.vs v = .inactive ∧ 0 < s.nc v) → Two c.H s.Φ → ENok c s →
    PQok c.H (· ∈ c.H.nodes) s →
    ENok c (l.foldl (activate c) s) ∧ PQok c.H (· ∈ c.H.nodes) (l.foldl (activate c) s) ∧ (l.foldl (activate c) s).Φ = s.Φ ∧
    (l.foldl (activate c) s).hs = s.hs ∧ (l.foldl (activate c) s).nc = s.nc ∧ (l.foldl (activate c) s).rem = s.rem ∧
    (l.foldl (activate c) s).vs = fun u => if u ∈ l then .active else s.vs u := by
  intro l
  induction l with
  | nil => intro s _ _ _ hE hP; exact ⟨hE, hP, rfl, rfl, rfl, rfl, by simp⟩
  | cons v l ih =>
    intro s hn hl hT hE hP
    obtain ⟨ha, hn'⟩ := List.nodup_cons.1 hn
    obtain ⟨hv, hin, hz⟩ := hl v (by simp)
    have hb : ∃ b, s.Φ v = some b := by rcases hT v hv with h | h <;> exact ⟨_, h⟩
    obtain ⟨b, hb⟩ := hb
    have hb2 := hT.lt hv hb
    obtain ⟨r1, r2, r3, r4, r5, r6, r7, r8⟩ := activate_spec hE hP hv hb hb2 hin
    rw [if_pos hz] at r8
    have hD : (fun u => u ∈ c.H.nodes ∨ u = v) = (· ∈ c.H.nodes) := by
      funext u
      apply propext
      constructor
      · rintro (h | h)
        · exact h
        · exact h ▸ hv
      · exact Or.inl
    rw [hD] at r2
    obtain ⟨i1, i2, i3, i4, i5, i6, i7⟩ := ih (activate c s v) hn' (fun u hu => by
      obtain ⟨a1, a2, a3⟩ := hl u (List.mem_cons_of_mem _ hu)
      have : u ≠ v := fun h => ha (h ▸ hu)
      rw [r8, r5, set_other _ _ this]; exact ⟨a1, a2, a3⟩) (by rw [r3]; exact hT) r1 r2
    rw [List.foldl_cons]
    refine ⟨i1, i2, i3.trans r3, i4.trans r4, i5.trans r5, i6.trans r7, i7.trans ?_⟩
    funext u
    rw [r8, set_apply]
    by_cases huv : u = v
    · subst huv; rw [if_neg ha, if_pos rfl, if_pos (by simp)]
    · rw [if_neg huv]; simp only [List.mem_cons, huv, false_or]

theorem updatePQState_spec {s : St} {src dst : Nat} (hsd : src ≠ dst) (hs2 : src < 2) (hd2 : dst < 2)
    (h : ∀ p, s.en p = true → p < 2 ∧ nonempty c s p = true) (hsrc : s.en src = true → wt c s src < c.mx src)
    (hdst : p = dst → nonempty c s dst = true → wt c s dst < c.mx dst → s.en dst = true)
    (ho : ∀ p, p ≠ src → p ≠ dst → (s.en p = true ↔ p < 2 ∧ nonempty c s p = true ∧ wt c s p < c.mx p)) (hpd : p = dst) :
    ENok c (updatePQState c s src dst) ∧ (updatePQState c s src dst).Φ = s.Φ ∧ (updatePQState c s src dst).vs = s.vs ∧ (updatePQState c s src dst).hs = s.hs ∧
    (updatePQState c s src dst).nc = s.nc ∧ (updatePQState c s src dst).pq = s.pq ∧ (updatePQState c s src dst).act = s.act ∧
    (updatePQState c s src dst).rem = s.rem := by
  have hdst := hdst hpd
  -- the first step
  have h1 : ∃ s1 : St, (if wt c s dst ≥ c.mx dst then pqDisable s dst else s) = s1 ∧ s1.Φ = s.Φ ∧ s1.vs = s.vs ∧ s1.hs = s.hs ∧ s1.nc = s.nc ∧ s1.pq = s.pq ∧
      s1.act = s.act ∧ s1.rem = s.rem ∧ (∀ p, p ≠ dst → s1.en p = s.en p) ∧ (s1.en dst = true ↔ nonempty c s dst = true ∧ wt c s dst < c.mx dst) := by
    by_cases hc : wt c s dst ≥ c.mx dst
    · rw [if_pos hc]
      refine ⟨_, rfl, rfl, rfl, rfl, rfl, rfl, rfl, rfl, fun p hp => set_other _ _ hp, ?_⟩
      show set s.en dst false dst = true ↔ _
      rw [set_same]
      constructor
      · intro h; cases h
      · rintro ⟨_, h⟩; omega
    · rw [if_neg hc]
      exact ⟨s, rfl, rfl, rfl, rfl, rfl, rfl, rfl, rfl, fun _ _ => rfl, fun h' => ⟨(h dst h').2, by omega⟩, fun h' => hdst h'.1 h'.2⟩
  obtain ⟨s1, e, a1, a2, a3, a4, a5, a6, a7, a8, a9⟩ := h1
  have hne : ∀ p, nonempty c s1 p = nonempty c s p := fun p => nonempty_congr (by rw [a5])
  have hw : ∀ p, wt c s1 p = wt c s p := fun p => by unfold wt; rw [a1]
  unfold updatePQState
  dsimp only
  rw [e]
  by_cases hc : wt c s1 src < c.mx src
  · rw [if_pos hc]
    unfold pqEnable
    by_cases hn : nonempty c s1 src = true
    · rw [if_pos hn]
      refine ⟨?_, a1, a2, a3, a4, a5, a6, a7⟩
      intro p
      show set s1.en src true p = true ↔ p < 2 ∧ nonempty c s1 p = true ∧ wt c s1 p < c.mx p
      by_cases hps : p = src
      · subst hps; rw [set_same]; exact ⟨fun _ => ⟨hs2, hn, hc⟩, fun _ => rfl⟩
      · rw [set_other _ _ hps, hne, hw]
        by_cases hpd : p = dst
        · subst hpd; rw [a9]; exact ⟨fun h => ⟨hd2, h⟩, fun h => h.2⟩
        · rw [a8 p hpd]; exact ho p hps hpd
    · rw [if_neg hn]
      refine ⟨?_, a1, a2, a3, a4, a5, a6, a7⟩
      intro p
      rw [hne, hw]
      by_cases hps : p = src
      · subst hps
        rw [a8 p hsd]
        constructor
        · intro h'; exact absurd (by rw [hne]; exact (h p h').2) hn
        · rintro ⟨_, h', _⟩; exact absurd (by rw [hne]; exact h') hn
      · by_cases hpd : p = dst
        · subst hpd; rw [a9]; exact ⟨fun h => ⟨hd2, h⟩, fun h => h.2⟩
        · rw [a8 p hpd]; exact ho p hps hpd
  · rw [if_neg hc]
    refine ⟨?_, a1, a2, a3, a4, a5, a6, a7⟩
    intro p
    rw [hne, hw]
    by_cases hps : p = src
    · subst hps
      rw [a8 p hsd]
      rw [hw] at hc
      constructor
      · intro h'; exact absurd (hsrc h') hc
      · rintro ⟨_, _, h'⟩; exact absurd h' hc
    · by_cases hpd : p = dst
      · subst hpd; rw [a9]; exact ⟨fun h => ⟨hd2, h⟩, fun h => h.2⟩
      · rw [a8 p hpd]; exact ho p hps hpd

/-! ### An accepted move -/

theorem applyMove_inv (hw : c.H.WF) (hnw : ∀ v ∈ c.H.nodes, 0 ≤ c.H.nw v) {s : St} (h : Inv c s) {hn src : Nat} (hv : hn ∈ c.H.nodes) (hb : s.Φ hn = some src)
    (hm : s.vs hn = .moved) (hH : HsOK c.H s.Φ s.vs s.hs (fun x => x ≠ hn)) :
    Inv c (applyMove c s hn src (1 - src)) ∧ (applyMove c s hn src (1 - src)).Φ = s.Φ.put hn (1 - src) ∧
    ∀ u, (applyMove c s hn src (1 - src)).vs u = .moved ↔ s.vs u = .moved := by
  have hM : Mov c.H s.Φ hn src := ⟨hw, h.two, hv, hb⟩
  have hlt := hM.lt
  have hsd : src ≠ 1 - src := by omega
  have hinc := hw.inc_nodup hn hv
  -- border nodes
  have b0 : BInv c.H s.Φ (s.Φ.put hn (1 - src)) src { s with Φ := s.Φ.put hn (1 - src) } [] { s with Φ := s.Φ.put hn (1 - src) } := by
    have hmix : mix s.Φ (s.Φ.put hn (1 - src)) [] = fun _ => s.Φ := by funext e; unfold mix; simp
    refine ⟨rfl, rfl, rfl, rfl, rfl, fun v hv => by rw [hmix]; exact h.nc v hv, ?_, ?_, ?_, ?_, ?_, ?_⟩
    · show s.rem.Nodup; rw [h.rem]; exact List.nodup_nil
    · intro v
      show v ∈ s.rem ↔ v ∈ c.H.nodes ∧ s.vs v = .active ∧ s.nc v = 0
      rw [h.rem]
      constructor
      · intro hh; cases hh
      · rintro ⟨a1, a2, a3⟩
        have := (h.vst v a1 (by rw [a2]; simp)).1 a2
        omega
    · intro v hv'
      have hv'' : v ∈ s.rem := hv'
      rw [h.rem] at hv''; cases hv''
    · show s.act.Nodup; rw [h.act]; exact List.nodup_nil
    · intro v
      show v ∈ s.act ↔ v ∈ c.H.nodes ∧ s.vs v = .inactive ∧ 0 < s.nc v
      rw [h.act]
      constructor
      · intro hh; cases hh
      · rintro ⟨a1, a2, a3⟩
        have := (h.vst v a1 (by rw [a2]; simp)).2 a3
        rw [a2] at this; cases this
    · intro v hv'
      have hv'' : v ∈ s.act := hv'
      rw [h.act] at hv''; cases hv''
  have hA := border_fold hM (s := { s with Φ := s.Φ.put hn (1 - src) }) hm (c.H.inc hn) [] _ (by simpa using hinc) (fun _ h => h) b0
  rw [List.nil_append] at hA
  unfold applyMove
  dsimp only
  generalize (c.H.inc hn).foldl (borderUpdate c src (1 - src)) { s with Φ := s.Φ.put hn (1 - src) } = sA at hA ⊢
  have hAvs : sA.vs = s.vs := hA.vs
  have hApq : sA.pq = s.pq := hA.pq
  have hAen : sA.en = s.en := hA.en
  have hAhs : sA.hs = s.hs := hA.hs
  -- neighbours
  have k0 : KInv c.H s.Φ (s.Φ.put hn (1 - src)) sA [] sA := by
    have hmix : mix s.Φ (s.Φ.put hn (1 - src)) [] = fun _ => s.Φ := by funext e; unfold mix; simp
    refine ⟨hA.part, rfl, rfl, rfl, rfl, rfl, ?_, ?_, fun _ _ => rfl, ?_⟩
    · intro v hv ha b hb
      rw [hAvs] at ha
      rw [hmix, hApq]
      have hb2 := h.two.lt hv hb
      have hbb : 1 - (1 - b) = b := by omega
      have := h.pq.yes v (1 - b) hv ha (by rw [hbb]; exact hb) (by omega)
      rw [hbb] at this
      exact this
    · intro v p hno
      rw [hApq]
      rw [hAvs] at hno
      exact h.pq.no v p hno
    · rw [hAvs, hAhs]; exact hH.put
  have hB := edge_fold hM (s := sA) (by rw [hAvs]; exact hm) (by rw [hAvs, hAhs]; exact hH) (c.H.inc hn) [] _ (by simpa using hinc) (fun _ h => h) k0
  rw [List.nil_append] at hB
  generalize (c.H.inc hn).foldl (updateEdge c src (1 - src)) sA = sB at hB ⊢
  have hBvs : sB.vs = s.vs := hB.vs.trans hAvs
  have hne_hn : ∀ v, s.vs v = .active → v ≠ hn := by rintro v ha rfl; rw [hm] at ha; cases ha
  have hPB : PQok c.H (· ∈ c.H.nodes) sB := by
    refine ⟨?_, ?_⟩
    · intro v p hv ha hΦ hp
      rw [hBvs] at ha
      have hvn := hne_hn v ha
      rw [hB.part, Assign.put_other _ hvn] at hΦ
      have := hB.yes v hv (by rw [hAvs]; exact ha) (1 - p) hΦ
      rw [gsum_full hM hv] at this
      have hpp : 1 - (1 - p) = p := by omega
      rw [hpp] at this
      rw [hB.part]; exact this
    · intro v p hno
      apply hB.no
      rintro ⟨a1, a2, a3, a4⟩
      rw [hAvs] at a2
      have hvn := hne_hn v a2
      exact hno ⟨a1, by rw [hBvs]; exact a2, by rw [hB.part, Assign.put_other _ hvn]; exact a3, a4⟩
  have hTB : Two c.H sB.Φ := by rw [hB.part]; exact hM.two'
  -- block weights
  have hwt : ∀ p, wt c sB p = wt c s p + (if p = 1 - src then c.H.nw hn else 0) - (if s.Φ hn = some p then c.H.nw hn else 0) := by
    intro p
    show c.H.blockWeight sB.Φ p = c.H.blockWeight s.Φ p + _ - _
    rw [hB.part]
    exact HG.blockWeight_put hw.nodes_nodup hv
  have hwn := hnw hn hv
  have hneB : ∀ p, p < 2 → nonempty c sB p = nonempty c s p := by
    intro p _
    unfold nonempty
    rw [Bool.eq_iff_iff, List.any_eq_true, List.any_eq_true]
    have : ∀ u ∈ c.H.nodes, ((sB.pq p u).isSome = true ↔ (s.pq p u).isSome = true) := by
      intro u hu
      by_cases hc : s.vs u = .active ∧ s.Φ u = some (1 - p) ∧ p < 2
      · have hun := hne_hn u hc.1
        rw [hPB.yes u p hu (by rw [hBvs]; exact hc.1) (by rw [hB.part, Assign.put_other _ hun]; exact hc.2.1) hc.2.2, h.pq.yes u p hu hc.1 hc.2.1 hc.2.2]
        simp
      · rw [h.pq.no u p (fun x => hc x.2), hB.no u p (by rw [hAvs]; exact fun x => hc x.2)]
    constructor
    · rintro ⟨u, hu, h'⟩; exact ⟨u, hu, (this u hu).1 h'⟩
    · rintro ⟨u, hu, h'⟩; exact ⟨u, hu, (this u hu).2 h'⟩
  have hBen : sB.en = s.en := hB.en.trans hAen
  obtain ⟨c1, c2, c3, c4, c5, c6, c7, c8⟩ := updatePQState_spec (c := c) (s := sB) (p := 1 - src) hsd hlt (show 1 - src < 2 by omega)
    (by
      intro p hp
      rw [hBen] at hp
      obtain ⟨q1, q2, _⟩ := (h.en p).1 hp
      exact ⟨q1, by rw [hneB p q1]; exact q2⟩)
    (by
      intro hp
      rw [hBen] at hp
      have := ((h.en src).1 hp).2.2
      rw [hwt, if_neg hsd, if_pos hb]; omega)
    (by
      intro _ q1 q2
      rw [hBen]
      rw [hneB _ (by omega)] at q1
      rw [hwt, if_pos rfl, if_neg (by rw [hb]; simpa using hsd)] at q2
      exact (h.en (1 - src)).2 ⟨by omega, q1, by omega⟩)
    (by
      intro p p1 p2
      rw [hBen]
      constructor
      · intro hp
        have := ((h.en p).1 hp).1
        omega
      · rintro ⟨hp, _⟩; omega)
    rfl
  generalize updatePQState c sB src (1 - src) = sC at c1 c2 c3 c4 c5 c6 c7 c8 ⊢
  have hPC : PQok c.H (· ∈ c.H.nodes) sC := by
    refine ⟨?_, ?_⟩
    · intro v p hD ha hΦ hp
      rw [c6, c2]; rw [c3] at ha; rw [c2] at hΦ
      exact hPB.yes v p hD ha hΦ hp
    · intro v p hno
      rw [c6]; rw [c3, c2] at hno
      exact hPB.no v p hno
  -- lists
  have hrem : sC.rem = sA.rem := c8.trans hB.rem
  have hact : sC.act = sA.act := c7.trans hB.act
  have hncC : sC.nc = sA.nc := c5.trans hB.nc
  have hremS : ∀ v, v ∈ sC.rem ↔ v ∈ c.H.nodes ∧ s.vs v = .active ∧ sA.nc v = 0 := by rw [hrem]; exact hA.rem
  have hactS : ∀ v, v ∈ sC.act ↔ v ∈ c.H.nodes ∧ s.vs v = .inactive ∧ 0 < sA.nc v := by rw [hact]; exact hA.act
  obtain ⟨d1, d2, d3, d4, d5, d6, d7⟩ := removes hw sC.rem sC (by rw [hrem]; exact hA.remN)
    (fun v hv => by rw [hncC]; exact ⟨((hremS v).1 hv).1, ((hremS v).1 hv).2.2⟩) (by rw [c2]; exact hTB) c1 hPC
  generalize hsD : sC.rem.foldl (removeInternal c) sC = sD at d1 d2 d3 d4 d5 d6 d7 ⊢
  have hvsC : sC.vs = s.vs := c3.trans hBvs
  have hactD : sD.act = sC.act := d6
  rw [← hactD] at hactS
  obtain ⟨f1, f2, f3, f4, f5, f6, f7⟩ := activates hw sD.act { sD with rem := [] } (by rw [hactD, hact]; exact hA.actN)
    (fun v hv => by
      obtain ⟨a1, a2, a3⟩ := (hactS v).1 hv
      refine ⟨a1, ?_, ?_⟩
      · show sD.vs v = _
        rw [d7]
        dsimp only
        by_cases hr : v ∈ sC.rem
        · rw [if_pos hr]
        · rw [if_neg hr, hvsC]; exact a2
      · show 0 < sD.nc v
        rw [d5, hncC]; exact a3) (by show Two c.H sD.Φ; rw [d3, c2]; exact hTB) d1 ⟨d2.yes, d2.no⟩
  generalize sD.act.foldl (activate c) { sD with rem := [] } = sE at f1 f2 f3 f4 f5 f6 f7 ⊢
  have hΦE : sE.Φ = s.Φ.put hn (1 - src) := f3.trans (d3.trans (c2.trans hB.part))
  have hncE : sE.nc = sA.nc := f5.trans (d5.trans hncC)
  have hvsE : ∀ u, sE.vs u = if u ∈ sD.act then .active else if u ∈ sC.rem then .inactive else s.vs u := by
    intro u
    rw [f7]
    show (if u ∈ sD.act then VS.active else sD.vs u) = _
    rw [d7, hvsC]
  have hmov : ∀ u, sE.vs u = .moved ↔ s.vs u = .moved := by
    intro u
    rw [hvsE]
    by_cases h1 : u ∈ sD.act
    · rw [if_pos h1, ((hactS u).1 h1).2.1]; simp
    · rw [if_neg h1]
      by_cases h2 : u ∈ sC.rem
      · rw [if_pos h2, ((hremS u).1 h2).2.1]; simp
      · rw [if_neg h2]
  refine ⟨⟨?_, ?_, ?_, ?_, ⟨f2.yes, f2.no⟩, ?_, f1, rfl, f6⟩, hΦE, hmov⟩
  · show Two c.H sE.Φ
    rw [hΦE]; exact hM.two'
  · intro v hv
    show sE.nc v = ncut c.H (fun _ => sE.Φ) v
    rw [hncE, hΦE, hA.nc v hv, ncut_full hM hv]
  · intro v hv hf
    exact (hmov v).2 (h.fix v hv hf)
  · intro v hv hnm
    have hnm' : s.vs v ≠ .moved := fun x => hnm ((hmov v).2 x)
    show sE.vs v = .active ↔ 0 < sE.nc v
    rw [hvsE, hncE]
    by_cases h1 : v ∈ sD.act
    · rw [if_pos h1]; exact ⟨fun _ => ((hactS v).1 h1).2.2, fun _ => rfl⟩
    · rw [if_neg h1]
      by_cases h2 : v ∈ sC.rem
      · rw [if_pos h2, ((hremS v).1 h2).2.2]; simp
      · rw [if_neg h2]
        cases hs : s.vs v with
        | moved => exact absurd hs hnm'
        | active =>
          have : ¬ sA.nc v = 0 := fun x => h2 ((hremS v).2 ⟨hv, hs, x⟩)
          simp; omega
        | inactive =>
          have : ¬ 0 < sA.nc v := fun x => h1 ((hactS v).2 ⟨hv, hs, x⟩)
          simp; omega
  · show HsOK c.H sE.Φ sE.vs sE.hs _
    have hhs : sE.hs = sB.hs := f4.trans (d4.trans c4)
    rw [hhs, hΦE]
    refine ⟨?_, ?_⟩
    · intro e he b hb
      obtain ⟨x, x1, x2, x3, x4⟩ := hB.hs.loose e he b hb
      exact ⟨x, x1, trivial, (hmov x).2 (by rw [← hAvs]; exact x3), x4⟩
    · intro e he hl b hb
      obtain ⟨x, x1, x2, x3, x4⟩ := hB.hs.locked e he hl b hb
      exact ⟨x, x1, trivial, (hmov x).2 (by rw [← hAvs]; exact x3), x4⟩

end TwoWay
end Verif
