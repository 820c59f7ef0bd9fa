import Verif.Lemmas.Batches3
/-! All steps, and whole executions, preserve the invariant. -/
namespace Verif
namespace Uncontract
open Schedule
open SMap (wr)

variable {t : CTree} {ch : Nat → List Nat} {roots : List Nat} {k mx T : Nat}

/-- steps that only move the program counter -/
theorem Inv.pcOnly {s : St} {H : Hist} {m : Nat} (I : Inv t ch roots k mx T s H m) {i : Nat} (hi : i < T)
    {hwm : Nat} {pc : Pc} (h1 : s.sh.hwm ≤ hwm) (h2 : hwm ≤ m)
    (hinf : infl pc = infl (s.thr i).pc) (hsz : ∀ b, pendSize b pc = pendSize b (s.thr i).pc)
    (hpend : pend pc = pend (s.thr i).pc)
    (hpc : PcInv t ch k H m hwm (s.sh.loc i) { (s.thr i) with pc := pc }) :
    Inv t ch roots k mx T (St.mk { s.sh with hwm := hwm } (fun j => if j = i then { (s.thr i) with pc := pc } else s.thr j)) H m := by
  have hI := I.thr i hi
  have heff : eff (s.sh.loc i) pc = eff (s.sh.loc i) (s.thr i).pc := by unfold eff; rw [hpend]
  refine I.same (sh' := { s.sh with hwm := hwm }) (th' := { (s.thr i) with pc := pc }) hi h1 h2 I.tile (fun _ _ => rfl) ?_ ?_ ?_ ?_ ?_
  · intro v
    show (infl pc).count v + (fr t k (s.thr i)).count v + _ = _ + (if Edge t k v then (infl pc).count (t.par v) else 0)
    rw [hinf]
  · intro b
    show s.sh.size b + pendSize b pc = _
    rw [hsz]
  · intro b p h
    rcases h with h | h
    · exact Or.inl h
    · refine Or.inr ?_
      show ∃ u g pos, pend pc = _ ∧ _
      rw [hpend]; exact h
  · refine ⟨hpc, hI.locm, ?_, ?_, hI.ent⟩
    · intro l hl
      show Iter t ch k H (eff (s.sh.loc i) pc) (infl pc) false l
      rw [heff, hinf]; exact hI.pq l hl
    · intro l hl
      show Iter t ch k H (eff (s.sh.loc i) pc) (infl pc) true l
      rw [heff, hinf]; exact hI.nxt l hl
  · unfold placedLen
    rw [hpend]

theorem Inv.pcMove {s : St} {H : Hist} {m : Nat} (I : Inv t ch roots k mx T s H m) {i : Nat} (hi : i < T)
    {pc : Pc} (hinf : infl pc = infl (s.thr i).pc) (hsz : ∀ b, pendSize b pc = pendSize b (s.thr i).pc)
    (hpend : pend pc = pend (s.thr i).pc)
    (hpc : PcInv t ch k H m s.sh.hwm (s.sh.loc i) { (s.thr i) with pc := pc }) :
    Inv t ch roots k mx T (St.mk s.sh (fun j => if j = i then { (s.thr i) with pc := pc } else s.thr j)) H m :=
  I.pcOnly hi (Nat.le_refl _) I.hw hinf hsz hpend hpc

theorem Inv.hwUp {s : St} {H : Hist} {m : Nat} (I : Inv t ch roots k mx T s H m) {i : Nat} (hi : i < T)
    {hwm : Nat} (h1 : s.sh.hwm ≤ hwm) (h2 : hwm ≤ m)
    (hpc : PcInv t ch k H m hwm (s.sh.loc i) (s.thr i)) :
    Inv t ch roots k mx T (St.mk { s.sh with hwm := hwm } (fun j => if j = i then s.thr i else s.thr j)) H m :=
  I.pcOnly (pc := (s.thr i).pc) hi h1 h2 rfl (fun _ => rfl) rfl hpc

theorem Inv.tstep (hc : ChildsOK t ch) (hmx : 0 < mx)
    (hst : ∀ v, v < t.n → t.par v ≠ v → t.start v ≠ kInvalid ∧ t.start v ≤ t.stop v)
    {s : St} {H : Hist} {m : Nat} (I : Inv t ch roots k mx T s H m) {i : Nat} (hi : i < T) {sh' : Sh} {th' : Thr}
    (h : TStep t ch k mx T i s.sh (s.thr i) sh' th') :
    ∃ H' m', Inv t ch roots k mx T (St.mk sh' (fun j => if j = i then th' else s.thr j)) H' m' := by
  have hI := I.thr i hi
  have hp := hI.pc
  unfold PcInv at hp
  generalize hth : s.thr i = th at h
  generalize hsh : s.sh = sh at h
  cases h with
  | take p1 p2 v r hpc hpq => subst hth hsh; exact ⟨H, m, I.take hc hst hi hpc hpq⟩
  | checkLe u g hpc h =>
    subst hth hsh; rw [hpc] at hp
    exact ⟨H, m, I.pcMove hi (by rw [hpc]; rfl) (by rw [hpc]; intro; rfl) (by rw [hpc]; rfl) ⟨hp, h⟩⟩
  | checkGt u g hpc h =>
    subst hth hsh; rw [hpc] at hp
    exact ⟨H, m, I.pcMove hi (by rw [hpc]; rfl) (by rw [hpc]; intro; rfl) (by rw [hpc]; rfl) ⟨hp, Nat.le_refl _, hI.locm⟩⟩
  | loadHw u g hpc =>
    subst hth hsh; rw [hpc] at hp
    exact ⟨H, m, I.pcMove hi (by rw [hpc]; rfl) (by rw [hpc]; intro; rfl) (by rw [hpc]; rfl) ⟨hp.1, hp.2, I.hw⟩⟩
  | fetchFull u g idx hw hpc h =>
    subst hth hsh; rw [hpc] at hp
    obtain ⟨hG, h1, h2⟩ := hp
    have hfull : mx ≤ (content H idx).length := by
      rcases (I.tile idx).2 with h' | h'
      · omega
      · exact h'
    have hlt : idx < m := (I.mm idx).1 (by intro h'; rw [h'] at hfull; simp at hfull; omega)
    refine ⟨H, m, I.same hi (Nat.le_refl _) I.hw ?_ (fun _ _ => rfl) ?_ ?_ ?_ ?_ ?_⟩
    · intro b
      show _ ≤ wr s.sh.cnt idx (s.sh.cnt idx + g.length) b ∧ (wr s.sh.cnt idx (s.sh.cnt idx + g.length) b = _ ∨ _)
      by_cases hb : b = idx
      · subst hb
        rw [wr_same]
        have := (I.tile b).1
        exact ⟨by omega, Or.inr hfull⟩
      · rw [wr_other _ _ hb]; exact I.tile b
    · intro v; rw [hpc]; rfl
    · intro b; rw [hpc]; rfl
    · intro b p h
      rcases h with h | ⟨_, _, _, h, _⟩
      · exact Or.inl h
      · rw [hpc] at h; simp [pend] at h
    · refine ⟨⟨hG, Nat.le_succ_of_le h1, hlt⟩, hI.locm, ?_, ?_, hI.ent⟩
      · intro l hl
        have := hI.pq l hl
        rw [hpc] at this; exact this
      · intro l hl
        have := hI.nxt l hl
        rw [hpc] at this; exact this
    · unfold placedLen; rw [hpc]; rfl
  | fetchOk u g idx hw hpc h => subst hth hsh; exact I.fetchOk hmx hc hi hpc h
  | addSize u g idx pos hw hpc =>
    subst hth hsh; rw [hpc] at hp
    refine ⟨H, m, I.same hi (Nat.le_refl _) I.hw I.tile (fun _ _ => rfl) ?_ ?_ ?_ ?_ ?_⟩
    · intro v
      rw [hpc]
      cases hw <;> rfl
    · intro b
      rw [hpc]
      show wr s.sh.size idx (s.sh.size idx + g.length) b + pendSize b (if hw = true then _ else _) =
        s.sh.size b + if idx = b then g.length else 0
      have : pendSize b (if hw = true then Pc.raise u g idx pos else Pc.assign u g idx pos) = 0 := by cases hw <;> rfl
      rw [this]
      by_cases hb : b = idx
      · subst hb; rw [wr_same, if_pos rfl]; omega
      · rw [wr_other _ _ hb, if_neg (fun h => hb h.symm)]
    · intro b p h
      rcases h with h | h
      · exact Or.inl h
      · refine Or.inr ?_
        rw [hpc] at h
        cases hw <;> exact h
    · refine ⟨?_, hI.locm, ?_, ?_, hI.ent⟩
      · cases hw <;> exact hp
      · intro l hl
        have := hI.pq l hl
        rw [hpc] at this
        cases hw <;> exact this
      · intro l hl
        have := hI.nxt l hl
        rw [hpc] at this
        cases hw <;> exact this
    · unfold placedLen; rw [hpc]; cases hw <;> rfl
  | raise u g idx pos hpc =>
    subst hth hsh; rw [hpc] at hp
    exact ⟨H, m, I.pcMove hi (by rw [hpc]; rfl) (by rw [hpc]; intro; rfl) (by rw [hpc]; rfl) hp⟩
  | casDone u g idx pos cur hpc h =>
    subst hth hsh; rw [hpc] at hp
    exact ⟨H, m, I.pcMove hi (by rw [hpc]; rfl) (by rw [hpc]; intro; rfl) (by rw [hpc]; rfl) hp⟩
  | casOk u g idx pos cur hpc h hcur =>
    subst hth hsh
    have hp' := hp
    rw [hpc] at hp
    refine ⟨H, m, I.hwUp hi (by omega) (by have := hp.2.2.1; omega) ?_⟩
    unfold PcInv
    rw [hpc]
    exact hp
  | casFail u g idx pos cur hpc h hcur =>
    subst hth hsh; rw [hpc] at hp
    exact ⟨H, m, I.pcMove hi (by rw [hpc]; rfl) (by rw [hpc]; intro; rfl) (by rw [hpc]; rfl) hp⟩
  | assign u g idx pos hpc =>
    subst hth hsh; rw [hpc] at hp
    obtain ⟨⟨H1, H2, hH, hpos⟩, hloc, hm, hgp⟩ := hp
    refine ⟨H, m, I.same hi (Nat.le_refl _) I.hw I.tile (fun j hj => wr_other _ _ hj) ?_ ?_ ?_ ?_ ?_⟩
    · intro v; rw [hpc]; rfl
    · intro b; rw [hpc]; rfl
    · intro b p h
      rcases h with ⟨e, he, h⟩ | ⟨u', g', pos', h, h1, h2⟩
      · exact Or.inl ⟨e, List.mem_append_left _ he, h⟩
      · rw [hpc] at h
        simp only [pend, Option.some.injEq, Prod.mk.injEq] at h
        obtain ⟨rfl, rfl, rfl, rfl⟩ := h
        refine Or.inl ⟨{ u := u, v := g.getD (p - pos) 0, idx := idx, pos := pos + (p - pos) }, ?_, rfl, by show pos + (p - pos) = p; omega⟩
        apply List.mem_append_right
        unfold entries
        rw [List.mem_map]
        exact ⟨p - pos, List.mem_range.2 (by omega), rfl⟩
    · refine ⟨?_, ?_, ?_, ?_, ?_⟩
      · show wr s.sh.loc i idx i < m
        rw [wr_same]; exact hm
      · show wr s.sh.loc i idx i ≤ m
        rw [wr_same]; omega
      · intro l hl
        show Iter t ch k H (wr s.sh.loc i idx i) [] false l
        rw [wr_same]
        have := hI.pq l hl
        rw [hpc] at this
        exact this
      · intro l hl
        show Iter t ch k H (wr s.sh.loc i idx i) [] true l
        rw [wr_same]
        have := hI.nxt l hl
        rw [hpc] at this
        exact this
      · intro e he
        rcases List.mem_append.1 he with he | he
        · exact hI.ent e he
        · unfold entries at he
          rw [List.mem_map] at he
          obtain ⟨j, hj, rfl⟩ := he
          rw [List.mem_range] at hj
          have hget : g.getD j 0 = g[j] := by rw [List.getD_eq_getElem?_getD, List.getElem?_eq_getElem hj]; rfl
          refine ⟨?_, ?_⟩
          · show (content H idx)[pos + j]? = some (g.getD j 0)
            rw [hH, content_append, show (idx, g) :: H2 = [(idx, g)] ++ H2 from rfl, content_append, content_single,
              if_pos rfl, hpos, List.getElem?_append_right (by omega), Nat.add_sub_cancel_left,
              List.getElem?_append_left hj, List.getElem?_eq_getElem hj, hget]
          · show u = t.par (g.getD j 0)
            rw [hget, hgp _ (List.getElem_mem hj)]
    · unfold placedLen
      rw [hpc]
      show ((s.thr i).asg ++ entries u idx pos g).length + 0 = (s.thr i).asg.length + g.length
      rw [List.length_append, entries, List.length_map, List.length_range, Nat.add_zero]
  | more hpc h =>
    subst hth hsh
    exact ⟨H, m, I.pcMove hi (by rw [hpc]; rfl) (by rw [hpc]; intro; rfl) (by rw [hpc]; rfl) (fun h' => absurd h' h)⟩
  | level hpc h =>
    subst hth hsh; rw [hpc] at hp
    refine ⟨H, m, I.same hi (Nat.le_refl _) I.hw I.tile (fun j hj => wr_other _ _ hj) ?_ ?_ ?_ ?_ ?_⟩
    · intro v
      rw [hpc, count_fr, count_fr, h]
      show (infl (.scan 0 (s.sh.loc i + 1))).count v + (((s.thr i).nxt.flatMap (expand t k)).count v + 0) + _ = _
      simp only [infl, List.flatMap_nil, List.count_nil]
      omega
    · intro b; rw [hpc]; rfl
    · intro b p h
      rcases h with h | ⟨_, _, _, h, _⟩
      · exact Or.inl h
      · rw [hpc] at h; simp [pend] at h
    · refine ⟨?_, ?_, ?_, ?_, hI.ent⟩
      · show s.sh.loc i + 1 ≤ m ∧ [] = []
        exact ⟨hp, rfl⟩
      · show wr s.sh.loc i (s.sh.loc i + 1) i ≤ m
        rw [wr_same]; exact hp
      · intro l hl
        show Iter t ch k H (wr s.sh.loc i (s.sh.loc i + 1) i) [] false l
        rw [wr_same]
        have hn := hI.nxt l hl
        rw [hpc] at hn
        obtain ⟨u, pre, h1, h2, h3, h4⟩ := hn
        refine ⟨u, pre, h1, h2, ?_, ?_⟩
        · intro y hy hyk
          rcases h3 y hy hyk with ⟨c, hc1, hc2, hc3⟩ | h
          · have hc3' : c.1 ≤ s.sh.loc i := hc3
            exact Or.inl ⟨c, hc1, hc2, by omega⟩
          · exact Or.inr h
        · intro hk
          rcases h4 hk with ⟨c, hc1, hc2, hc3⟩ | h
          · have hc3' : c.1 ≤ s.sh.loc i := hc3
            exact ⟨c, hc1, hc2, by omega⟩
          · simp [infl] at h
      · intro l hl
        simp at hl
    · unfold placedLen; rw [hpc]; rfl
  | scan j mn hpc h =>
    subst hth hsh; rw [hpc] at hp
    exact ⟨H, m, I.pcMove hi (by rw [hpc]; rfl) (by rw [hpc]; intro; rfl) (by rw [hpc]; rfl)
      ⟨by have := hp.1; omega, hp.2⟩⟩
  | scanEnd j mn hpc h =>
    subst hth hsh; rw [hpc] at hp
    exact ⟨H, m, I.pcMove hi (by rw [hpc]; rfl) (by rw [hpc]; intro; rfl) (by rw [hpc]; rfl) hp⟩
  | raise2 mn hpc =>
    subst hth hsh; rw [hpc] at hp
    exact ⟨H, m, I.pcMove hi (by rw [hpc]; rfl) (by rw [hpc]; intro; rfl) (by rw [hpc]; rfl) hp⟩
  | cas2Done mn cur hpc h =>
    subst hth hsh; rw [hpc] at hp
    exact ⟨H, m, I.pcMove hi (by rw [hpc]; rfl) (by rw [hpc]; intro; rfl) (by rw [hpc]; rfl) (fun _ => hp.2)⟩
  | cas2Ok mn cur hpc h hcur =>
    subst hth hsh
    rw [hpc] at hp
    refine ⟨H, m, I.hwUp hi (by omega) (by have := hp.1; omega) ?_⟩
    unfold PcInv
    rw [hpc]
    exact hp
  | cas2Fail mn cur hpc h hcur =>
    subst hth hsh; rw [hpc] at hp
    exact ⟨H, m, I.pcMove hi (by rw [hpc]; rfl) (by rw [hpc]; intro; rfl) (by rw [hpc]; rfl) hp⟩

theorem Inv.steps (hc : ChildsOK t ch) (hmx : 0 < mx)
    (hst : ∀ v, v < t.n → t.par v ≠ v → t.start v ≠ kInvalid ∧ t.start v ≤ t.stop v)
    {s s' : St} (hs : Steps t ch k mx T s s') (h : ∃ H m, Inv t ch roots k mx T s H m) : ∃ H m, Inv t ch roots k mx T s' H m := by
  induction hs with
  | refl => exact h
  | tail _ hstep ih =>
    obtain ⟨H, m, I⟩ := ih
    cases hstep with
    | mk i hi sh' th' hts => exact I.tstep hc hmx hst hi hts

open scoped BigOperators

theorem sum_count_flatMap (T : Nat) (f : Nat → List Nat) (x : Nat) :
    ((List.range T).flatMap f).count x = ∑ i ∈ Finset.range T, (f i).count x := by
  induction T with
  | zero => simp
  | succ T ih => rw [List.range_succ, List.flatMap_append, List.count_append, ih, Finset.sum_range_succ]; simp

/-- the state before the parallel loop satisfies the invariant -/
theorem Inv.init (hc : ChildsOK t ch) {dist : Nat → List Nat} (hd : ((List.range T).flatMap dist).Perm roots)
    (hk : ∀ u ∈ roots, t.ver u ≠ k) :
    Inv t ch roots k mx T (initSt t ch k dist 0 (fun _ => 0) (fun _ => 0)) [] 0 := by
  have hmem : ∀ i < T, ∀ u ∈ dist i, u ∈ roots := fun i hi u hu =>
    hd.mem_iff.1 (List.mem_flatMap.2 ⟨i, List.mem_range.2 hi, hu⟩)
  refine ⟨?_, ?_, ?_, ?_, ?_, ?_, ?_, ?_, ?_, ?_⟩
  · intro v
    have e1 : ∀ i, (fr t k ((initSt t ch k dist 0 (fun _ => 0) (fun _ => 0)).thr i)).count v =
        if Edge t k v then (dist i).count (t.par v) else 0 := by
      intro i
      rw [count_fr]
      show (((dist i).flatMap (pushIter t ch k)).flatMap (expand t k)).count v + ([] : List Nat).count v = _
      rw [count_flatMap_pushIter hc]
      rfl
    simp only [e1]
    show ([] : List Nat).count v + ∑ i ∈ Finset.range T, (([] : List Nat).count v + _) = if Edge t k v then
      roots.count (t.par v) + (([] : List Nat).count (t.par v) + ∑ i ∈ Finset.range T, ([] : List Nat).count (t.par v)) else 0
    by_cases he : Edge t k v
    · simp only [if_pos he, List.count_nil, Nat.zero_add, Finset.sum_const_zero, Nat.add_zero]
      rw [← hd.count_eq, sum_count_flatMap]
    · simp only [if_neg he, List.count_nil, Nat.zero_add, Finset.sum_const_zero]
  · intro b; exact ⟨Nat.le_refl _, Or.inl rfl⟩
  · intro b; simp [content]
  · exact Nat.le_refl _
  · intro i hi
    refine ⟨fun _ => rfl, Nat.le_refl _, ?_, ?_, ?_⟩
    · intro l hl
      have hl' : l ∈ (dist i).flatMap (pushIter t ch k) := hl
      rw [List.mem_flatMap] at hl'
      obtain ⟨x, hx, hxl⟩ := hl'
      unfold pushIter at hxl
      split at hxl
      · simp at hxl
      · rename_i w r' heq
        rw [List.mem_singleton] at hxl
        subst hxl
        refine ⟨x, (ch x).takeWhile (fun v => decide (t.ver v ≠ k)), ?_, ⟨w, r', rfl, ?_⟩, ?_, ?_⟩
        · rw [← heq, List.takeWhile_append_dropWhile]
        · have := List.head_dropWhile_not (p := fun v => decide (t.ver v ≠ k)) (l := ch x) (by rw [heq]; simp)
          simp only [heq, List.head_cons] at this
          simpa using this
        · intro y hy hyk
          have := List.mem_takeWhile_imp hy
          simp only [decide_eq_true_eq] at this
          exact absurd hyk this
        · intro h
          exact absurd h (hk x (hmem i hi x hx))
    · intro l hl
      have hl' : l ∈ ([] : List (List Nat)) := hl
      simp at hl'
    · intro e he
      have he' : e ∈ ([] : List Entry) := he
      simp at he'
  · intro b p h; simp [content] at h
  · intro b
    show 0 + ∑ i ∈ Finset.range T, 0 = _
    simp [content]
  · intro c h; simp at h
  · show ∑ i ∈ Finset.range T, 0 = _
    simp [hnodes]
  · intro H1 c H2 h; simp at h

end Uncontract
end Verif
