import Verif.Lemmas.Batches2
import Verif.Lemmas.Maps
import Mathlib.Data.List.TakeWhile
/-! Every step of a thread preserves the invariant. -/
namespace Verif
namespace Uncontract
open Schedule
open SMap (wr)

theorem count_fr (t : CTree) (k : Nat) (th : Thr) (v : Nat) : (fr t k th).count v =
    (th.pq.flatMap (expand t k)).count v + (th.nxt.flatMap (expand t k)).count v := by
  unfold fr; rw [List.flatMap_append, List.count_append]

variable {t : CTree} {ch : Nat → List Nat} {roots : List Nat} {k mx T : Nat}

theorem Inv.take (hc : ChildsOK t ch)
    (hst : ∀ v, v < t.n → t.par v ≠ v → t.start v ≠ kInvalid ∧ t.start v ≤ t.stop v)
    {s : St} {H : Hist} {m : Nat} (I : Inv t ch roots k mx T s H m) {i : Nat} (hi : i < T)
    {p1 p2 : List (List Nat)} {v : Nat} {r : List Nat}
    (hpc : (s.thr i).pc = .idle) (hpq : (s.thr i).pq = p1 ++ (v :: r) :: p2) :
    Inv t ch roots k mx T { sh := s.sh, thr := fun j => if j = i then
        { (s.thr i) with
          pq := p1 ++ p2 ++ pushRest t k (grow t k (t.start v, t.stop v) r).2
          nxt := (s.thr i).nxt ++ (v :: (grow t k (t.start v, t.stop v) r).1).flatMap (pushIter t ch k)
          pc := .check (t.par v) (v :: (grow t k (t.start v, t.stop v) r).1) } else s.thr j } H m := by
  have hI := I.thr i hi
  have heff : eff (s.sh.loc i) (s.thr i).pc = s.sh.loc i := by rw [hpc]; rfl
  have hinf : infl (s.thr i).pc = [] := by rw [hpc]; rfl
  have hpqI : ∀ l ∈ (s.thr i).pq, Iter t ch k H (s.sh.loc i) [] false l := by
    intro l hl; have := hI.pq l hl; rwa [heff, hinf] at this
  have hnxI : ∀ l ∈ (s.thr i).nxt, Iter t ch k H (s.sh.loc i) [] true l := by
    intro l hl; have := hI.nxt l hl; rwa [heff, hinf] at this
  obtain ⟨u0, pre, hch, hv, hpre, hpar⟩ := hpqI (v :: r) (by rw [hpq]; simp)
  have hvk : t.ver v = k := by
    obtain ⟨v', r', h1, h2⟩ := hv
    injection h1 with h1 _
    rw [h1]; exact h2
  have hvm : v ∈ ch u0 := by rw [hch]; simp
  have hu0 : t.par v = u0 := ((hc.mem u0 v).1 hvm).2.1
  have hmem : ∀ y ∈ v :: r, y < t.n ∧ t.par y = u0 ∧ y ≠ u0 := fun y hy =>
    (hc.mem u0 y).1 (by rw [hch]; exact List.mem_append_right _ hy)
  have hsort : (v :: r).Pairwise (fun a b => t.before a b = true) := by
    have := hc.sorted u0
    rw [hch] at this
    exact (List.pairwise_append.1 this).2.1
  have hs' := List.pairwise_cons.1 hsort
  have hkr : ∀ y ∈ r, k ≤ t.ver y := by
    intro y hy
    have := (before_iff t v y).1 (hs'.1 y hy)
    omega
  generalize hg : (grow t k (t.start v, t.stop v) r).1 = g
  generalize hl : (grow t k (t.start v, t.stop v) r).2 = l
  have happ : g ++ l = r := by rw [← hg, ← hl]; exact grow_append t k r _
  have hgv : ∀ x ∈ g, t.ver x = k := by rw [← hg]; exact grow_ver t k r _
  have hvs := hst v (hmem v (by simp)).1 (by have := hmem v (by simp); omega)
  have hgs := grow_spec t k r (t.start v, t.stop v) [v] hs'.2
    (fun y hy _ => hst y (hmem y (by simp [hy])).1 (by have := hmem y (by simp [hy]); omega)) hkr
    (by
      intro x hx y hy hyk
      simp only [List.mem_singleton] at hx; subst hx
      have := (before_iff t x y).1 (hs'.1 y hy)
      omega)
    (by intro x hx; simp only [List.mem_singleton] at hx; subst hx; simp)
    (by intro x hx; simp only [List.mem_singleton] at hx; subst hx; exact hvs.2)
    ⟨v, by simp, rfl⟩ hvs.1
  rw [hg, hl] at hgs
  have hlr : l.Pairwise (fun a b => t.before a b = true) := by
    have := hs'.2
    rw [← happ] at this
    exact (List.pairwise_append.1 this).2.1
  have hlk : ∀ y ∈ l, k ≤ t.ver y := fun y hy => hkr y (by rw [← happ]; simp [hy])
  have hlink : Linked t (v :: g) := by
    intro a b hab ha hb
    cases a with
    | nil => exact absurd rfl ha
    | cons a0 a =>
      cases b with
      | nil => exact absurd rfl hb
      | cons w b =>
        rw [List.cons_append] at hab
        injection hab with h1 h2
        subst h1
        obtain ⟨x, hx, ho⟩ := hgs.2 a w b h2
        exact ⟨x, by simpa using hx, w, by simp, ho⟩
  apply I.same hi (Nat.le_refl _) I.hw I.tile (fun _ _ => rfl)
  · intro w
    have e1 : (expand t k (v :: r)).count w = (v :: g).count w + (expand t k l).count w := by
      rw [← List.count_append]
      congr 1
      rw [← happ]
      unfold expand
      rw [← List.cons_append, List.filter_append, List.filter_eq_self.2]
      intro x hx
      rcases List.mem_cons.1 hx with rfl | hx
      · simpa using hvk
      · simpa using hgv x hx
    have e2 := count_flatMap_pushIter hc k w (v :: g)
    have e3 := pushRest_expand t k hlr hlk
    rw [hpc]
    rw [count_fr, count_fr, hpq]
    simp only [infl, List.flatMap_append, List.flatMap_cons, List.count_append, List.count_nil, e3]
    rw [List.flatMap_cons, List.flatMap_append, List.count_append] at e2
    by_cases he : Edge t k w
    · rw [if_pos he]; rw [if_pos he]
      rw [if_pos (show w < t.n ∧ t.par w ≠ w ∧ t.ver w = k from he)] at e2
      omega
    · rw [if_neg he]; rw [if_neg he]
      rw [if_neg (show ¬(w < t.n ∧ t.par w ≠ w ∧ t.ver w = k) from he)] at e2
      omega
  · intro b; rw [hpc]; rfl
  · intro b p h
    rcases h with h | ⟨u, g, pos, h, _⟩
    · exact Or.inl h
    · rw [hpc] at h; simp [pend] at h
  · refine ⟨?_, hI.locm, ?_, ?_, hI.ent⟩
    · show Grp t ch k H (s.sh.loc i) (t.par v) (v :: g)
      rw [hu0]
      refine ⟨pre, l, by rw [hch, ← happ]; simp, by simp, ?_, ?_, ?_, hlink, ?_⟩
      · intro x hx
        rcases List.mem_cons.1 hx with rfl | hx
        · exact hvk
        · exact hgv x hx
      · intro y hy hyk
        rcases hpre y hy hyk with h | h
        · exact h
        · simp at h
      · intro x hx y hy hyk
        exact hgs.1 x (by simpa using hx) y hy hyk
      · intro hk; simpa using hpar hk
    · intro l' hl'
      show Iter t ch k H (s.sh.loc i) (v :: g) false l'
      rcases List.mem_append.1 hl' with h | h
      · have := (hpqI l' (by rw [hpq]; rcases List.mem_append.1 h with h | h <;> simp [h])).mono (fl' := v :: g) [] (Nat.le_refl _)
          (by intro y hy; simp at hy)
        rwa [List.append_nil] at this
      · have hl'l : l' = l ∧ ∃ w r', l = w :: r' ∧ t.ver w = k := by
          cases l with
          | nil => simp [pushRest] at h
          | cons w r' =>
            have h' : l' ∈ (if t.ver w = k then [w :: r'] else []) := h
            split at h'
            · rename_i hwk
              exact ⟨by simpa using h', w, r', rfl, hwk⟩
            · simp at h'
        obtain ⟨rfl, hw⟩ := hl'l
        refine ⟨u0, pre ++ v :: g, by rw [hch, ← happ]; simp, hw, ?_, ?_⟩
        · intro y hy hyk
          rcases List.mem_append.1 hy with hy | hy
          · rcases hpre y hy hyk with h | h
            · exact Or.inl h
            · simp at h
          · exact Or.inr hy
        · exact hpar
    · intro l' hl'
      show Iter t ch k H (s.sh.loc i) (v :: g) true l'
      rcases List.mem_append.1 hl' with h | h
      · have := (hnxI l' h).mono (fl' := v :: g) [] (Nat.le_refl _) (by intro y hy; simp at hy)
        rwa [List.append_nil] at this
      · rw [List.mem_flatMap] at h
        obtain ⟨x, hx, hxl⟩ := h
        unfold pushIter at hxl
        split at hxl
        · simp at hxl
        · rename_i w r' heq
          rw [List.mem_singleton] at hxl
          subst hxl
          refine ⟨x, (ch x).takeWhile (fun v => decide (t.ver v ≠ k)), ?_, ⟨w, r', rfl, ?_⟩, ?_, ?_⟩
          · rw [← heq, List.takeWhile_append_dropWhile]
          · have := List.head_dropWhile_not (p := fun v => decide (t.ver v ≠ k)) (l := ch x) (by rw [heq]; simp)
            simp only [heq, List.head_cons] at this
            simpa using this
          · intro y hy hyk
            have := List.mem_takeWhile_imp hy
            simp only [decide_eq_true_eq] at this
            exact absurd hyk this
          · intro _
            simp only [if_true]
            exact Or.inr hx
  · unfold placedLen
    rw [hpc]; rfl

theorem Inv.fetchOk (hmx : 0 < mx) (hc : ChildsOK t ch) {s : St} {H : Hist} {m : Nat} (I : Inv t ch roots k mx T s H m) {i : Nat} (hi : i < T)
    {u : Nat} {g : List Nat} {idx : Nat} {hw : Bool} (hpc : (s.thr i).pc = .find u g idx hw) (hlt : s.sh.cnt idx < mx) :
    ∃ H' m', Inv t ch roots k mx T (St.mk { s.sh with cnt := wr s.sh.cnt idx (s.sh.cnt idx + g.length) }
      (fun j => if j = i then { (s.thr i) with pc := .addSize u g idx (s.sh.cnt idx) hw } else s.thr j)) H' m' := by
  have hI := I.thr i hi
  have hp := hI.pc
  unfold PcInv at hp
  rw [hpc] at hp
  obtain ⟨hG, hloc, hm⟩ := hp
  have hcnt : s.sh.cnt idx = (content H idx).length := by
    rcases (I.tile idx).2 with h | h
    · exact h
    · have := (I.tile idx).1; omega
  have hgne : g ≠ [] := by obtain ⟨_, _, _, h, _⟩ := hG; exact h
  have hgpar : ∀ x ∈ g, t.par x = u := by
    intro x hx
    obtain ⟨pre, rest, h, _⟩ := hG
    exact ((hc.mem u x).1 (by rw [h]; simp [hx])).2.1
  have hm' : m ≤ max m (idx + 1) := Nat.le_max_left _ _
  refine ⟨H ++ [(idx, g)], max m (idx + 1), ?_, ?_, ?_, ?_, ?_, ?_, ?_, ?_, ?_, ?_⟩
  · intro v
    have e1 := sum_upd T i hi s.thr { (s.thr i) with pc := .addSize u g idx (s.sh.cnt idx) hw }
      (fun th => (infl th.pc).count v + (fr t k th).count v)
    have e2 := sum_upd T i hi s.thr { (s.thr i) with pc := .addSize u g idx (s.sh.cnt idx) hw }
      (fun th => (infl th.pc).count (t.par v))
    have e3 := I.lin v
    have e4 : ∀ x, (hnodes (H ++ [(idx, g)])).count x = (hnodes H).count x + g.count x := by
      intro x; unfold hnodes; simp
    have e5 : ∀ x, (infl (s.thr i).pc).count x = g.count x := by intro x; rw [hpc]; rfl
    have e6 : ∀ x, (fr t k { (s.thr i) with pc := .addSize u g idx (s.sh.cnt idx) hw }).count x = (fr t k (s.thr i)).count x :=
      fun x => rfl
    simp only [e5] at e1 e2
    rw [e6] at e1
    simp only [infl, List.count_nil] at e1 e2
    rw [e4, e4]
    by_cases he : Edge t k v
    · rw [if_pos he] at e3 ⊢
      simp only [infl] at *
      omega
    · rw [if_neg he] at e3 ⊢
      simp only [infl] at *
      omega
  · intro b
    rw [content_append, content_single]
    show _ ≤ wr s.sh.cnt idx (s.sh.cnt idx + g.length) b ∧ (wr s.sh.cnt idx (s.sh.cnt idx + g.length) b = _ ∨ _)
    by_cases hb : idx = b
    · subst hb
      rw [if_pos rfl, wr_same, List.length_append, hcnt]
      omega
    · rw [if_neg hb, wr_other _ _ (fun h => hb h.symm), List.append_nil]
      exact I.tile b
  · intro b
    rw [content_append, content_single]
    have := I.mm b
    by_cases hb : idx = b
    · subst hb
      rw [if_pos rfl]
      constructor
      · intro _; omega
      · intro _ h
        exact hgne (List.append_eq_nil_iff.1 h).2
    · rw [if_neg hb, List.append_nil, this]
      omega
  · show s.sh.hwm ≤ _
    have := I.hw
    omega
  · intro j hj
    show ThrInv t ch k _ _ s.sh.hwm (s.sh.loc j) (if j = i then _ else s.thr j)
    by_cases h : j = i
    · rw [if_pos h]
      subst h
      have hI' := hI.mono [(idx, g)] hm' (Nat.le_refl _)
      have heff : eff (s.sh.loc j) (s.thr j).pc = s.sh.loc j := by rw [hpc]; rfl
      have hinf : infl (s.thr j).pc = g := by rw [hpc]; rfl
      have hfl : ∀ y ∈ g, BatchLe (H ++ [(idx, g)]) y idx ∨ y ∈ ([] : List Nat) := fun y hy =>
        Or.inl ⟨(idx, g), by simp, hy, Nat.le_refl _⟩
      refine ⟨?_, by have := hI.locm; omega, ?_, ?_, hI'.ent⟩
      · show Placed _ _ _ _ ∧ _
        refine ⟨⟨H, [], rfl, hcnt⟩, hloc, by omega, hgpar⟩
      · intro l hl
        have := hI.pq l hl
        rw [heff, hinf] at this
        exact this.mono _ hloc hfl
      · intro l hl
        have := hI.nxt l hl
        rw [heff, hinf] at this
        exact this.mono _ hloc hfl
    · rw [if_neg h]
      exact (I.thr j hj).mono _ hm' (Nat.le_refl _)
  · intro b p hp
    rw [content_append, content_single, List.length_append] at hp
    by_cases hlt' : p < (content H b).length
    · obtain ⟨j, hj, hcv⟩ := I.cover b p hlt'
      refine ⟨j, hj, ?_⟩
      show Covers (if j = i then _ else s.thr j) b p
      by_cases h : j = i
      · rw [if_pos h]
        subst h
        rcases hcv with h | ⟨u', g', pos', h', _⟩
        · exact Or.inl h
        · rw [hpc] at h'; simp [pend] at h'
      · rw [if_neg h]; exact hcv
    · refine ⟨i, hi, ?_⟩
      show Covers (if i = i then _ else s.thr i) b p
      rw [if_pos rfl]
      by_cases hb : idx = b
      · subst hb
        rw [if_pos rfl] at hp
        refine Or.inr ⟨u, g, s.sh.cnt idx, rfl, by omega, by omega⟩
      · rw [if_neg hb] at hp
        simp at hp
        omega
  · intro b
    have e1 := sum_upd T i hi s.thr { (s.thr i) with pc := .addSize u g idx (s.sh.cnt idx) hw } (fun th => pendSize b th.pc)
    have e2 := I.sizes b
    rw [content_append, content_single, List.length_append]
    have e3 : pendSize b (s.thr i).pc = 0 := by rw [hpc]; rfl
    have e4 : pendSize b (Pc.addSize u g idx (s.sh.cnt idx) hw) = if idx = b then g.length else 0 := rfl
    simp only [e3, e4] at e1
    show s.sh.size b + ∑ j ∈ Finset.range T, pendSize b (if j = i then _ else s.thr j).pc = _
    by_cases hb : idx = b
    · rw [if_pos hb] at e1 ⊢
      omega
    · rw [if_neg hb] at e1 ⊢
      rw [List.length_nil]
      omega
  · intro c hcm
    rcases List.mem_append.1 hcm with h | h
    · obtain ⟨u', hu'⟩ := I.hist c h
      exact ⟨u', hu'.mono _ (Nat.le_refl _)⟩
    · rw [List.mem_singleton] at h
      subst h
      exact ⟨u, hG.mono _ hloc⟩
  · have e1 := sum_upd T i hi s.thr (Thr.mk (s.thr i).pq (s.thr i).nxt (s.thr i).asg (.addSize u g idx (s.sh.cnt idx) hw)) placedLen
    have e2 := I.placed
    have e3 : placedLen (s.thr i) = (s.thr i).asg.length := by unfold placedLen; rw [hpc]; rfl
    have e4 : placedLen (Thr.mk (s.thr i).pq (s.thr i).nxt (s.thr i).asg (.addSize u g idx (s.sh.cnt idx) hw)) =
      (s.thr i).asg.length + g.length := rfl
    have e5 : (hnodes (H ++ [(idx, g)])).length = (hnodes H).length + g.length := by unfold hnodes; simp
    rw [e5]
    show ∑ j ∈ Finset.range T, placedLen (if j = i then (Thr.mk (s.thr i).pq (s.thr i).nxt (s.thr i).asg
      (.addSize u g idx (s.sh.cnt idx) hw)) else s.thr j) = _
    omega
  · intro H1 c H2 heq
    rcases List.eq_nil_or_concat H2 with h | ⟨H3, c', h⟩
    · subst h
      have := List.append_inj' heq rfl
      obtain ⟨h1, h2⟩ := this
      subst h1
      injection h2 with h2 _
      subst h2
      show (content H idx).length < mx
      omega
    · subst h
      rw [List.concat_eq_append] at heq
      have heq' : H ++ [(idx, g)] = (H1 ++ c :: H3) ++ [c'] := by rw [heq]; simp
      have := List.append_inj' heq' rfl
      exact I.cap H1 c H3 this.1

end Uncontract
end Verif
