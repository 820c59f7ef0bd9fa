import Verif.Lemmas.Dyn3
import Mathlib.Data.List.Induction
/-! Lemmas: `splice` -/
namespace Verif
namespace Dyn
open SMap (wr)

variable {nx pv nx' pv' : Nat → Nat} {s s' : INA} {u v : Nat} {r t : List Nat}

theorem Path.pre {a b : Nat} {p q : List Nat} (h : Path nx pv a (p ++ q) b) : Path nx pv a p ((q ++ [b]).head (by simp)) := by
  cases q with
  | nil => rw [List.append_nil] at h; exact h
  | cons y q => rw [Path.append_iff] at h; exact h.1

/-- first node of `q ++ [b]` -/
def firstOf (q : List Nat) (b : Nat) : Nat := (q ++ [b]).head (by simp)

theorem firstOf_nil (b : Nat) : firstOf [] b = b := rfl
theorem firstOf_cons (y b : Nat) (q : List Nat) : firstOf (y :: q) b = y := rfl
theorem firstOf_mem (q : List Nat) (b : Nat) : firstOf q b ∈ q ++ [b] := List.head_mem _

/-- cutting a part out of a path -/
theorem Path.cut {a b : Nat} {p m q : List Nat} (h : Path nx pv a (p ++ m ++ q) b) (hnd : (a :: (p ++ m ++ q)).Nodup)
    (hb : b ∉ p ++ m ++ q)
    (h1 : ∀ x ∈ a :: p ++ q, x ≠ lastOf a p → nx' x = nx x) (h2 : ∀ x ∈ p ++ q ++ [b], x ≠ firstOf q b → pv' x = pv x)
    (h3 : nx' (lastOf a p) = firstOf q b) (h4 : pv' (firstOf q b) = lastOf a p) : Path nx' pv' a (p ++ q) b := by
  have hpre : Path nx pv a p (firstOf (m ++ q) b) := by
    rw [List.append_assoc] at h
    exact h.pre
  have hap : (a :: p).Nodup := by
    rw [List.append_assoc, ← List.cons_append] at hnd
    exact (List.nodup_append.1 hnd).1
  have hpq : ∀ x ∈ a :: p, x ∉ q := by
    intro x hx hq
    rw [List.append_assoc, ← List.cons_append] at hnd
    exact (List.nodup_append.1 hnd).2.2 x hx x (by simp [hq]) rfl
  have hqn : q.Nodup := by
    rw [← List.cons_append] at hnd
    exact (List.nodup_append.1 hnd).2.1
  have hlq : lastOf a p ∉ q := hpq _ (lastOf_mem a p)
  cases q with
  | nil =>
    rw [firstOf_nil] at h3 h4
    rw [List.append_nil]
    refine hpre.retarget (fun x hx hl => h1 x (by simpa using hx) hl) (fun x hx => h2 x (by simp [hx]) ?_) h3 h4 hap
    rw [firstOf_nil]
    rintro rfl
    exact hb (by simp [hx])
  | cons y q =>
    rw [firstOf_cons] at h3 h4
    rw [Path.append_iff] at h ⊢
    refine ⟨hpre.retarget (fun x hx hl => h1 x (by simp only [List.mem_append]; exact Or.inl hx) hl)
      (fun x hx => h2 x (by simp [hx]) ?_) h3 h4 hap, h.2.congr ?_ ?_⟩
    · rw [firstOf_cons]
      rintro rfl
      exact hpq x (List.mem_cons_of_mem _ hx) (by simp)
    · intro x hx
      refine h1 x (by simp only [List.mem_append]; exact Or.inr hx) ?_
      rintro rfl
      exact hlq hx
    · intro x hx
      refine h2 x ?_ ?_
      · simp only [List.mem_append, List.mem_cons, List.mem_singleton] at hx ⊢
        tauto
      · rw [firstOf_cons]
        rintro rfl
        rw [List.mem_append, List.mem_singleton] at hx
        rcases hx with hx | rfl
        · exact (List.nodup_cons.1 hqn).1 hx
        · exact hb (by simp)

/-- search backwards for a non-empty list -/
theorem findBack : ∀ (p : List Nat) (k c : Nat), p.length + 1 < k → Path s.nx s.pv u p c → (c = v ∨ s.sz c = 0) → c ≠ u →
    v ∉ p → u ∉ p → s.findNonEmpty s.pv v u k c = some (lastOf u (p.filter (fun x => decide (s.sz x ≠ 0)))) := by
  intro p
  induction p using List.reverseRecOn with
  | nil =>
    intro k c hk hp hc hcu _ _
    match k, hk with
    | k + 2, _ =>
      rw [INA.findNonEmpty, if_pos ⟨hc, hcu⟩, hp.2, INA.findNonEmpty, if_neg (by simp)]
      rfl
  | append_singleton p x ih =>
    intro k c hk hp hc hcu hv hu
    match k, hk with
    | k + 1, hk =>
      rw [Path.snoc_iff] at hp
      obtain ⟨h1, h2, h3⟩ := hp
      have hxv : x ≠ v := by rintro rfl; exact hv (by simp)
      have hxu : x ≠ u := by rintro rfl; exact hu (by simp)
      rw [INA.findNonEmpty, if_pos ⟨hc, hcu⟩, h3]
      by_cases h0 : s.sz x = 0
      · rw [ih k x (by simp at hk; omega) h1 (Or.inr h0) hxu (fun h => hv (by simp [h])) (fun h => hu (by simp [h]))]
        rw [List.filter_append, List.filter_singleton]
        simp [h0]
      · match k, hk with
        | k + 1, hk =>
          rw [INA.findNonEmpty, if_neg (by simp [hxv, h0])]
          rw [List.filter_append, List.filter_singleton]
          simp only [h0, ne_eq, not_false_eq_true, decide_true, cond_true]
          rw [lastOf_append]; rfl
        | 0, hk => simp at hk

/-- search forwards for a non-empty list -/
theorem findForth {w : Nat} : ∀ (q : List Nat) (k c : Nat), q.length + 1 < k → Path s.nx s.pv c q u → (c = w ∨ s.sz c = 0) → c ≠ u →
    w ∉ q → u ∉ q → s.findNonEmpty s.nx w u k c = some (firstOf (q.filter (fun x => decide (s.sz x ≠ 0))) u) := by
  intro q
  induction q with
  | nil =>
    intro k c hk hp hc hcu _ _
    match k, hk with
    | k + 2, _ =>
      rw [INA.findNonEmpty, if_pos ⟨hc, hcu⟩, hp.1, INA.findNonEmpty, if_neg (by simp)]
      rfl
  | cons x q ih =>
    intro k c hk hp hc hcu hv hu
    match k, hk with
    | k + 1, hk =>
      obtain ⟨h1, h2, h3⟩ := hp
      have hxv : x ≠ w := by rintro rfl; exact hv (by simp)
      have hxu : x ≠ u := by rintro rfl; exact hu (by simp)
      rw [INA.findNonEmpty, if_pos ⟨hc, hcu⟩, h1]
      by_cases h0 : s.sz x = 0
      · rw [ih k x (by simp at hk; omega) h3 (Or.inr h0) hxu (fun h => hv (by simp [h])) (fun h => hu (by simp [h]))]
        rw [List.filter_cons]
        simp [h0]
      · match k, hk with
        | k + 1, hk =>
          rw [INA.findNonEmpty, if_neg (by simp [hxv, h0])]
          rw [List.filter_cons]
          simp only [h0, ne_eq, not_false_eq_true, decide_true, if_true]
          rfl
        | 0, hk => simp at hk

/-- The list of `v` behind a call of `splice`: the links between non-empty lists are not complete. -/
structure Part (s : INA) (v : Nat) (r : List Nat) : Prop where
  nodup : (v :: r).Nodup
  ring : Path s.nx s.pv v r v
  head : s.hd v = true
  inner : ∀ x ∈ r, s.hd x = false
  empty : ∀ x ∈ r, s.sz x = 0 → s.inx x = x ∧ s.ipv x = x
  link : ∀ c ∈ r, ∀ l ∈ v :: r, s.ipv c = l → s.inx l = c

theorem RingRep.part (h : RingRep s v r) : Part s v r := by
  refine ⟨h.nodup, h.ring, h.head, h.inner, h.empty, ?_⟩
  intro c hc l _ hl
  by_cases h0 : s.sz c = 0
  · have := h.empty c hc h0
    rw [← hl, this.2]; exact this.1
  · rw [← hl]
    refine h.it.nx_pv c ?_
    rw [List.mem_append, List.mem_filter]
    exact Or.inl ⟨hc, by simp [h0]⟩

/-- `splice` -/
theorem RingRep.splice {a b : List Nat} (h : RingRep s u (a ++ (v :: r) ++ b)) (ht : s.tl v = lastOf v r)
    (hn : (a ++ (v :: r) ++ b).length ≤ s.n) :
    ∃ s', s.splice u v = some s' ∧ RingRep s' u (a ++ b) ∧ Part s' v r ∧
      s'.ent = s.ent ∧ s'.sz = s.sz ∧ s'.vr = s.vr ∧ s'.dg = s.dg ∧ s'.n = s.n ∧ s'.tl = s.tl ∧ s'.hd = wr s.hd v true ∧
      (∀ x, x ∉ u :: (a ++ (v :: r) ++ b) → s'.nx x = s.nx x ∧ s'.pv x = s.pv x ∧ s'.inx x = s.inx x ∧ s'.ipv x = s.ipv x) := by
  let f : Nat → Bool := fun x => decide (s.sz x ≠ 0)
  have hnd := h.nodup
  have hur : u ∉ a ++ (v :: r) ++ b := (List.nodup_cons.1 hnd).1
  have hua : u ∉ a := fun hh => hur (by simp [hh])
  have hub : u ∉ b := fun hh => hur (by simp [hh])
  have huv : u ≠ v := fun hh => hur (by simp [hh])
  have hrn := (List.nodup_cons.1 hnd).2
  rw [List.append_assoc, List.nodup_append] at hrn
  obtain ⟨hna, hnvb, hdab⟩ := hrn
  rw [List.nodup_append] at hnvb
  obtain ⟨hnv, hnb, hdvb⟩ := hnvb
  have hava : ∀ x ∈ v :: r, x ∉ a := fun x hx hx' => hdab x hx' x (List.mem_append_left _ hx) rfl
  have havb : ∀ x ∈ v :: r, x ∉ b := fun x hx hx' => hdvb x hx x hx' rfl
  have huvr : u ∉ v :: r := fun hh => hur (List.mem_append_left _ (List.mem_append_right _ hh))
  -- the main ring
  have hring := h.ring
  have hp1 : Path s.nx s.pv u a v := by
    have := hring
    rw [List.append_assoc, List.cons_append, Path.append_iff] at this
    exact this.1
  have hp2 : Path s.nx s.pv v (r ++ b) u := by
    have := hring
    rw [List.append_assoc, List.cons_append, Path.append_iff] at this
    exact this.2
  have hp3 : Path s.nx s.pv v r (firstOf b u) := hp2.pre
  have hp4 : Path s.nx s.pv (lastOf v r) b u := by
    rcases List.eq_nil_or_concat r with h0 | ⟨r', w, h0⟩
    · subst h0; exact hp2
    · have h0' : r = r' ++ [w] := by simpa using h0
      subst h0'
      rw [lastOf_append]
      rw [List.append_assoc, List.singleton_append, Path.append_iff] at hp2
      exact hp2.2
  have hpv : s.pv v = lastOf u a := hp1.last.2
  have hnt : s.nx (lastOf v r) = firstOf b u := hp3.last.1
  have htm : lastOf v r ∈ v :: r := lastOf_mem v r
  have lA : lastOf u a ∈ u :: a := lastOf_mem u a
  have fB : firstOf b u ∈ b ++ [u] := firstOf_mem b u
  have lAv : lastOf u a ∉ v :: r := by
    intro hh
    rw [List.mem_cons] at lA
    rcases lA with h | h
    · rw [h] at hh; exact huvr hh
    · exact hava _ hh h
  have fBv : firstOf b u ∉ v :: r := by
    intro hh
    rw [List.mem_append, List.mem_singleton] at fB
    rcases fB with h | h
    · exact havb _ hh h
    · rw [h] at hh; exact huvr hh
  -- searches
  have hfb : s.findNonEmpty s.pv v u (s.n + 1) v = some (lastOf u (a.filter f)) :=
    findBack a (s.n + 1) v (by simp at hn; omega) hp1 (Or.inl rfl) huv.symm (hava v (by simp)) hua
  have hff : s.findNonEmpty s.nx (s.tl v) u (s.n + 1) (s.tl v) = some (firstOf (b.filter f) u) := by
    rw [ht]
    refine findForth b (s.n + 1) _ (by simp at hn; omega) hp4 (Or.inl rfl) ?_ (havb _ htm) hub
    intro hh
    rw [hh] at htm
    exact huvr htm
  -- the iterator ring
  have hit := h.it
  have hfilt : (a ++ (v :: r) ++ b).filter f = a.filter f ++ (v :: r).filter f ++ b.filter f := by
    rw [List.filter_append, List.filter_append]
  have hit' : Path s.inx s.ipv u (a.filter f ++ (v :: r).filter f ++ b.filter f) u := by
    rw [← hfilt]; exact hit
  have hndf : (u :: (a.filter f ++ (v :: r).filter f ++ b.filter f)).Nodup := by
    rw [← hfilt]
    exact (List.filter_sublist.cons_cons u).nodup hnd
  have huf : u ∉ a.filter f ++ (v :: r).filter f ++ b.filter f := (List.nodup_cons.1 hndf).1
  have lA' : lastOf u (a.filter f) ∈ u :: a := (List.filter_sublist.cons_cons u).subset (lastOf_mem u (a.filter f))
  have fB' : firstOf (b.filter f) u ∈ b ++ [u] := by
    have := firstOf_mem (b.filter f) u
    rw [List.mem_append] at this ⊢
    rcases this with h | h
    · exact Or.inl (List.mem_filter.1 h).1
    · exact Or.inr h
  have lAv' : lastOf u (a.filter f) ∉ v :: r := by
    intro hh
    rw [List.mem_cons] at lA'
    rcases lA' with h | h
    · rw [h] at hh; exact huvr hh
    · exact hava _ hh h
  have fBv' : firstOf (b.filter f) u ∉ v :: r := by
    intro hh
    rw [List.mem_append, List.mem_singleton] at fB'
    rcases fB' with h | h
    · exact havb _ hh h
    · rw [h] at hh; exact huvr hh
  set A := lastOf u (a.filter f) with hA
  set B := firstOf (b.filter f) u with hB
  refine ⟨s.unlink v A B, ?_, ?_, ?_, rfl, rfl, rfl, rfl, rfl, rfl, rfl, ?_⟩
  · unfold INA.splice
    rw [hfb, hff]
  · have enx : (s.unlink v A B).nx = wr (wr s.nx (lastOf v r) v) (lastOf u a) (firstOf b u) := by
      show wr (wr s.nx (s.tl v) v) (s.pv v) (s.nx (s.tl v)) = _
      rw [ht, hpv, hnt]
    have epv : (s.unlink v A B).pv = wr (wr s.pv v (lastOf v r)) (firstOf b u) (lastOf u a) := by
      show wr (wr s.pv v (s.tl v)) (s.nx (s.tl v)) (s.pv v) = _
      rw [ht, hpv, hnt]
    refine ⟨?_, ?_, ?_, ?_, ?_, ?_⟩
    · have hsub : (a ++ b).Sublist (a ++ (v :: r) ++ b) := by
        rw [List.append_assoc]
        exact (List.Sublist.refl a).append (List.sublist_append_right _ _)
      exact (hsub.cons_cons u).nodup hnd
    · rw [enx, epv]
      refine Path.cut hring hnd hur ?_ ?_ ?_ ?_
      · intro x hx hxl
        rw [wr_other _ _ hxl, wr_other]
        rintro rfl
        rw [List.mem_append, List.mem_cons] at hx
        rcases hx with (h | h) | h
        · exact huvr (h ▸ htm)
        · exact hava _ htm h
        · exact havb _ htm h
      · intro x hx hxl
        rw [wr_other _ _ hxl, wr_other]
        rintro rfl
        rw [List.mem_append, List.mem_append, List.mem_singleton] at hx
        rcases hx with (h | h) | h
        · exact hava _ (by simp) h
        · exact havb _ (by simp) h
        · exact huv h.symm
      · rw [wr_same]
      · rw [wr_same]
    · show Path (wr s.inx A B) (wr s.ipv B A) u ((a ++ b).filter f) u
      rw [List.filter_append]
      refine Path.cut hit' hndf huf ?_ ?_ ?_ ?_
      · intro x _ hxl; rw [wr_other _ _ hxl]
      · intro x _ hxl; rw [wr_other _ _ hxl]
      · rw [wr_same]
      · rw [wr_same]
    · show wr s.hd v true u = true
      rw [wr_other _ _ huv]; exact h.head
    · intro x hx
      show wr s.hd v true x = false
      rw [wr_other]
      · refine h.inner x ?_
        rw [List.mem_append] at hx
        simp only [List.mem_append, List.mem_cons]
        tauto
      · rintro rfl
        rw [List.mem_append] at hx
        rcases hx with h | h
        · exact hava _ (by simp) h
        · exact havb _ (by simp) h
    · intro x hx h0
      have h0' : s.sz x = 0 := h0
      have hxr : x ∈ a ++ (v :: r) ++ b := by
        rw [List.mem_append] at hx
        simp only [List.mem_append, List.mem_cons]
        tauto
      have hxu : x ≠ u := by rintro rfl; exact hur hxr
      have e := h.empty x hxr h0'
      have hxA : x ≠ A := by
        intro hh
        have := lastOf_mem u (a.filter f)
        rw [← hA, ← hh, List.mem_cons, List.mem_filter] at this
        rcases this with h | ⟨_, h⟩
        · exact hxu h
        · simp [f, h0'] at h
      have hxB : x ≠ B := by
        intro hh
        have := firstOf_mem (b.filter f) u
        rw [← hB, ← hh, List.mem_append, List.mem_singleton, List.mem_filter] at this
        rcases this with ⟨_, h⟩ | h
        · simp [f, h0'] at h
        · exact hxu h
      show wr s.inx A B x = x ∧ wr s.ipv B A x = x
      rw [wr_other _ _ hxA, wr_other _ _ hxB]
      exact e
  · have enx : (s.unlink v A B).nx = wr (wr s.nx (lastOf v r) v) (lastOf u a) (firstOf b u) := by
      show wr (wr s.nx (s.tl v) v) (s.pv v) (s.nx (s.tl v)) = _
      rw [ht, hpv, hnt]
    have epv : (s.unlink v A B).pv = wr (wr s.pv v (lastOf v r)) (firstOf b u) (lastOf u a) := by
      show wr (wr s.pv v (s.tl v)) (s.nx (s.tl v)) (s.pv v) = _
      rw [ht, hpv, hnt]
    have e1 : ∀ x ∈ v :: r, (s.unlink v A B).inx x = s.inx x := by
      intro x hx
      show wr s.inx A B x = _
      rw [wr_other]; rintro rfl; exact lAv' hx
    have e2 : ∀ x ∈ v :: r, (s.unlink v A B).ipv x = s.ipv x := by
      intro x hx
      show wr s.ipv B A x = _
      rw [wr_other]; rintro rfl; exact fBv' hx
    have hvr : v ∉ r := (List.nodup_cons.1 hnv).1
    refine ⟨hnv, ?_, ?_, ?_, ?_, ?_⟩
    · rw [enx, epv]
      refine hp3.retarget ?_ ?_ ?_ ?_ hnv
      · intro x hx hxl
        rw [wr_other, wr_other _ _ hxl]
        rintro rfl; exact lAv hx
      · intro x hx
        rw [wr_other, wr_other]
        · rintro rfl; exact hvr hx
        · rintro rfl; exact fBv (List.mem_cons_of_mem _ hx)
      · rw [wr_other, wr_same]
        intro hh; rw [hh] at htm; exact lAv htm
      · rw [wr_other, wr_same]
        intro hh; rw [← hh] at fBv; exact fBv (by simp)
    · show wr s.hd v true v = true
      rw [wr_same]
    · intro x hx
      show wr s.hd v true x = false
      rw [wr_other]
      · exact h.inner x (by simp [hx])
      · rintro rfl; exact hvr hx
    · intro x hx h0
      rw [e1 x (List.mem_cons_of_mem _ hx), e2 x (List.mem_cons_of_mem _ hx)]
      exact h.empty x (by simp [hx]) h0
    · intro c hc l hl hcl
      rw [e2 c (List.mem_cons_of_mem _ hc)] at hcl
      rw [e1 l hl]
      have := h.part.link c (by simp [hc]) l (by
        rw [List.mem_cons] at hl
        simp only [List.mem_append, List.mem_cons]
        tauto) hcl
      exact this
  · intro x hx
    have hxu : x ≠ u := fun hh => hx (by rw [hh]; simp)
    have hxv : x ≠ v := fun hh => hx (by rw [hh]; simp)
    have mem_a : ∀ y, y ∈ u :: a → x ≠ y := by
      rintro y hy rfl
      refine hx ?_
      rw [List.mem_cons] at hy
      simp only [List.mem_cons, List.mem_append]
      tauto
    have mem_b : ∀ y, y ∈ b ++ [u] → x ≠ y := by
      rintro y hy rfl
      refine hx ?_
      rw [List.mem_append, List.mem_singleton] at hy
      simp only [List.mem_cons, List.mem_append]
      tauto
    have mem_t : x ≠ lastOf v r := by
      intro hh
      refine hx ?_
      rw [← hh] at htm
      rw [List.mem_cons] at htm
      simp only [List.mem_cons, List.mem_append]
      tauto
    refine ⟨?_, ?_, ?_, ?_⟩
    · show wr (wr s.nx (s.tl v) v) (s.pv v) (s.nx (s.tl v)) x = _
      rw [wr_other, wr_other]
      · rw [ht]; exact mem_t
      · rw [hpv]; exact mem_a _ lA
    · show wr (wr s.pv v (s.tl v)) (s.nx (s.tl v)) (s.pv v) x = _
      rw [wr_other, wr_other _ _ hxv]
      rw [ht, hnt]; exact mem_b _ fB
    · show wr s.inx A B x = _
      rw [wr_other _ _ (mem_a _ lA')]
    · show wr s.ipv B A x = _
      rw [wr_other _ _ (mem_b _ fB')]

end Dyn
end Verif
