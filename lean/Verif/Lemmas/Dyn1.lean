import Verif.Model.IncidentNets
import Verif.Lemmas.Maps
/-! Lemmas: doubly linked lists, entries of the incident net arrays -/
namespace Verif
namespace Dyn
open SMap (wr)

/-! ### Linked lists -/

/-- following `nx` from `a` visits the nodes of `l` and then `b`; `pv` points back -/
def Path (nx pv : Nat → Nat) : Nat → List Nat → Nat → Prop
  | a, [], b => nx a = b ∧ pv b = a
  | a, x :: l, b => nx a = x ∧ pv x = a ∧ Path nx pv x l b

variable {nx pv nx' pv' : Nat → Nat}

theorem Path.append_iff {a b x : Nat} {l m : List Nat} :
    Path nx pv a (l ++ x :: m) b ↔ Path nx pv a l x ∧ Path nx pv x m b := by
  induction l generalizing a with
  | nil => simp only [List.nil_append, Path]; tauto
  | cons y l ih => simp only [List.cons_append, Path, ih]; tauto

theorem Path.snoc_iff {a b x : Nat} {l : List Nat} :
    Path nx pv a (l ++ [x]) b ↔ Path nx pv a l x ∧ nx x = b ∧ pv b = x := by
  rw [Path.append_iff]; rfl

/-- the path depends on `nx` in the nodes it leaves and on `pv` in the nodes it enters -/
theorem Path.congr {a b : Nat} {l : List Nat} (h : Path nx pv a l b)
    (h1 : ∀ x ∈ a :: l, nx' x = nx x) (h2 : ∀ x ∈ l ++ [b], pv' x = pv x) : Path nx' pv' a l b := by
  induction l generalizing a with
  | nil =>
    obtain ⟨h3, h4⟩ := h
    exact ⟨by rw [h1 a (by simp)]; exact h3, by rw [h2 b (by simp)]; exact h4⟩
  | cons x l ih =>
    obtain ⟨h3, h4, h5⟩ := h
    refine ⟨by rw [h1 a (by simp)]; exact h3, by rw [h2 x (by simp)]; exact h4, ih h5 ?_ ?_⟩
    · intro y hy; exact h1 y (List.mem_cons_of_mem _ hy)
    · intro y hy; exact h2 y (by simp only [List.cons_append, List.mem_cons]; exact Or.inr hy)

/-- last node of the list `a :: l` -/
def lastOf (a : Nat) (l : List Nat) : Nat := (a :: l).getLast (by simp)

theorem lastOf_nil (a : Nat) : lastOf a [] = a := rfl
theorem lastOf_cons (a x : Nat) (l : List Nat) : lastOf a (x :: l) = lastOf x l := by simp [lastOf]
theorem lastOf_append (a x : Nat) (l m : List Nat) : lastOf a (l ++ x :: m) = lastOf x m := by
  simp [lastOf, List.getLast_append]
theorem lastOf_mem (a : Nat) (l : List Nat) : lastOf a l ∈ a :: l := List.getLast_mem _

theorem Path.last {a b : Nat} {l : List Nat} (h : Path nx pv a l b) : nx (lastOf a l) = b ∧ pv b = lastOf a l := by
  induction l generalizing a with
  | nil => exact h
  | cons x l ih => rw [lastOf_cons]; exact ih h.2.2

theorem Path.first {a b : Nat} {l : List Nat} (h : Path nx pv a l b) : nx a = (l ++ [b]).head (by simp) := by
  cases l with
  | nil => exact h.1
  | cons x l => exact h.1

/-- redirecting the end of a path -/
theorem Path.retarget {a b c : Nat} {l : List Nat} (h : Path nx pv a l b)
    (h1 : ∀ x ∈ a :: l, x ≠ lastOf a l → nx' x = nx x) (h2 : ∀ x ∈ l, pv' x = pv x)
    (h3 : nx' (lastOf a l) = c) (h4 : pv' c = lastOf a l) (hnd : (a :: l).Nodup) : Path nx' pv' a l c := by
  induction l generalizing a with
  | nil => exact ⟨h3, h4⟩
  | cons x l ih =>
    obtain ⟨h5, h6, h7⟩ := h
    rw [lastOf_cons] at h1 h3 h4
    have hax : a ≠ lastOf x l := by
      intro hh
      have := lastOf_mem x l
      rw [← hh] at this
      exact (List.nodup_cons.1 hnd).1 this
    refine ⟨by rw [h1 a (by simp) hax]; exact h5, by rw [h2 x (by simp)]; exact h6, ih h7 ?_ ?_ h3 h4 (List.nodup_cons.1 hnd).2⟩
    · intro y hy; exact h1 y (List.mem_cons_of_mem _ hy)
    · intro y hy; exact h2 y (List.mem_cons_of_mem _ hy)

/-- a circular list starting at `u` -/
def Ring (nx pv : Nat → Nat) (u : Nat) (r : List Nat) : Prop := Path nx pv u r u

/-! ### Entries -/

/-- removing flagged entries -/
theorem rmEntries_spec (flag : Nat → Bool) (nv : Int) : ∀ (k : Nat) (done todo grp rest : List (Nat × Int)),
    todo.length = k → (∀ p ∈ done, flag p.1 = false ∧ p.2 = nv) →
    ∃ a g, rmEntries flag nv (done ++ todo ++ grp ++ rest) done.length (done.length + todo.length) =
        (done ++ a ++ g ++ grp ++ rest, done.length + a.length) ∧
      (∀ p ∈ a, flag p.1 = false ∧ p.2 = nv) ∧ (a.map Prod.fst).Perm ((todo.map Prod.fst).filter (fun e => !flag e)) ∧
      g.Perm (todo.filter (fun p => flag p.1)) := by
  intro k
  induction k with
  | zero =>
    intro done todo grp rest hk _
    have : todo = [] := List.length_eq_zero_iff.1 hk
    subst this
    refine ⟨[], [], ?_, by simp, by simp, by simp⟩
    unfold rmEntries
    simp
  | succ k ih =>
    intro done todo grp rest hk hd
    match todo, hk with
    | p :: todo, hk =>
      have hk' : todo.length = k := by simpa using hk
      unfold rmEntries
      rw [if_pos (by simp)]
      have hget : (done ++ (p :: todo) ++ grp ++ rest).getD done.length (0, 0) = p := by
        simp [List.getD]
      rw [hget]
      by_cases hf : flag p.1
      · rw [if_pos hf]
        rcases List.eq_nil_or_concat todo with h0 | ⟨todo', q, h0⟩
        · subst h0
          have hsw : swapAt (done ++ [p] ++ grp ++ rest) done.length (done.length + [p].length - 1) =
              done ++ [] ++ (p :: grp) ++ rest := by
            unfold swapAt
            have hg : (done ++ [p] ++ grp ++ rest).getD (done.length + [p].length - 1) (0, 0) = p := by
              simp [List.getD]
            have hg' : (done ++ [p] ++ grp ++ rest).getD done.length (0, 0) = p := by
              simp [List.getD]
            rw [hg, hg']
            simp
          rw [hsw]
          obtain ⟨a, g, h1, h2, h3, h4⟩ := ih done [] (p :: grp) rest (by simpa using hk') hd
          refine ⟨a, g ++ [p], ?_, h2, ?_, ?_⟩
          · rw [show done.length + [p].length - 1 = done.length + ([] : List (Nat × Int)).length by simp, h1]
            simp
          · simpa [hf] using h3
          · have : g = [] := by simpa using h4
            subst this
            simp [hf]
        · have h0 : todo = todo' ++ [q] := by simpa using h0
          subst h0
          have hsw : swapAt (done ++ (p :: (todo' ++ [q])) ++ grp ++ rest) done.length (done.length + (p :: (todo' ++ [q])).length - 1) =
              done ++ (q :: todo') ++ (p :: grp) ++ rest := by
            unfold swapAt
            have hg : (done ++ (p :: (todo' ++ [q])) ++ grp ++ rest).getD (done.length + (p :: (todo' ++ [q])).length - 1) (0, 0) = q := by
              have e : done ++ (p :: (todo' ++ [q])) ++ grp ++ rest = (done ++ p :: todo') ++ q :: (grp ++ rest) := by simp
              have e2 : done.length + (p :: (todo' ++ [q])).length - 1 = (done ++ p :: todo').length := by simp
              rw [e, e2]
              simp [List.getD]
            have hg' : (done ++ (p :: (todo' ++ [q])) ++ grp ++ rest).getD done.length (0, 0) = p := by
              simp [List.getD]
            rw [hg, hg']
            have e3 : (done ++ (p :: (todo' ++ [q])) ++ grp ++ rest).set done.length q = (done ++ q :: todo') ++ q :: (grp ++ rest) := by
              simp
            have e2 : done.length + (p :: (todo' ++ [q])).length - 1 = (done ++ q :: todo').length := by simp
            rw [e3, e2]
            simp
          rw [hsw]
          obtain ⟨a, g, h1, h2, h3, h4⟩ := ih done (q :: todo') (p :: grp) rest (by simpa using hk') hd
          refine ⟨a, g ++ [p], ?_, h2, ?_, ?_⟩
          · rw [show done.length + (p :: (todo' ++ [q])).length - 1 = done.length + (q :: todo').length by simp, h1]
            simp
          · refine h3.trans ?_
            simp only [List.map_cons, List.map_append, List.filter_cons, hf, Bool.not_true, Bool.false_eq_true, if_false,
              List.filter_append, List.map_nil]
            by_cases hq : flag q.1 <;> simp [hq]
            exact (List.perm_append_singleton _ _).symm
          · have : (p :: (todo' ++ [q])).filter (fun p => flag p.1) = p :: ((todo' ++ [q]).filter (fun p => flag p.1)) := by
              simp [hf]
            rw [this]
            refine (List.perm_append_singleton _ _).trans (List.Perm.cons _ (h4.trans ?_))
            by_cases hq : flag q.1 <;> simp [hq]
            exact (List.perm_append_singleton _ _).symm
      · rw [if_neg hf]
        have hf' : flag p.1 = false := by simpa using hf
        have hset : (done ++ (p :: todo) ++ grp ++ rest).set done.length (p.1, nv) = (done ++ [(p.1, nv)]) ++ todo ++ grp ++ rest := by
          simp
        rw [hset]
        obtain ⟨a, g, h1, h2, h3, h4⟩ := ih (done ++ [(p.1, nv)]) todo grp rest hk' (by
          intro x hx
          rw [List.mem_append, List.mem_singleton] at hx
          rcases hx with hx | rfl
          · exact hd x hx
          · exact ⟨hf', rfl⟩)
        refine ⟨(p.1, nv) :: a, g, ?_, ?_, ?_, ?_⟩
        · have e1 : done.length + (p :: todo).length = (done ++ [(p.1, nv)]).length + todo.length := by simp; omega
          have e2 : done.length + 1 = (done ++ [(p.1, nv)]).length := by simp
          rw [e1, e2, h1]
          simp
          omega
        · intro x hx
          rw [List.mem_cons] at hx
          rcases hx with rfl | hx
          · exact ⟨hf', rfl⟩
          · exact h2 x hx
        · simpa [hf'] using h3
        · simpa [hf'] using h4

/-! ### Stacks of removals -/

/-- A step that removed nets from incident net lists: contraction of `v`, or removal of the
single-pin and parallel nets of version `k` -/
inductive Op where
  | contr (v : Nat)
  | ver (k : Nat)

/-- The entries `l` with `sz` active ones were obtained from the nets `base` (at version `v0`) by the
removals `ops` (last one first); `keep o e` tells whether removal `o` left net `e` in the list. -/
def Arr (keep : Op → Nat → Bool) (v0 : Int) (base : List Nat) (l : List (Nat × Int)) : List Op → Nat → Prop
  | [], sz => sz ≤ l.length ∧ ((l.take sz).map Prod.fst).Perm base ∧ ∀ p ∈ l.drop sz, p.2 < v0
  | o :: ops, sz => ∃ g, (∀ p ∈ l.take sz, keep o p.1 = true) ∧
      (∀ p ∈ (l.drop sz).take g, p.2 = v0 + ops.length ∧ keep o p.1 = false) ∧ Arr keep v0 base l ops (sz + g)

variable {keep keep' : Op → Nat → Bool} {v0 : Int} {base : List Nat}

theorem Arr.le {l : List (Nat × Int)} {ops : List Op} {sz : Nat} (h : Arr keep v0 base l ops sz) : sz ≤ l.length := by
  induction ops generalizing sz with
  | nil => exact h.1
  | cons o ops ih =>
    obtain ⟨g, _, _, h⟩ := h
    have := ih h
    omega

theorem Arr.inactive {l : List (Nat × Int)} {ops : List Op} {sz : Nat} (h : Arr keep v0 base l ops sz) :
    ∀ p ∈ l.drop sz, p.2 < v0 + ops.length := by
  induction ops generalizing sz with
  | nil => simpa using h.2.2
  | cons o ops ih =>
    obtain ⟨g, _, h2, h3⟩ := h
    intro p hp
    rw [← List.take_append_drop g (l.drop sz), List.mem_append, List.drop_drop] at hp
    simp only [List.length_cons]
    rcases hp with hp | hp
    · have := (h2 p hp).1; omega
    · have := ih h3 p hp; omega

/-- the active nets are the ones that no removal took -/
theorem Arr.active {l : List (Nat × Int)} {ops : List Op} {sz : Nat} (h : Arr keep v0 base l ops sz) :
    ((l.take sz).map Prod.fst).Perm (base.filter (fun e => ops.all (fun o => keep o e))) := by
  induction ops generalizing sz with
  | nil => simpa using h.2.1
  | cons o ops ih =>
    obtain ⟨g, h1, h2, h3⟩ := h
    have := ih h3
    rw [List.take_add] at this
    have h4 := this.filter (fun e => keep o e)
    rw [List.map_append, List.filter_append] at h4
    have e1 : ((l.take sz).map Prod.fst).filter (fun e => keep o e) = (l.take sz).map Prod.fst := by
      rw [List.filter_eq_self]
      intro e he
      rw [List.mem_map] at he
      obtain ⟨p, hp, rfl⟩ := he
      exact h1 p hp
    have e2 : (((l.drop sz).take g).map Prod.fst).filter (fun e => keep o e) = [] := by
      rw [List.filter_eq_nil_iff]
      intro e he
      rw [List.mem_map] at he
      obtain ⟨p, hp, rfl⟩ := he
      rw [(h2 p hp).2]; simp
    rw [e1, e2, List.append_nil, List.filter_filter] at h4
    simpa [List.all_cons, Bool.and_comm] using h4

/-- the order and the versions of the active entries do not matter -/
theorem Arr.congr {l l' : List (Nat × Int)} {ops : List Op} {sz : Nat} (h : Arr keep v0 base l ops sz)
    (hd : l'.drop sz = l.drop sz) (hp : ((l'.take sz).map Prod.fst).Perm ((l.take sz).map Prod.fst)) :
    Arr keep v0 base l' ops sz := by
  have hlen : l'.length = l.length := by
    have h1 := congrArg List.length hd
    have h2 := hp.length_eq
    simp only [List.length_drop, List.length_map, List.length_take] at h1 h2
    have := h.le
    omega
  induction ops generalizing sz with
  | nil => exact ⟨by rw [hlen]; exact h.1, hp.trans h.2.1, by rw [hd]; exact h.2.2⟩
  | cons o ops ih =>
    obtain ⟨g, h1, h2, h3⟩ := h
    refine ⟨g, ?_, by rw [hd]; exact h2, ih h3 ?_ ?_⟩
    · intro p hp'
      have : p.1 ∈ (l.take sz).map Prod.fst := hp.mem_iff.1 (List.mem_map_of_mem hp')
      rw [List.mem_map] at this
      obtain ⟨q, hq, hqp⟩ := this
      rw [← hqp]
      exact h1 q hq
    · rw [← List.drop_drop, ← List.drop_drop, hd]
    · rw [List.take_add, List.take_add, hd, List.map_append, List.map_append]
      exact hp.append_right _

/-- only the nets of the list matter -/
theorem Arr.keep_congr {l : List (Nat × Int)} {ops : List Op} {sz : Nat} (h : Arr keep v0 base l ops sz)
    (hk : ∀ o ∈ ops, ∀ e, keep' o e = keep o e) : Arr keep' v0 base l ops sz := by
  induction ops generalizing sz with
  | nil => exact h
  | cons o ops ih =>
    obtain ⟨g, h1, h2, h3⟩ := h
    refine ⟨g, ?_, ?_, ih h3 (fun o' ho' e => hk o' (List.mem_cons_of_mem _ ho') e)⟩
    · intro p hp; rw [hk o (by simp)]; exact h1 p hp
    · intro p hp; rw [hk o (by simp)]; exact h2 p hp

/-- `removeIncidentNets` on one array -/
theorem Arr.remove {l : List (Nat × Int)} {ops : List Op} {sz : Nat} (h : Arr keep v0 base l ops sz)
    (hf : ∀ p ∈ l.take sz, p.2 = v0 + ops.length) {flag : Nat → Bool} {o : Op} {nv : Int}
    (hk : ∀ e ∈ (l.take sz).map Prod.fst, flag e = !keep o e) :
    Arr keep v0 base (rmEntries flag nv l 0 sz).1 (o :: ops) (rmEntries flag nv l 0 sz).2 ∧
    (∀ p ∈ (rmEntries flag nv l 0 sz).1.take (rmEntries flag nv l 0 sz).2, p.2 = nv) ∧
    (rmEntries flag nv l 0 sz).2 ≤ sz ∧ (rmEntries flag nv l 0 sz).1.length = l.length ∧
    (((rmEntries flag nv l 0 sz).1.take (rmEntries flag nv l 0 sz).2).map Prod.fst).Perm
      (((l.take sz).map Prod.fst).filter (fun e => keep o e)) := by
  obtain ⟨a, g, h1, h2, h3, h4⟩ := rmEntries_spec flag nv (l.take sz).length [] (l.take sz) [] (l.drop sz) rfl (by simp)
  have hle := h.le
  have hl : (l.take sz).length = sz := by rw [List.length_take]; omega
  simp only [List.nil_append, List.append_nil, List.length_nil, Nat.zero_add, List.take_append_drop, hl] at h1
  rw [h1]
  have hga : ((a ++ g).map Prod.fst).Perm ((l.take sz).map Prod.fst) := by
    rw [List.map_append]
    have h5 : (g.map Prod.fst).Perm (((l.take sz).map Prod.fst).filter flag) := by
      have := h4.map Prod.fst
      rwa [show (List.filter (fun p => flag p.1) (l.take sz)).map Prod.fst = ((l.take sz).map Prod.fst).filter flag by
        rw [List.filter_map]; rfl] at this
    refine (h3.append h5).trans ?_
    refine List.perm_append_comm.trans ?_
    exact List.filter_append_perm _ _
  have hlen : (a ++ g).length = sz := by
    have := hga.length_eq
    rw [List.length_map, List.length_map, hl] at this
    exact this
  refine ⟨⟨g.length, ?_, ?_, ?_⟩, ?_, ?_, ?_, ?_⟩
  · intro p hp
    simp only [List.append_assoc, List.take_left'] at hp
    have hp' : p ∈ a := hp
    have := (h2 p hp').1
    have hm : p.1 ∈ (l.take sz).map Prod.fst := by
      refine hga.mem_iff.1 ?_
      rw [List.map_append, List.mem_append]
      exact Or.inl (List.mem_map_of_mem hp')
    rw [hk _ hm] at this
    simpa using this
  · intro p hp
    simp only [List.append_assoc, List.drop_left', List.take_left'] at hp
    have hp' : p ∈ g := hp
    have hm : p ∈ (l.take sz).filter (fun p => flag p.1) := h4.mem_iff.1 hp'
    rw [List.mem_filter] at hm
    refine ⟨hf p hm.1, ?_⟩
    have := hk p.1 (List.mem_map_of_mem hm.1)
    rw [hm.2] at this
    simpa using this.symm
  · have e : a.length + g.length = sz := by simpa using hlen
    rw [e]
    refine h.congr ?_ ?_
    · rw [← hlen]; simp
    · rw [show (a ++ g ++ l.drop sz).take sz = a ++ g from List.take_left' hlen]
      exact hga
  · intro p hp
    simp only [List.append_assoc, List.take_left'] at hp
    exact (h2 p hp).2
  · have : a.length + g.length = sz := by simpa using hlen
    show a.length ≤ sz
    omega
  · have : a.length + g.length = sz := by simpa using hlen
    simp only [List.length_append, List.length_drop]
    omega
  · simp only [List.append_assoc, List.take_left']
    refine h3.trans ?_
    rw [show ((l.take sz).map Prod.fst).filter (fun e => !flag e) = ((l.take sz).map Prod.fst).filter (fun e => keep o e) from ?_]
    refine List.filter_congr ?_
    intro e he
    rw [hk e he]; simp

/-- the entries that `restoreIncidentNets` activates -/
theorem Arr.restore {l : List (Nat × Int)} {ops : List Op} {sz : Nat} {o : Op} (h : Arr keep v0 base l (o :: ops) sz) {c : Int}
    (hc : c = v0 + ops.length) :
    Arr keep v0 base l ops (sz + ((l.drop sz).takeWhile (fun p => p.2 == c)).length) ∧
    (((l.drop sz).takeWhile (fun p => p.2 == c)).map Prod.fst).Perm
      (base.filter (fun e => ops.all (fun o => keep o e) && !keep o e)) := by
  subst hc
  have h0 := h.active
  obtain ⟨g, h1, h2, h3⟩ := h
  have hle := h3.le
  have htw : (l.drop sz).takeWhile (fun p => p.2 == v0 + ops.length) = (l.drop sz).take g := by
    conv_lhs => rw [← List.take_append_drop g (l.drop sz)]
    rw [List.takeWhile_append_of_pos]
    · have : (l.drop sz).drop g = l.drop (sz + g) := by rw [List.drop_drop]
      rw [this]
      have hin := h3.inactive
      cases hd : l.drop (sz + g) with
      | nil => simp
      | cons p r =>
        have := hin p (by rw [hd]; simp)
        rw [List.takeWhile_cons, if_neg]
        · simp
        · simp only [beq_iff_eq]; omega
    · intro p hp
      simp only [beq_iff_eq]
      exact (h2 p hp).1
  rw [htw]
  have hl : ((l.drop sz).take g).length = g := by rw [List.length_take, List.length_drop]; omega
  rw [hl]
  refine ⟨h3, ?_⟩
  have h4 := h3.active
  rw [List.take_add, List.map_append] at h4
  have h5 := h4.filter (fun e => !keep o e)
  rw [List.filter_append] at h5
  have e1 : ((l.take sz).map Prod.fst).filter (fun e => !keep o e) = [] := by
    rw [List.filter_eq_nil_iff]
    intro e he
    rw [List.mem_map] at he
    obtain ⟨p, hp, rfl⟩ := he
    rw [h1 p hp]; simp
  have e2 : (((l.drop sz).take g).map Prod.fst).filter (fun e => !keep o e) = ((l.drop sz).take g).map Prod.fst := by
    rw [List.filter_eq_self]
    intro e he
    rw [List.mem_map] at he
    obtain ⟨p, hp, rfl⟩ := he
    rw [(h2 p hp).2]; rfl
  rw [e1, e2, List.nil_append, List.filter_filter] at h5
  refine h5.trans ?_
  rw [List.filter_congr]
  intro e _
  rw [Bool.and_comm]

end Dyn
end Verif
