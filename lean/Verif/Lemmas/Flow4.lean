import Verif.Lemmas.Flow3
import Verif.Lemmas.Rollback5
namespace Verif
namespace Flow
open DetLP (Mv moveAll Fit Good)
open CSt Rollback PHG

variable {σ : Type} {C : ConInfo σ} {c : Cfg} {m mx : Nat}

/-! ### Quotient graph -/

/-- hyperedge `e` is in the list of the pair `i`, `j` -/
def Listed (qg : Nat → Nat → List Nat) (e i j : Nat) : Prop := e ∈ qg (min i j) (max i j)

theorem listed_addCut {qg : Nat → Nat → List Nat} {a b e e' i j : Nat} (h : Listed qg e' i j) : Listed (addCut qg a b e) e' i j := by
  unfold Listed addCut at *
  split_ifs
  · exact List.mem_append_left _ h
  · exact h

theorem listed_new (qg : Nat → Nat → List Nat) (a b e : Nat) : Listed (addCut qg a b e) e a b := by
  unfold Listed addCut
  rw [if_pos ⟨rfl, rfl⟩]; simp

theorem listed_symm {qg : Nat → Nat → List Nat} {e i j : Nat} (h : Listed qg e i j) : Listed qg e j i := by
  unfold Listed at *
  rwa [min_comm, max_comm]

theorem foldl_mono {α β : Type} {Q : β → Prop} (f : β → α → β) (hf : ∀ b a, Q b → Q (f b a)) (l : List α) : ∀ b, Q b → Q (l.foldl f b) := by
  induction l with
  | nil => intro b h; exact h
  | cons a l ih => intro b h; exact ih _ (hf b a h)

theorem foldl_hit {α β : Type} {Q : β → Prop} (f : β → α → β) (hf : ∀ b a, Q b → Q (f b a)) {a : α} (ha : ∀ b, Q (f b a)) (l : List α) (hl : a ∈ l) :
    ∀ b, Q (l.foldl f b) := by
  induction l with
  | nil => simp at hl
  | cons x l ih =>
    intro b
    rw [List.foldl_cons]
    rcases List.mem_cons.1 hl with rfl | h
    · exact foldl_mono f hf l _ (ha b)
    · exact ih h _

theorem initQG_listed (con : σ) (order : List Nat) {e i j : Nat} (he : e ∈ order) (hi : i ∈ C.connSet con e) (hj : j ∈ C.connSet con e) (hij : i < j) :
    Listed (initQG C con order) e i j := by
  unfold initQG
  have m1 : ∀ (e' i' : Nat) (qg : Nat → Nat → List Nat), Listed qg e i j →
      Listed ((C.connSet con e').foldl (fun qg j' => if i' < j' then addCut qg i' j' e' else qg) qg) e i j := by
    intro e' i' qg h
    refine foldl_mono (Q := fun q => Listed q e i j) _ (fun q a hq => ?_) _ _ h
    split_ifs
    · exact listed_addCut hq
    · exact hq
  have m2 : ∀ (e' : Nat) (qg : Nat → Nat → List Nat), Listed qg e i j → Listed ((C.connSet con e').foldl (fun qg i =>
      (C.connSet con e').foldl (fun qg j => if i < j then addCut qg i j e' else qg) qg) qg) e i j := by
    intro e' qg h
    exact foldl_mono (Q := fun q => Listed q e i j) _ (fun q a hq => m1 e' a q hq) _ _ h
  refine foldl_hit (Q := fun q => Listed q e i j) _ (fun q a hq => m2 a q hq) (a := e) (fun q => ?_) order he _
  refine foldl_hit (Q := fun q => Listed q e i j) _ (fun q a hq => m1 e a q hq) (a := i) (fun q => ?_) _ hi _
  refine foldl_hit (Q := fun q => Listed q e i j) _ (fun q a hq => ?_) (a := j) (fun q => ?_) _ hj _
  · split_ifs
    · exact listed_addCut hq
    · exact hq
  · rw [if_pos hij]
    exact listed_new q i j e

/-- the new block `b` of hyperedge `e` still has to be compared with block `i` -/
def Waiting (x : FSt σ) (e b i : Nat) : Prop := ∃ t n, (e, b, n) ∈ x.pend t ∧ n ≤ i

/-- the running call added block `b` to hyperedge `e` -/
def Fresh (x : FSt σ) (e b : Nat) : Prop := ∃ j u, x.job = some j ∧ u ∈ x.s.log.drop j.base ∧ u.he = e ∧ u.dst = b ∧ u.dstAfter = 1

def Covered (x : FSt σ) (e i j : Nat) : Prop := Listed x.qg e i j ∨ Waiting x e i j ∨ Waiting x e j i ∨ Fresh x e i ∨ Fresh x e j

structure CovInv (C : ConInfo σ) (c : Cfg) (x : FSt σ) : Prop where
  job : ∀ j, x.job = some j → j.back = false ∧ j.base ≤ x.s.log.length ∧ x.pend j.thread = []
  cov : ∀ e ∈ c.H.edges, ∀ i j, i < c.k → j < c.k → i ≠ j → C.contains x.s.con e i = true → C.contains x.s.con e j = true → Covered x e i j

theorem contains_view {L : C.Lawful m c.k mx} (hf : c.H.Fits m mx) {s : CSt σ} (hI : Inv L c.H s) {e b : Nat} (he : e ∈ c.H.edges) (hb : b < c.k) :
    C.contains s.con e b = true ↔ 0 < c.H.pinsIn (s.view e) e b := by
  obtain ⟨T, h1, h2⟩ := hI.con
  rw [L.contains_eq h1 (hf e he).1 hb, h2 e he b hb]
  simp

/-- a step of `changeNodePart` that adds a block to a hyperedge writes it into the log -/
theorem contains_step {L : C.Lawful m c.k mx} (hw : c.H.WF) (hf : c.H.Fits m mx) {s s' : CSt σ} {a : Act} (hI : Inv L c.H s)
    (hst : CSt.step C c.H c.k c.o s a = some s') : ∃ l, s'.log = s.log ++ l ∧ ∀ e ∈ c.H.edges, ∀ b, b < c.k → C.contains s'.con e b = true →
      C.contains s.con e b = true ∨ ∃ u ∈ l, u.he = e ∧ u.dst = b ∧ u.dstAfter = 1 := by
  obtain ⟨hI', heff⟩ := hI.step hw hf (step_Step hst)
  cases heff with
  | none hv hl =>
    refine ⟨[], by simp [hl], fun e he b hb hc => Or.inl ?_⟩
    rw [contains_view hf hI' he hb] at hc
    rw [contains_view hf hI he hb]
    have : c.H.pinsIn (s'.view e) e b = c.H.pinsIn (s.view e) e b := by
      unfold HG.pinsIn
      exact List.countP_congr (fun v hv' => by simp [hv e he v hv'])
    omega
  | edge u src dst e0 hu he0 hp hs hne hsk hdk hv1 hv2 hl hm hpu t hq hq' hcache hmoved hpart hwt =>
    refine ⟨_, hl, fun e he b hb hc => ?_⟩
    rw [contains_view hf hI' he hb] at hc
    rw [contains_view hf hI he hb]
    by_cases hee : e = e0
    · subst hee
      have hve : s'.view e = (s.view e).put u dst := funext hv1
      rw [hve] at hc
      have key := HG.pinsIn_put_mem (Φ := s.view e) (b := dst) (c := b) (hw.pins_nodup e he) hp
      by_cases h0 : 0 < c.H.pinsIn (s.view e) e b
      · exact Or.inl h0
      · right
        refine ⟨_, List.mem_singleton.2 rfl, rfl, ?_⟩
        have hbd : b = dst := by
          by_contra hbd
          rw [if_neg hbd] at key
          omega
        subst hbd
        refine ⟨rfl, ?_⟩
        show c.H.pinsIn ((s.view e).put u b) e b = 1
        rw [hs, if_neg (by simp [hne]), if_pos rfl] at key
        omega
    · left
      have : s'.view e = s.view e := funext (hv2 e hee)
      rwa [this] at hc

theorem mem_newCuts {log : List EdgeUpdate} {base : Nat} {u : EdgeUpdate} (hu : u ∈ log.drop base) (h1 : u.dstAfter = 1) : (u.he, u.dst, 0) ∈ newCuts log base := by
  unfold newCuts
  exact List.mem_filterMap.2 ⟨u, hu, by simp [h1]⟩

theorem Covered.mono {x y : FSt σ} {e i j : Nat} (h : Covered x e i j) (h1 : ∀ a b, Listed x.qg e a b → Listed y.qg e a b)
    (h2 : ∀ a b, Waiting x e a b → Waiting y e a b) (h3 : ∀ a, Fresh x e a → Fresh y e a) : Covered y e i j := by
  rcases h with h | h | h | h | h
  · exact Or.inl (h1 _ _ h)
  · exact Or.inr (Or.inl (h2 _ _ h))
  · exact Or.inr (Or.inr (Or.inl (h2 _ _ h)))
  · exact Or.inr (Or.inr (Or.inr (Or.inl (h3 _ h))))
  · exact Or.inr (Or.inr (Or.inr (Or.inr (h3 _ h))))

/-- steps of `changeNodePart` -/
theorem CovInv.move {L : C.Lawful m c.k mx} (hw : c.H.WF) (hf : c.H.Fits m mx) {x : FSt σ} {s' : CSt σ} {a : Act} {j j' : Job} (h : CovInv C c x)
    (hI : Inv L c.H x.s) (hj : x.job = some j) (hst : CSt.step C c.H c.k c.o x.s a = some s') (h1 : j'.back = j.back) (h2 : j'.base = j.base) (h3 : j'.thread = j.thread) :
    CovInv C c { x with s := s', job := some j' } := by
  obtain ⟨l, hl, hc⟩ := contains_step hw hf hI hst
  obtain ⟨hb, hlen, hpd⟩ := h.job j hj
  refine ⟨fun j2 hj2 => ?_, fun e he i i' hi hi' hii h5 h6 => ?_⟩
  · simp only [Option.some.injEq] at hj2
    subst hj2
    refine ⟨by rw [h1]; exact hb, ?_, by rw [h3]; exact hpd⟩
    show j'.base ≤ s'.log.length
    rw [h2, hl, List.length_append]; omega
  · have hdrop : s'.log.drop j'.base = x.s.log.drop j.base ++ l := by
      rw [h2, hl, List.drop_append_of_le_length hlen]
    have fr : ∀ b, (∃ u ∈ l, u.he = e ∧ u.dst = b ∧ u.dstAfter = 1) → Fresh { x with s := s', job := some j' } e b := by
      rintro b ⟨u, hu, hh⟩
      exact ⟨j', u, rfl, by show u ∈ s'.log.drop j'.base; rw [hdrop]; exact List.mem_append_right _ hu, hh⟩
    rcases hc e he i hi h5 with c1 | c1
    · rcases hc e he i' hi' h6 with c2 | c2
      · refine (h.cov e he i i' hi hi' hii c1 c2).mono (fun _ _ hh => hh) (fun _ _ hh => hh) ?_
        rintro b ⟨j2, u, hj2, hu, hh⟩
        rw [hj] at hj2
        simp only [Option.some.injEq] at hj2
        subst hj2
        exact ⟨j', u, rfl, by show u ∈ s'.log.drop j'.base; rw [hdrop]; exact List.mem_append_left _ hu, hh⟩
      · exact Or.inr (Or.inr (Or.inr (Or.inr (fr _ c2))))
    · exact Or.inr (Or.inr (Or.inr (Or.inl (fr _ c1))))

theorem CovInv.step {L : C.Lawful m c.k mx} (hw : c.H.WF) (hf : c.H.Fits m mx) {x y : FSt σ} {a : FAct} (h : CovInv C c x) (hI : Inv L c.H x.s)
    (hst : step C c x a = some y) (hr : y.reverted = false) (hk : y.kept = 0) : CovInv C c y := by
  cases a with
  | begin t ms =>
    unfold Flow.step at hst
    dsimp only at hst
    split_ifs at hst with hg hok
    · simp only [Option.some.injEq] at hst; subst hst
      have hn : x.job = none := by simpa using hg.1
      refine ⟨fun j hj => ?_, fun e he i i' hi hi' hii h5 h6 => ?_⟩
      · simp only [Option.some.injEq] at hj; subst hj
        exact ⟨rfl, le_refl _, hg.2.1⟩
      · refine (h.cov e he i i' hi hi' hii h5 h6).mono (fun _ _ hh => hh) (fun _ _ hh => hh) ?_
        rintro b ⟨j2, u, hj2, hu, hh⟩
        rw [hn] at hj2; simp at hj2
    · simp only [Option.some.injEq] at hst; subst hst
      exact ⟨h.job, h.cov⟩
  | read t =>
    unfold Flow.step at hst
    dsimp only at hst
    cases hp : x.pend t with
    | nil => rw [hp] at hst; simp at hst
    | cons a rest =>
      obtain ⟨e0, b0, n0⟩ := a
      rw [hp] at hst
      dsimp only at hst
      by_cases hlt : n0 < c.k
      · rw [if_pos hlt] at hst
        simp only [Option.some.injEq] at hst; subst hst
        refine ⟨fun j hj => ?_, fun e he i i' hi hi' hii h5 h6 => ?_⟩
        · obtain ⟨q1, q2, q3⟩ := h.job j hj
          refine ⟨q1, q2, ?_⟩
          show setPend x.pend t _ j.thread = []
          unfold setPend
          rw [if_neg (fun hh => by rw [hh, hp] at q3; simp at q3)]; exact q3
        · have mono1 : ∀ a b, Listed x.qg e a b → Listed (if C.contains x.s.con e0 n0 = true ∧ n0 ≠ b0 then addCut x.qg b0 n0 e0 else x.qg) e a b := by
            intro a b hh
            split_ifs
            · exact listed_addCut hh
            · exact hh
          have w : ∀ a b, a ≠ b → C.contains x.s.con e b = true → Waiting x e a b →
              Listed (if C.contains x.s.con e0 n0 = true ∧ n0 ≠ b0 then addCut x.qg b0 n0 e0 else x.qg) e a b ∨
              Waiting { x with pend := setPend x.pend t ((e0, b0, n0 + 1) :: rest), qg := if C.contains x.s.con e0 n0 = true ∧ n0 ≠ b0 then addCut x.qg b0 n0 e0 else x.qg } e a b := by
            rintro a b hab hcb ⟨t', n, hm, hn⟩
            by_cases htt : t' = t
            · subst htt
              rw [hp] at hm
              rcases List.mem_cons.1 hm with heq | hm
              · simp only [Prod.mk.injEq] at heq
                obtain ⟨rfl, rfl, rfl⟩ := heq
                by_cases hnb : n = b
                · subst hnb
                  left
                  rw [if_pos ⟨hcb, fun hh => hab hh.symm⟩]
                  exact listed_new _ _ _ _
                · exact Or.inr ⟨t', n + 1, by show _ ∈ setPend _ _ _ _; simp [setPend], by omega⟩
              · exact Or.inr ⟨t', n, by show _ ∈ setPend _ _ _ _; simp [setPend, hm], hn⟩
            · exact Or.inr ⟨t', n, by show _ ∈ setPend _ _ _ _; simp [setPend, htt, hm], hn⟩
          rcases h.cov e he i i' hi hi' hii h5 h6 with hh | hh | hh | hh | hh
          · exact Or.inl (mono1 _ _ hh)
          · rcases w i i' hii h6 hh with g | g
            · exact Or.inl g
            · exact Or.inr (Or.inl g)
          · rcases w i' i (fun q => hii q.symm) h5 hh with g | g
            · exact Or.inl (listed_symm g)
            · exact Or.inr (Or.inr (Or.inl g))
          · exact Or.inr (Or.inr (Or.inr (Or.inl hh)))
          · exact Or.inr (Or.inr (Or.inr (Or.inr hh)))
      · rw [if_neg hlt] at hst
        simp only [Option.some.injEq] at hst; subst hst
        refine ⟨fun j hj => ?_, fun e he i i' hi hi' hii h5 h6 => ?_⟩
        · obtain ⟨q1, q2, q3⟩ := h.job j hj
          refine ⟨q1, q2, ?_⟩
          show setPend x.pend t _ j.thread = []
          unfold setPend
          rw [if_neg (fun hh => by rw [hh, hp] at q3; simp at q3)]; exact q3
        · have w : ∀ a b, b < c.k → Waiting x e a b → Waiting { x with pend := setPend x.pend t rest } e a b := by
            rintro a b hb ⟨t', n, hm, hn⟩
            by_cases htt : t' = t
            · subst htt
              rw [hp] at hm
              rcases List.mem_cons.1 hm with heq | hm
              · simp only [Prod.mk.injEq] at heq
                obtain ⟨rfl, rfl, rfl⟩ := heq
                omega
              · exact ⟨t', n, by show _ ∈ setPend _ _ _ _; simp [setPend, hm], hn⟩
            · exact ⟨t', n, by show _ ∈ setPend _ _ _ _; simp [setPend, htt, hm], hn⟩
          rcases h.cov e he i i' hi hi' hii h5 h6 with hh | hh | hh | hh | hh
          · exact Or.inl hh
          · exact Or.inr (Or.inl (w _ _ hi' hh))
          · exact Or.inr (Or.inr (Or.inl (w _ _ hi hh)))
          · exact Or.inr (Or.inr (Or.inr (Or.inl hh)))
          · exact Or.inr (Or.inr (Or.inr (Or.inr hh)))
  | run =>
    unfold Flow.step at hst
    cases hj : x.job with
    | none => rw [hj] at hst; simp at hst
    | some j =>
      rw [hj] at hst
      dsimp only at hst
      obtain ⟨q1, q2, q3⟩ := h.job j hj
      cases hc : j.cur with
      | some u =>
        rw [hc] at hst
        dsimp only at hst
        cases hs : CSt.step C c.H c.k c.o x.s (.tick u) with
        | none => rw [hs] at hst; simp at hst
        | some s' =>
          rw [hs] at hst
          simp only [Option.some.injEq] at hst
          subst hst
          exact h.move hw hf hI hj hs rfl rfl rfl
      | none =>
        rw [hc] at hst
        dsimp only at hst
        cases ht : j.todo with
        | cons a rest =>
          rw [ht] at hst
          dsimp only at hst
          by_cases hab : a.src = a.dst
          · rw [if_pos hab] at hst
            simp only [Option.some.injEq] at hst
            subst hst
            refine ⟨fun j2 hj2 => ?_, fun e he i i' hi hi' hii h5 h6 => ?_⟩
            · simp only [Option.some.injEq] at hj2
              subst hj2
              exact ⟨q1, q2, q3⟩
            · refine (h.cov e he i i' hi hi' hii h5 h6).mono (fun _ _ hh => hh) (fun _ _ hh => hh) ?_
              rintro b ⟨j2, u, hj2, hu, hh⟩
              rw [hj] at hj2
              simp only [Option.some.injEq] at hj2
              subst hj2
              exact ⟨_, u, rfl, hu, hh⟩
          · rw [if_neg hab] at hst
            cases hs : CSt.step C c.H c.k c.o x.s (.start a.node a.dst maxHNW) with
            | none => rw [hs] at hst; simp at hst
            | some s' =>
              rw [hs] at hst
              simp only [Option.some.injEq] at hst
              subst hst
              exact h.move hw hf hI hj hs rfl rfl rfl
        | nil =>
          rw [ht] at hst
          dsimp only at hst
          rw [q1] at hst
          simp only [Bool.false_eq_true, if_false] at hst
          split_ifs at hst
          · simp only [Option.some.injEq] at hst
            subst hst
            simp at hr
          · simp only [Option.some.injEq] at hst
            subst hst
            simp at hk
          · simp only [Option.some.injEq] at hst
            subst hst
            refine ⟨fun j2 hj2 => by simp at hj2, fun e he i i' hi hi' hii h5 h6 => ?_⟩
            have fr : ∀ b b', Fresh x e b → Waiting { x with job := none, total := x.total + improvement c.o x.s.log j.base, pend := setPend x.pend j.thread (newCuts x.s.log j.base) } e b b' := by
              rintro b b' ⟨j2, u, hj2, hu, rfl, rfl, h1⟩
              rw [hj] at hj2
              simp only [Option.some.injEq] at hj2
              subst hj2
              exact ⟨j.thread, 0, by show _ ∈ setPend _ _ _ _; simp only [setPend, if_true]; exact mem_newCuts hu h1, Nat.zero_le _⟩
            have w : ∀ a b, Waiting x e a b → Waiting { x with job := none, total := x.total + improvement c.o x.s.log j.base, pend := setPend x.pend j.thread (newCuts x.s.log j.base) } e a b := by
              rintro a b ⟨t', n, hm, hn⟩
              by_cases htt : t' = j.thread
              · rw [htt, q3] at hm; simp at hm
              · exact ⟨t', n, by show _ ∈ setPend _ _ _ _; simp [setPend, htt, hm], hn⟩
            rcases h.cov e he i i' hi hi' hii h5 h6 with hh | hh | hh | hh | hh
            · exact Or.inl hh
            · exact Or.inr (Or.inl (w _ _ hh))
            · exact Or.inr (Or.inr (Or.inl (w _ _ hh)))
            · exact Or.inr (Or.inl (fr _ _ hh))
            · exact Or.inr (Or.inr (Or.inl (fr _ _ hh)))

/-- `reverted` and `kept` only grow -/
theorem flags_step {x y : FSt σ} {a : FAct} (hst : step C c x a = some y) : (y.reverted = false → x.reverted = false) ∧ x.kept ≤ y.kept := by
  cases a with
  | begin t ms =>
    unfold Flow.step at hst
    dsimp only at hst
    split_ifs at hst <;> (simp only [Option.some.injEq] at hst; subst hst; exact ⟨fun h => h, le_refl _⟩)
  | read t =>
    obtain ⟨_, _, _, _, h5, h6⟩ := read_same hst
    exact ⟨fun h => by rw [← h6]; exact h, by rw [h5]⟩
  | run =>
    unfold Flow.step at hst
    dsimp only at hst
    split at hst
    · simp at hst
    · split at hst
      · split at hst
        · simp only [Option.some.injEq] at hst; subst hst; exact ⟨fun h => h, le_refl _⟩
        · simp at hst
      · split at hst
        · split_ifs at hst
          · simp only [Option.some.injEq] at hst; subst hst; exact ⟨fun h => h, le_refl _⟩
          · split at hst
            · simp only [Option.some.injEq] at hst; subst hst; exact ⟨fun h => h, le_refl _⟩
            · simp at hst
        · split_ifs at hst <;> (simp only [Option.some.injEq] at hst; subst hst; first | exact ⟨fun h => h, le_refl _⟩ | exact ⟨fun h => h, Nat.le_succ _⟩ | exact ⟨fun h => by simp at h, le_refl _⟩)

theorem cov_exec {L : C.Lawful m c.k mx} (E : Env c m mx) {sI : CSt σ} (hG : Good L c.H sI) {x y : FSt σ} {as : List FAct}
    (h : FInv C c L sI x) (hc : x.reverted = false → CovInv C c x) (he : exec C c x as = some y) : y.reverted = false → CovInv C c y := by
  refine (exec_induct (Q := fun x => FInv C c L sI x ∧ (x.reverted = false → CovInv C c x)) ?_ as ⟨h, hc⟩ he).2
  rintro x a y ⟨h1, h2⟩ hst
  have h3 := h1.step E hst
  refine ⟨h3, fun hr => ?_⟩
  obtain ⟨f1, f2⟩ := flags_step hst
  obtain ⟨bs, hb⟩ := h1.hist
  exact (h2 (f1 hr)).step E.wf E.fits (exec_inv E.wf E.fits hG.inv hG.wt hb).1 hst hr h3.kept

theorem cov_start {L : C.Lawful m c.k mx} (hf : c.H.Fits m mx) {s : CSt σ} (hG : Good L c.H s) {order : List Nat} (ho : ∀ e ∈ c.H.edges, e ∈ order) : CovInv C c (start C s order) := by
  refine ⟨fun j hj => by simp [start] at hj, fun e he i j hi hj hij h5 h6 => Or.inl ?_⟩
  obtain ⟨T, hR, _⟩ := hG.inv.con
  have mem : ∀ b, b < c.k → C.contains s.con e b = true → b ∈ C.connSet s.con e := by
    intro b hb hc
    rw [L.contains_eq hR (hf e he).1 hb] at hc
    exact (L.connSet_mem hR (hf e he).1 b).2 ⟨hb, by simpa using hc⟩
  rcases Nat.lt_or_gt_of_ne hij with hlt | hlt
  · exact initQG_listed s.con order (ho e he) (mem i hi h5) (mem j hj h6) hlt
  · exact listed_symm (initQG_listed s.con order (ho e he) (mem j hj h6) (mem i hi h5) hlt)

/-- result: all searches have finished -/
theorem cov_done {L : C.Lawful m c.k mx} (E : Env c m mx) {x : FSt σ} (hG : Good L c.H x.s) (h : CovInv C c x) (hj : x.job = none) (hp : ∀ t, x.pend t = [])
    {e i j : Nat} (he : e ∈ c.H.edges) (hi : i < c.k) (hjk : j < c.k) (hij : i < j) (h1 : ∃ u ∈ c.H.pins e, x.s.part u = some i) (h2 : ∃ u ∈ c.H.pins e, x.s.part u = some j) :
    e ∈ x.qg i j := by
  have hv := view_quiescent ((quiescent_iff x.s).1 hG.quiet) E.wf
  have cont : ∀ b, b < c.k → (∃ u ∈ c.H.pins e, x.s.part u = some b) → C.contains x.s.con e b = true := by
    rintro b hb ⟨u, hu, hub⟩
    rw [contains_view E.fits hG.inv he hb]
    unfold HG.pinsIn
    rw [List.countP_pos_iff]
    exact ⟨u, hu, by simp [hv e he u hu, hub]⟩
  rcases h.cov e he i j hi hjk (by omega) (cont i hi h1) (cont j hjk h2) with hh | ⟨t, n, hh, _⟩ | ⟨t, n, hh, _⟩ | ⟨j', _, hh, _⟩ | ⟨j', _, hh, _⟩
  · unfold Listed at hh
    rwa [min_eq_left (by omega), max_eq_right (by omega)] at hh
  · rw [hp] at hh; simp at hh
  · rw [hp] at hh; simp at hh
  · rw [hj] at hh; simp at hh
  · rw [hj] at hh; simp at hh

end Flow
end Verif
