import Verif.Lemmas.DFlow4
/-! # Deterministic flow refinement: one matching -/
namespace Verif
namespace DFlow
open DetLP (Mv moveAll moveAll_other moveAll_mem Fit Good)
open Flow (Env)
open CSt Rollback PHG

/-! ### Flags -/

/-- no lost updates: at most one task, or the read and the write of a flag are not separated -/
def Calm (n : Nat) (flags : List Nat) : Prop := n ≤ 1 ∨ ∃ l : List Nat, flags = l.flatMap (fun t => [t, t])

theorem flagStep_todo {x y : FlagSt} {t : Nat} (h : flagStep x t = some y) : ∀ u, ∃ a, x.todo u = a ++ y.todo u := by
  intro u
  unfold flagStep at h
  split at h
  · cases h
  · rename_i b rest hb
    split at h
    · injection h with h; subst h; exact ⟨[], rfl⟩
    · injection h with h; subst h
      simp only [set_apply]
      split_ifs with hu
      · subst hu; exact ⟨[b], by rw [hb]; rfl⟩
      · exact ⟨[], rfl⟩

/-- only requested flags are set, for every interleaving -/
theorem flag_sound (flags : List Nat) (word0 : Nat → Bool) (todo0 : Nat → List Nat) : ∀ {x y : FlagSt},
    (∀ t b, b ∈ x.todo t → b ∈ todo0 t) → (∀ b, x.word b = true → word0 b = true ∨ ∃ t, b ∈ todo0 t) →
    (∀ t w b, x.reg t = some w → w b = true → word0 b = true ∨ ∃ t, b ∈ todo0 t) → flagExec x flags = some y →
    ∀ b, y.word b = true → word0 b = true ∨ ∃ t, b ∈ todo0 t := by
  induction flags with
  | nil => intro x y _ h2 _ he; simp only [flagExec] at he; cases he; exact h2
  | cons t ts ih =>
    intro x y h1 h2 h3 he
    rw [flagExec] at he
    cases hs : flagStep x t with
    | none => rw [hs] at he; cases he
    | some z =>
      rw [hs] at he
      unfold flagStep at hs
      cases hb : x.todo t with
      | nil => rw [hb] at hs; cases hs
      | cons b rest =>
        simp only [hb] at hs
        cases hr : x.reg t with
        | none =>
          simp only [hr] at hs
          injection hs with hs; subst hs
          refine ih (x := ⟨x.word, x.todo, set x.reg t (some x.word)⟩) h1 h2 ?_ he
          intro u w b' hw hb'
          simp only [set_apply] at hw
          split_ifs at hw with hu
          · cases hw; exact h2 b' hb'
          · exact h3 u w b' hw hb'
        | some w =>
          simp only [hr] at hs
          injection hs with hs; subst hs
          refine ih (x := ⟨_, _, _⟩) ?_ ?_ ?_ he
          · intro u b' hb'
            simp only [set_apply] at hb'
            split_ifs at hb' with hu
            · subst hu; exact h1 u b' (by rw [hb]; simp [hb'])
            · exact h1 u b' hb'
          · intro b' hb'
            simp only [] at hb'
            split_ifs at hb' with hw hbb
            · subst hbb; exact Or.inr ⟨t, h1 t _ (by rw [hb]; simp)⟩
            · exact h3 t w b' hr hb'
            · exact h2 b' hb'
          · intro u w' b' hw' hb'
            simp only [set_apply] at hw'
            split_ifs at hw' with hu
            exact h3 u w' b' hw' hb'

/-- nothing requested gets lost -/
def Kept (word0 : Nat → Bool) (todo0 : Nat → List Nat) (x : FlagSt) : Prop := ∀ b, (word0 b = true ∨ ∃ t, b ∈ todo0 t) → x.word b = true ∨ ∃ t, b ∈ x.todo t

theorem Kept.write {word0 : Nat → Bool} {todo0 : Nat → List Nat} {x : FlagSt} (h : Kept word0 todo0 x) {t b : Nat} {rest : List Nat} (ht : x.todo t = b :: rest)
    (reg : Nat → Option (Nat → Bool)) :
    Kept word0 todo0 ⟨fun b' => if b' / 64 = b / 64 then (if b' = b then true else x.word b') else x.word b', set x.todo t rest, reg⟩ := by
  intro b' hb'
  simp only []
  by_cases hbb : b' = b
  · subst hbb; left; simp
  · rcases h b' hb' with h | ⟨u, hu⟩
    · left; simp [h]
    · right
      refine ⟨u, ?_⟩
      rw [set_apply]
      split_ifs with hut
      · subst hut
        rw [ht] at hu
        rcases List.mem_cons.1 hu with hu | hu
        · exact absurd hu hbb
        · exact hu
      · exact hu

theorem kept_atomic (l : List Nat) (word0 : Nat → Bool) (todo0 : Nat → List Nat) : ∀ {x y : FlagSt}, Kept word0 todo0 x → (∀ t, x.reg t = none) →
    flagExec x (l.flatMap (fun t => [t, t])) = some y → Kept word0 todo0 y := by
  induction l with
  | nil => intro x y h _ he; simp only [List.flatMap_nil, flagExec] at he; cases he; exact h
  | cons t ts ih =>
    intro x y h hr he
    rw [List.flatMap_cons] at he
    simp only [List.cons_append, List.nil_append] at he
    rw [flagExec] at he
    cases hs : flagStep x t with
    | none => rw [hs] at he; cases he
    | some z =>
      rw [hs] at he
      simp only [] at he
      rw [flagExec] at he
      cases hs2 : flagStep z t with
      | none => rw [hs2] at he; cases he
      | some z2 =>
        rw [hs2] at he
        unfold flagStep at hs
        cases hb : x.todo t with
        | nil => rw [hb] at hs; cases hs
        | cons b rest =>
          simp only [hb, hr t] at hs
          injection hs with hs; subst hs
          unfold flagStep at hs2
          simp only [hb, set_same] at hs2
          injection hs2 with hs2; subst hs2
          refine ih (h.write hb _) ?_ he
          intro u
          simp only [set_apply]
          split_ifs
          · rfl
          · exact hr u

theorem kept_single (flags : List Nat) (word0 : Nat → Bool) (todo0 : Nat → List Nat) : ∀ {x y : FlagSt}, Kept word0 todo0 x →
    (∀ t, t ≠ 0 → x.todo t = []) → (x.reg 0 = none ∨ x.reg 0 = some x.word) → flagExec x flags = some y → Kept word0 todo0 y := by
  induction flags with
  | nil => intro x y h _ _ he; simp only [flagExec] at he; cases he; exact h
  | cons t ts ih =>
    intro x y h h1 hr he
    rw [flagExec] at he
    cases hs : flagStep x t with
    | none => rw [hs] at he; cases he
    | some z =>
      rw [hs] at he
      unfold flagStep at hs
      cases hb : x.todo t with
      | nil => rw [hb] at hs; cases hs
      | cons b rest =>
        have ht : t = 0 := by
          by_contra hh
          rw [h1 t hh] at hb; cases hb
        subst ht
        rcases hr with hr | hr
        · simp only [hb, hr] at hs
          injection hs with hs; subst hs
          exact ih (x := ⟨x.word, x.todo, set x.reg 0 (some x.word)⟩) h h1 (Or.inr (by simp [set])) he
        · simp only [hb, hr] at hs
          injection hs with hs; subst hs
          refine ih (h.write hb _) ?_ (Or.inl (by simp [set])) he
          intro u hu
          simp only []
          rw [set_other _ _ hu]; exact h1 u hu

theorem flagExec_todo (flags : List Nat) : ∀ {x y : FlagSt}, flagExec x flags = some y → ∀ u, ∃ a, x.todo u = a ++ y.todo u := by
  induction flags with
  | nil => intro x y he u; simp only [flagExec] at he; cases he; exact ⟨[], rfl⟩
  | cons t ts ih =>
    intro x y he u
    rw [flagExec] at he
    cases hs : flagStep x t with
    | none => rw [hs] at he; cases he
    | some z =>
      rw [hs] at he
      obtain ⟨a, ha⟩ := flagStep_todo hs u
      obtain ⟨b, hb⟩ := ih he u
      exact ⟨a ++ b, by rw [ha, hb, List.append_assoc]⟩

theorem flagStart_todo {word : Nat → Bool} {ts : List (Nat × Nat)} {g : Nat × Nat → Int} {b : Nat} :
    (∃ t, b ∈ (flagStart word ts (ts.map g)).todo t) ↔ ∃ p ∈ ts, g p > 0 ∧ (b = p.1 ∨ b = p.2) := by
  unfold flagStart
  simp only [List.getElem?_map]
  constructor
  · rintro ⟨t, ht⟩
    cases hp : ts[t]? with
    | none => simp [hp] at ht
    | some p =>
      simp only [hp, Option.map_some] at ht
      split_ifs at ht with hg
      · refine ⟨p, List.mem_of_getElem? hp, hg, by simpa using ht⟩
      · simp at ht
  · rintro ⟨p, hp, hg, hb⟩
    obtain ⟨t, ht⟩ := List.getElem?_of_mem hp
    refine ⟨t, ?_⟩
    simp only [ht, Option.map_some]
    rw [if_pos hg]
    simpa using hb

/-- the flags after a matching, for every interleaving: no flag is set without a reason -/
theorem flags_sound {word : Nat → Bool} {ts : List (Nat × Nat)} {g : Nat × Nat → Int} {flags : List Nat} {f : FlagSt}
    (he : flagExec (flagStart word ts (ts.map g)) flags = some f) {b : Nat} (hb : f.word b = true) :
    word b = true ∨ ∃ p ∈ ts, g p > 0 ∧ (b = p.1 ∨ b = p.2) := by
  rw [← flagStart_todo (word := word)]
  exact flag_sound flags word (flagStart word ts (ts.map g)).todo (fun _ _ h => h) (fun b h => Or.inl h) (fun t w b h => by cases h) he b hb

/-- the flags after a matching without lost updates -/
theorem flags_calm {word : Nat → Bool} {ts : List (Nat × Nat)} {g : Nat × Nat → Int} {flags : List Nat} {f : FlagSt}
    (he : flagExec (flagStart word ts (ts.map g)) flags = some f) (hf : f.finished ts.length = true) (hc : Calm ts.length flags) (b : Nat) :
    f.word b = true ↔ word b = true ∨ ∃ p ∈ ts, g p > 0 ∧ (b = p.1 ∨ b = p.2) := by
  constructor
  · exact flags_sound he
  · intro hb
    rw [← flagStart_todo (word := word)] at hb
    have hout : ∀ t, ¬ t < ts.length → (flagStart word ts (ts.map g)).todo t = [] := by
      intro t ht
      unfold flagStart
      simp only []
      rw [List.getElem?_eq_none (by omega)]
    have hk : Kept word (flagStart word ts (ts.map g)).todo f := by
      rcases hc with hc | ⟨l, rfl⟩
      · refine kept_single flags _ _ ?_ ?_ (Or.inl rfl) he
        · intro b hb; exact hb
        · intro t ht; exact hout t (by omega)
      · exact kept_atomic l _ _ (fun b hb => hb) (fun _ => rfl) he
    rcases hk b hb with h | ⟨t, ht⟩
    · exact h
    · exfalso
      by_cases htn : t < ts.length
      · unfold FlagSt.finished at hf
        rw [List.all_eq_true] at hf
        have := hf t (List.mem_range.2 htn)
        simp at this
        rw [this] at ht; simp at ht
      · obtain ⟨a, ha⟩ := flagExec_todo flags he t
        rw [hout t htn] at ha
        have : f.todo t = [] := by
          have := congrArg List.length ha
          simp at this
          exact List.eq_nil_of_length_eq_zero (by omega)
        rw [this] at ht; simp at ht

/-! ### Quotient graph -/

theorem addAll_cut (H : HG) (ps : List (Nat × Nat × Nat)) (i j : Nat) : ∀ q : QG, (addAll H q ps).cut i j =
    q.cut i j ++ (ps.filter (fun p => decide (i = min p.1 p.2.1 ∧ j = max p.1 p.2.1))).map (fun p => p.2.2) := by
  induction ps with
  | nil => intro q; simp [addAll]
  | cons p ps ih =>
    intro q
    show (addAll H (q.add H p.1 p.2.1 p.2.2) ps).cut i j = _
    rw [ih]
    by_cases h : i = min p.1 p.2.1 ∧ j = max p.1 p.2.1
    · rw [List.filter_cons_of_pos (by simpa using h)]
      show (if i = min p.1 p.2.1 ∧ j = max p.1 p.2.1 then q.cut i j ++ [p.2.2] else q.cut i j) ++ _ = _
      rw [if_pos h]; simp
    · rw [List.filter_cons_of_neg (by simpa using h)]
      show (if i = min p.1 p.2.1 ∧ j = max p.1 p.2.1 then q.cut i j ++ [p.2.2] else q.cut i j) ++ _ = _
      rw [if_neg h]

theorem addAll_weight (H : HG) (ps : List (Nat × Nat × Nat)) (i j : Nat) : ∀ q : QG, (addAll H q ps).weight i j =
    q.weight i j + ((ps.filter (fun p => decide (i = min p.1 p.2.1 ∧ j = max p.1 p.2.1))).map (fun p => H.ew p.2.2)).sum := by
  induction ps with
  | nil => intro q; simp [addAll]
  | cons p ps ih =>
    intro q
    show (addAll H (q.add H p.1 p.2.1 p.2.2) ps).weight i j = _
    rw [ih]
    by_cases h : i = min p.1 p.2.1 ∧ j = max p.1 p.2.1
    · rw [List.filter_cons_of_pos (by simpa using h)]
      show (if i = min p.1 p.2.1 ∧ j = max p.1 p.2.1 then q.weight i j + H.ew p.2.2 else q.weight i j) + _ = _
      rw [if_pos h, List.map_cons, List.sum_cons]; omega
    · rw [List.filter_cons_of_neg (by simpa using h)]
      show (if i = min p.1 p.2.1 ∧ j = max p.1 p.2.1 then q.weight i j + H.ew p.2.2 else q.weight i j) + _ = _
      rw [if_neg h]

theorem addAll_imp (H : HG) (ps : List (Nat × Nat × Nat)) : ∀ q : QG, (addAll H q ps).nimp = q.nimp ∧ (addAll H q ps).timp = q.timp := by
  induction ps with
  | nil => intro q; simp [addAll]
  | cons p ps ih => intro q; exact ih (q.add H p.1 p.2.1 p.2.2)

theorem report_fold (l : List (Nat × Nat)) (g : Nat × Nat → Int) : ∀ q : QG,
    ((l.map (fun p => (p, g p))).foldl (fun q p => q.report p.1.1 p.1.2 p.2) q).cut = q.cut ∧
    ((l.map (fun p => (p, g p))).foldl (fun q p => q.report p.1.1 p.1.2 p.2) q).weight = q.weight ∧
    (∀ i j, ((l.map (fun p => (p, g p))).foldl (fun q p => q.report p.1.1 p.1.2 p.2) q).nimp i j = q.nimp i j + (l.filter (fun p => decide (p = (i, j) ∧ g p > 0))).length) ∧
    (∀ i j, ((l.map (fun p => (p, g p))).foldl (fun q p => q.report p.1.1 p.1.2 p.2) q).timp i j = q.timp i j + ((l.filter (fun p => decide (p = (i, j) ∧ g p > 0))).map g).sum) := by
  induction l with
  | nil => intro q; simp
  | cons p l ih =>
    intro q
    rw [List.map_cons, List.foldl_cons]
    obtain ⟨r1, r2, r3, r4⟩ := ih (q.report p.1 p.2 (g p))
    refine ⟨?_, ?_, fun i j => ?_, fun i j => ?_⟩
    · rw [r1]; unfold QG.report; split_ifs <;> rfl
    · rw [r2]; unfold QG.report; split_ifs <;> rfl
    · rw [r3]
      have hpe : (p = (i, j)) ↔ (i = p.1 ∧ j = p.2) := by rw [Prod.ext_iff]; constructor <;> rintro ⟨a, b⟩ <;> exact ⟨a.symm, b.symm⟩
      by_cases hg : g p > 0
      · by_cases hp : p = (i, j)
        · rw [List.filter_cons_of_pos (by simp [hp] at hg ⊢; exact hg)]
          unfold QG.report
          rw [if_pos hg]
          simp only []
          rw [if_pos (hpe.1 hp)]; simp; omega
        · rw [List.filter_cons_of_neg (by simp [hp])]
          unfold QG.report
          rw [if_pos hg]
          simp only []
          rw [if_neg (fun hh => hp (hpe.2 hh))]
      · rw [List.filter_cons_of_neg (by simp [hg])]
        unfold QG.report
        rw [if_neg hg]
    · rw [r4]
      have hpe : (p = (i, j)) ↔ (i = p.1 ∧ j = p.2) := by rw [Prod.ext_iff]; constructor <;> rintro ⟨a, b⟩ <;> exact ⟨a.symm, b.symm⟩
      by_cases hg : g p > 0
      · by_cases hp : p = (i, j)
        · rw [List.filter_cons_of_pos (by simp [hp] at hg ⊢; exact hg)]
          unfold QG.report
          rw [if_pos hg]
          simp only []
          rw [if_pos (hpe.1 hp), List.map_cons, List.sum_cons]; omega
        · rw [List.filter_cons_of_neg (by simp [hp])]
          unfold QG.report
          rw [if_pos hg]
          simp only []
          rw [if_neg (fun hh => hp (hpe.2 hh))]
      · rw [List.filter_cons_of_neg (by simp [hg])]
        unfold QG.report
        rw [if_neg hg]

/-! ### The tasks of a matching -/

theorem map_range_get {α β : Type} (l : List α) (G : Nat → β) (g : α → β) (h : ∀ t (ht : t < l.length), G t = g l[t]) : (List.range l.length).map G = l.map g := by
  apply List.ext_getElem
  · simp
  · intro t h1 h2
    simp only [List.getElem_map, List.getElem_range]
    exact h t (by simpa using h1)

theorem flatMap_range_get {α β : Type} (l : List α) (G : Nat → List β) (g : α → List β) (h : ∀ t (ht : t < l.length), G t = g l[t]) :
    (List.range l.length).flatMap G = l.flatMap g := by
  rw [List.flatMap_def, List.flatMap_def]
  exact congrArg List.flatten (map_range_get l G g h)

theorem zip_map_self {α β : Type} (l : List α) (g : α → β) : l.zip (l.map g) = l.map (fun p => (p, g p)) := by
  induction l with
  | nil => rfl
  | cons a l ih => simp [ih]

variable {σ : Type} {C : ConInfo σ} {c : Cfg} {m mx : Nat}

/-- The computed moves are moves between the two blocks, from the current block, with every node at most once. -/
def FlowOK (c : Cfg) : Prop := ∀ i j Φ es, i < j → j < c.fc.k → (∀ v ∈ c.fc.H.nodes, ∃ b, b < c.fc.k ∧ Φ v = some b) → TaskOK c.fc.H Φ i j (c.flow i j Φ es)

/-- the moves computed for a pair -/
def mvOf (c : Cfg) (Φ : Assign) (q : QG) (p : Nat × Nat) : List Mv := c.flow p.1 p.2 Φ ((q.cut p.1 p.2).insertionSort (· ≤ ·))

/-- the improvement if only these moves are performed -/
def gainOf (c : Cfg) (Φ : Assign) (q : QG) (p : Nat × Nat) : Int :=
  c.fc.H.objective Φ c.fc.o - c.fc.H.objective (moveAll Φ (mvOf c Φ q p)) c.fc.o

/-- the insertions into the quotient graph -/
def pushList (C : ConInfo σ) (c : Cfg) (con : σ) (Φ : Assign) (q : QG) (ts : List (Nat × Nat)) : List (Nat × Nat × Nat) :=
  ts.flatMap (fun p => (newCuts (seqLog c.fc.H Φ (mvOf c Φ q p))).flatMap (fun r => pushesOf C con r.1 r.2))

theorem movesOf_get {Φ : Assign} {q : QG} {ts : List (Nat × Nat)} {t : Nat} (ht : t < ts.length) : movesOf c Φ q ts t = mvOf c Φ q ts[t] := by
  unfold movesOf mvOf
  rw [List.getElem?_eq_getElem ht]

/-- the pairs of a matching -/
structure IsMatching (k : Nat) (ms : List (Nat × Nat)) : Prop where
  lt : ∀ p ∈ ms, p.1 < p.2 ∧ p.2 < k
  disj : ms.Pairwise Disj

theorem IsMatching.perm {k : Nat} {ms ts : List (Nat × Nat)} (h : IsMatching k ms) (hp : ts.Perm ms) : IsMatching k ts :=
  ⟨fun p hh => h.lt p (hp.subset hh), (hp.pairwise_iff (fun {a b} hab => ⟨Ne.symm hab.1, Ne.symm hab.2.2.1, Ne.symm hab.2.1, Ne.symm hab.2.2.2⟩)).2 h.disj⟩

theorem IsMatching.nodup {k : Nat} {ms : List (Nat × Nat)} (h : IsMatching k ms) : ms.Nodup :=
  List.Pairwise.imp (fun hab hh => hab.1 (congrArg Prod.fst hh)) h.disj

theorem IsMatching.tasks (hF : FlowOK c) {ts : List (Nat × Nat)} (h : IsMatching c.fc.k ts) {Φ : Assign} (q : QG)
    (hΦ : ∀ v ∈ c.fc.H.nodes, ∃ b, b < c.fc.k ∧ Φ v = some b) :
    Tasks c.fc.H c.fc.k Φ ts.length (fun t => (ts[t]?).getD (0, 0)) (movesOf c Φ q ts) := by
  refine ⟨fun t ht => ?_, fun t ht => ?_, fun t t' ht ht' hne => ?_, fun t ht => ?_⟩
  · rw [movesOf_get ht]
    simp only [List.getElem?_eq_getElem ht, Option.getD_some]
    obtain ⟨h1, h2⟩ := h.lt _ (List.getElem_mem ht)
    exact hF _ _ _ _ h1 h2 hΦ
  · simp only [List.getElem?_eq_getElem ht, Option.getD_some]
    obtain ⟨h1, h2⟩ := h.lt _ (List.getElem_mem ht)
    exact ⟨by omega, h2⟩
  · simp only [List.getElem?_eq_getElem ht, List.getElem?_eq_getElem ht', Option.getD_some]
    have hp := List.pairwise_iff_getElem.1 h.disj
    rcases Nat.lt_or_gt_of_ne hne with hlt | hlt
    · exact hp t t' ht ht' hlt
    · have := hp t' t ht' ht hlt
      exact ⟨Ne.symm this.1, Ne.symm this.2.2.1, Ne.symm this.2.1, Ne.symm this.2.2.2⟩
  · unfold movesOf
    rw [List.getElem?_eq_none (by omega)]

/-- **One matching**, for all scheduling decisions. -/
structure MatchRes (C : ConInfo σ) (c : Cfg) (L : C.Lawful m c.fc.k mx) (x : DSt σ) (ms : List (Nat × Nat)) (ch : Choice) (y : DSt σ) : Prop where
  perm : ch.order.Perm ms
  good : Good L c.fc.H y.s
  part : y.s.part = moveAll x.s.part (ch.order.flatMap (mvOf c x.s.part x.q))
  obj : c.fc.H.objective y.s.part c.fc.o = c.fc.H.objective x.s.part c.fc.o - (ch.order.map (gainOf c x.s.part x.q)).sum
  delta : y.delta = x.delta + (ch.order.map (gainOf c x.s.part x.q)).sum
  total : y.total = x.total
  h : ∃ f, flagExec (flagStart x.h.next ch.order (ch.order.map (gainOf c x.s.part x.q))) ch.flags = some f ∧ f.finished ch.order.length = true ∧
    y.h = { x.h with next := f.word }
  q : y.q = addAll c.fc.H ((ch.order.map (fun p => (p, gainOf c x.s.part x.q p))).foldl (fun q p => q.report p.1.1 p.1.2 p.2) (sortCut x.q ch.order)) ch.pushes
  pushes : ch.pushes.Perm (pushList C c y.s.con x.s.part x.q ch.order)

theorem matching_spec {L : C.Lawful m c.fc.k mx} (E : Env c.fc m mx) (hF : FlowOK c) {x y : DSt σ} {ms : List (Nat × Nat)} {ch : Choice} (hG : Good L c.fc.H x.s)
    (hms : IsMatching c.fc.k ms) (he : matching C c x ms ch = some y) : MatchRes C c L x ms ch y := by
  unfold matching at he
  split_ifs at he with hperm
  rw [List.isPerm_iff] at hperm
  have hts := hms.perm hperm
  have T := hts.tasks hF x.q (fun v hv => hG.inv.assigned v hv)
  cases hx : texec C c (taskStart c x.s x.q ch.order) ch.sched with
  | none => simp [hx] at he
  | some z =>
    simp only [hx] at he
    by_cases hfin : z.finished ch.order.length = true
    swap
    · rw [if_neg hfin] at he; cases he
    rw [if_pos hfin] at he
    obtain ⟨d1, d2, d3, d4, d5⟩ := ((TInv.start hG T).exec E T ch.sched hx).done E hG T hfin
    have hmoves : allMoves (movesOf c x.s.part x.q ch.order) ch.order.length = ch.order.flatMap (mvOf c x.s.part x.q) :=
      flatMap_range_get _ _ _ (fun t ht => movesOf_get ht)
    have himps : impsOf c z ch.order = ch.order.map (gainOf c x.s.part x.q) := by
      unfold impsOf
      refine map_range_get _ _ _ (fun t ht => ?_)
      rw [d4 t ht, movesOf_get ht]; rfl
    have hpush : (List.range ch.order.length).flatMap (fun t => (newCuts (z.logs t)).flatMap (fun p => pushesOf C z.s.con p.1 p.2)) =
        pushList C c z.s.con x.s.part x.q ch.order := by
      unfold pushList
      refine flatMap_range_get _ _ _ (fun t ht => ?_)
      rw [d3 t ht, movesOf_get ht]
    have hzip : ch.order.zip (impsOf c z ch.order) = ch.order.map (fun p => (p, gainOf c x.s.part x.q p)) := by
      rw [himps]
      exact zip_map_self _ _
    rw [hzip, himps] at he
    cases hfl : flagExec (flagStart x.h.next ch.order (ch.order.map (gainOf c x.s.part x.q))) ch.flags with
    | none => simp [hfl] at he
    | some f =>
      simp only [hfl] at he
      by_cases hff : f.finished ch.order.length = true
      swap
      · rw [if_neg hff] at he; cases he
      rw [if_pos hff] at he
      split_ifs at he with hps
      rw [List.isPerm_iff, hpush] at hps
      injection he with he
      subst he
      have hsum : ((List.range ch.order.length).map (fun t => imp c.fc.o (z.logs t))).sum = (ch.order.map (gainOf c x.s.part x.q)).sum :=
        congrArg List.sum himps
      refine ⟨hperm, d1, by simp only []; rw [d2, hmoves], ?_, rfl, rfl, ⟨f, hfl, hff, rfl⟩, rfl, hps⟩
      simp only []
      rw [hsum] at d5
      omega

end DFlow
end Verif
